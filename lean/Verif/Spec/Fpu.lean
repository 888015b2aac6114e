import Verif.Spec.Rounding
import Verif.Spec.Residual
import Verif.Spec.Linear
import Verif.Model.FloatSolver

/-! What is asked of the machine's complex arithmetic and of a linear solver that works in it. -/

namespace GGCE.Spec

/-- products and sums have a relative error of at most `u` -/
structure FpuTo (u : ℝ) (M : Fpu ℂ) : Prop where
  mul : ∀ a b, ‖M.mul a b - a * b‖ ≤ u * ‖a * b‖
  add : ∀ a b, ‖M.add a b - (a + b)‖ ≤ u * ‖a + b‖

/-- A backward stable linear solver: to a square system with exactly one solution it answers numbers whose residual is at
most `δ (‖A‖ ‖x‖ + ‖b‖)`; they solve a system that differs from the given one by a relative `δ`. -/
def BackwardStable (δ : ℝ) (spsolve : LinSys ℂ → Py (ℕ → ℂ)) : Prop :=
  ∀ ls n, cooRows ls.triples = n → cooCols ls.triples = n → ls.rhsRow + 1 = n → (∃ x, Solution ls n x) →
    (∀ x y, Solution ls n x → Solution ls n y → ∀ i < n, x i = y i) →
    ∃ x, spsolve ls = .ok x ∧ residualNorm ls n x ≤ δ * (matNorm ls n * vecNorm n x + ‖ls.rhsVal‖)

/-- error of a sum of at most `s` terms, each of size at most `c` and known up to `γ` -/
noncomputable def sumError (u c γ : ℝ) (s : ℕ) : ℝ := s * (γ + u * (s * c)) * (1 + u) ^ s

end GGCE.Spec
