import Verif.Spec.Stability
import Verif.Spec.Linear
import Mathlib.Data.Nat.Factorial.Basic

/-! How well a vector of unknowns satisfies a linear system, and what the size of the interaction is. -/

namespace GGCE.Spec

/-- `(Σ_{i<n} |x_i|²)^(1/2)` -/
noncomputable def vecNorm (n : ℕ) (x : ℕ → ℂ) : ℝ := √(∑ i ∈ Finset.range n, ‖x i‖ ^ 2)

/-- row `i` of matrix times vector -/
noncomputable def applied (ls : LinSys ℂ) (n : ℕ) (x : ℕ → ℂ) (i : ℕ) : ℂ :=
  ∑ j ∈ Finset.range n, cooEntry ls.triples i j * x j

/-- the right-hand side -/
noncomputable def target (ls : LinSys ℂ) (i : ℕ) : ℂ := if i = ls.rhsRow then ls.rhsVal else 0

/-- the norm of matrix times vector minus right-hand side -/
noncomputable def residualNorm (ls : LinSys ℂ) (n : ℕ) (x : ℕ → ℂ) : ℝ :=
  vecNorm n (fun i => applied ls n x i - target ls i)

/-- `(Σ_{i,j<n} |A_ij|²)^(1/2)` -/
noncomputable def matNorm (ls : LinSys ℂ) (n : ℕ) : ℝ :=
  √(∑ i ∈ Finset.range n, ∑ j ∈ Finset.range n, ‖cooEntry ls.triples i j‖ ^ 2)

/-- `Σ_h |g_h| √N_h`, over the terms of the Hamiltonian -/
noncomputable def interaction (m : Model ℝ) : ℝ :=
  (m.ham.terms.map (fun h => |h.coupling| * √(maxNumber m h.phononIndex))).sum

/-- `1 + Σ_h |g_h| √N_h / eta` -/
noncomputable def sensitivity (m : Model ℝ) (eta : ℝ) : ℝ := 1 + interaction m / eta

/-- `Π_T N_T!` -/
def factorials (m : Model ℝ) : ℕ := ∏ t ∈ Finset.range m.nTypes, (m.number.getD t 0).toNat.factorial

/-- a rounding to a floating-point format: relative error at most `u`, or absolute error at most `τ` (numbers
too small to be represented); no overflow -/
def Rounds (u τ : ℝ) (rnd : ℂ → ℂ) : Prop := 0 ≤ u ∧ 0 ≤ τ ∧ ∀ z, ‖rnd z - z‖ ≤ u * ‖z‖ + τ

end GGCE.Spec
