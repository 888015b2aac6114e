import Verif.Spec.Interrupt
import Verif.Spec.Residual

/-! Solvers of linear systems that are not exact. -/

namespace GGCE.Spec

/-- A linear solver that may raise, and whose answers to a system with one solution leave a residual of at most `ρ` times
the norm of the right-hand side. -/
def Relative (ρ : ℝ) (spsolve : LinSys ℂ → Py (ℕ → ℂ)) : Prop :=
  ∀ ls n, cooRows ls.triples = n → cooCols ls.triples = n → ls.rhsRow + 1 = n → (∃ x, Solution ls n x) →
    (∀ x y, Solution ls n x → Solution ls n y → ∀ i < n, x i = y i) →
    ∀ x, spsolve ls = .ok x → residualNorm ls n x ≤ ρ * ‖ls.rhsVal‖

/-- a sparse solver with a linear solver of that quality, or the dense solver with exact arithmetic -/
def KindRelative (ρ : ℝ) : SolverKind ℂ → Prop
  | .sparse sp => Relative ρ sp
  | .dense => True

/-- a linear solver that does not raise on a system with one solution -/
def Answers (spsolve : LinSys ℂ → Py (ℕ → ℂ)) : Prop :=
  ∀ ls n, cooRows ls.triples = n → cooCols ls.triples = n → ls.rhsRow + 1 = n → (∃ x, Solution ls n x) →
    (∀ x y, Solution ls n x → Solution ls n y → ∀ i < n, x i = y i) → ∃ x, spsolve ls = .ok x

/-- a sparse solver with a linear solver that does not raise, or the dense solver -/
def KindAnswers : SolverKind ℂ → Prop
  | .sparse sp => Answers sp
  | .dense => True

/-- the error that a relative residual of `ρ` allows: `(1 + Σ_h |g_h| √N_h / eta) ρ / eta` -/
noncomputable def residualError (m : Model ℝ) (ρ eta : ℝ) : ℝ := sensitivity m eta * (ρ / eta)

/-- how accurate a solver is: as the residual allows, and with a root as the names of the files allow; a cached number may
be that of a broadening smaller by `1e-10` -/
noncomputable def toleranceTo (m : Model ℝ) (ρ : ℝ) (root : Option String) (eta : ℝ) : ℝ := match root with
  | none => residualError m ρ eta
  | some _ => residualError m ρ (eta - 1 / 10 ^ 10) + decimals m eta

end GGCE.Spec
