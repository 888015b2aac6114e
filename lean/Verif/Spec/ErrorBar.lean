import Verif.Spec.Untruncated
import Mathlib.Analysis.SpecialFunctions.Exp

/-! How large the effect of the limits on the phonons can be. -/

namespace GGCE.Spec

/-- the sum of the absolute values of the strengths of all coupling terms -/
noncomputable def totalCoupling (m : Model ℝ) : ℝ := (m.ham.terms.map (fun h : SingleTerm ℝ => |h.coupling|)).sum

/-- `β` is an admissible rate of decay at broadening `eta`: at most `1/5`, and at most `η / (8 (2|t| + Γ))` with `Γ`
the sum of the couplings -/
structure Rate (m : Model ℝ) (eta β : ℝ) : Prop where
  pos : 0 < β
  le : β ≤ 1 / 5
  slow : 8 * β * (2 * |m.ham.hopping| + totalCoupling m) ≤ eta

/-- `4 Γ / (β η²) · exp(-β √(B/2))` -/
noncomputable def errorBar (m : Model ℝ) (eta β : ℝ) (B : ℤ) : ℝ :=
  4 * totalCoupling m / (β * eta ^ 2) * Real.exp (-(β * √((B : ℝ) / 2)))

end GGCE.Spec
