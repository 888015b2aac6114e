import Mathlib.MeasureTheory.Integral.Bochner.Basic
import Mathlib.MeasureTheory.Constructions.BorelSpace.Complex

/-! Spectral measures: moments, the Stieltjes transform, and the broadening by a Lorentzian. -/

namespace GGCE.Spec
open MeasureTheory

/-- the numbers `s 0, s 1, ...` are the moments `∫ x^j dρ` of the measure -/
def HasMoments (ρ : Measure ℝ) (s : ℕ → ℂ) : Prop :=
  ∀ j : ℕ, Integrable (fun x : ℝ => x ^ j) ρ ∧ ((∫ x, x ^ j ∂ρ : ℝ) : ℂ) = s j

/-- the Stieltjes transform `∫ dρ(x) / (z - x)` -/
noncomputable def stieltjes (ρ : Measure ℝ) (z : ℂ) : ℂ := ∫ x : ℝ, 1 / (z - x) ∂ρ

/-- the measure broadened by a Lorentzian of half width `eta`, at `w` -/
noncomputable def broadened (ρ : Measure ℝ) (w eta : ℝ) : ℝ := ∫ x : ℝ, eta / Real.pi / ((w - x) ^ 2 + eta ^ 2) ∂ρ

end GGCE.Spec
