import Verif.Spec.Measure

/-! Where a spectral measure begins. -/

namespace GGCE.Spec
open MeasureTheory

/-- `e` is the lower end of the measure: it has no mass below `e`, and some below every higher energy -/
def Begins (ρ : Measure ℝ) (e : ℝ) : Prop := ρ (Set.Iio e) = 0 ∧ ∀ e' : ℝ, e < e' → ρ (Set.Iio e') ≠ 0

end GGCE.Spec
