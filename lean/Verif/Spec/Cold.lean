import Verif.Spec.Variance
import Verif.Spec.Stability

/-! How far a call of `add_` at a temperature is from the same call at zero temperature. -/

namespace GGCE.Spec

/-- `c |g| ((√(1+n) - 1) √N + √n √N')`, with the thermal occupation `n`, the number `c` of terms of the coupling and the
largest numbers of phonons `N` and of fictitious phonons `N'`. -/
noncomputable def coldShift (hopping T : ℝ) (a : AddArgs ℝ) : ℝ :=
  termCount a.ctype * √(strengthSq hopping a) *
    ((√(1 + thermal T a.freq) - 1) * √(a.N : ℝ) + √(thermal T a.freq) * √(a.Ntfd.getD 0 : ℝ))

end GGCE.Spec
