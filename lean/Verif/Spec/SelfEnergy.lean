import Verif.Spec.Operator

/-! The self-energy, read off from the Green's function. -/

namespace GGCE.Spec
open Complex

/-- The self-energy of a Green's function with the value `G` at `w + i eta`, for the free energy `ε`: what has to be added
to `ε` for the free propagator `1/(w + i eta - ε)` to become `G`. -/
noncomputable def impliedSelf (ε w eta : ℝ) (G : ℂ) : ℂ := w + I * eta - ε - 1 / G

end GGCE.Spec
