import Verif.Spec.Resolvent
import Mathlib.Analysis.SpecialFunctions.Trigonometric.Basic

/-! Words for property C120: terms on the electron's own site, and the band of the free electron. -/

namespace GGCE.Spec

/-- every term changes the phonons on the site of the electron and leaves the electron there -/
def Onsite (m : Model ℝ) : Prop := ∀ h ∈ m.ham.terms, h.psi.tw = 0 ∧ h.phi.tw = 0

/-- the energy `-2 t cos(k a)` of an electron without phonons -/
noncomputable def freeEnergy (t a k : ℝ) : ℝ := -(2 * t * Real.cos (k * a))

end GGCE.Spec
