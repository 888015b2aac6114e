import Verif.Spec.Variance
import Verif.Spec.Edge

/-! The energy of the polaron: an upper bound from the first moments of the spectral function. -/

namespace GGCE.Spec

/-- `1/2π ∫ dq V(k,q)²/g² 2 t cos(q)`, the mean kinetic energy (with the opposite sign) of the scattered electron -/
noncomputable def drift (ctype : String) (hopping x : ℝ) : ℝ :=
  if ctype = "BondPeierls" then 2 * hopping * Real.cos x else 0

/-- The energy of what the coupling makes of the bare electron, `⟨w|H|w⟩` with `w = (H - ε)|bare⟩`: an emitted phonon
costs its frequency, an absorbed one brings it, and the scattered electron has its kinetic energy. -/
noncomputable def scatteredEnergy (hopping T x : ℝ) (as : List (AddArgs ℝ)) : ℝ :=
  (as.map (fun a => strengthSq hopping a *
    (spread a.ctype x * a.freq - drift a.ctype hopping x * (2 * thermal T a.freq + 1)))).sum

/-- the lower eigenvalue of the matrix with diagonal `a`, `b` and off-diagonal `√v` -/
noncomputable def lowerLevel (a b v : ℝ) : ℝ := (a + b) / 2 - √(((b - a) / 2) ^ 2 + v)

end GGCE.Spec
