import Verif.Spec.Edge
import Verif.Spec.Modes

/-! A call of `add_` in between two others. -/

namespace GGCE.Spec

/-- The call `x` of `add_` lies between `a` and `a'`, which ask for a phonon of the same kind with the same limits: its
coupling is at most the weighted mean of theirs, its frequency at least the weighted mean, its limits at most theirs. A
coupling may only vanish together with the other one. At temperatures `T > 0` all frequencies are the same. -/
structure Between (T θ : ℝ) (a a' x : AddArgs ℝ) : Prop where
  ctype : a'.ctype = a.ctype
  ctypeX : x.ctype = a.ctype
  g : ∃ g g' gx, a.g = some g ∧ a'.g = some g' ∧ x.g = some gx ∧ (g = 0 ↔ g' = 0) ∧
    |gx| ≤ θ * |g| + (1 - θ) * |g'|
  freq : θ * a.freq + (1 - θ) * a'.freq ≤ x.freq
  M : a'.M = a.M
  N : a'.N = a.N
  Mx : x.M ≤ a.M
  Nx : x.N ≤ a.N
  warm : 0 < T → a'.freq = a.freq ∧ x.freq = a.freq ∧ a'.Mtfd.getD 0 = a.Mtfd.getD 0 ∧ a'.Ntfd.getD 0 = a.Ntfd.getD 0 ∧
    x.Mtfd.getD 0 ≤ a.Mtfd.getD 0 ∧ x.Ntfd.getD 0 ≤ a.Ntfd.getD 0

/-- the calls with all couplings multiplied by `s` and all frequencies by `u` -/
noncomputable def scaledCalls (s u : ℝ) (as : List (AddArgs ℝ)) : List (AddArgs ℝ) :=
  as.map (fun a => { a with g := a.g.map (s * ·), freq := u * a.freq })

end GGCE.Spec
