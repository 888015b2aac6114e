import Verif.Spec.Modes
import Mathlib.Data.Real.Basic

/-! Changes a user can make to a list of `add_` calls without changing the physics. -/

namespace GGCE.Spec

/-- a call without coupling -/
def Silent (a : AddArgs ℝ) : Prop := a.g = some 0 ∨ a.lam = some 0

/-- The call in a unit of energy `s` times smaller, so that the numerical values of all energies are multiplied
by `s`. The strength `lam` is a pure number, except for the `EdwardsFermionBoson` coupling, for which it is the
coupling energy itself (model.py:41-42). -/
noncomputable def rescaled (s : ℝ) (a : AddArgs ℝ) : AddArgs ℝ :=
  { a with
    freq := s * a.freq
    g := a.g.map (fun g => s * g)
    lam := if a.ctype = "EdwardsFermionBoson" then a.lam.map (fun l => s * l) else a.lam }

end GGCE.Spec
