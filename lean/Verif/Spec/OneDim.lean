import Verif.Model.EngineND
import Verif.Spec.LatticeND
import Verif.Proofs.ConfigNDMore

/-! Comparison of the terms of the general model with those of the one-dimensional one. -/

namespace GGCE.Spec

variable {R : Type}

/-- the shift array of length one -/
def _root_.GGCE.Num.toND (x : Num) : NNum 1 := ⟨x.flt, fun _ => x.tw⟩

/-- `n` and `t` are the same right-hand-side term. -/
structure SameTerm (t : Term R) (n : NTerm R 1) : Prop where
  kind : n.kind = t.kind
  config : SameND n.config t.config.toND
  hterm : n.hterm.base = t.hterm
  pref : n.pref = t.pref
  expShift : n.expShift = t.expShift.toND
  fArg : n.fArg = t.fArg.toND
  gArg : t.gArg.map Num.toND = some n.gArg
  freqShift : n.freqShift = t.freqShift

/-- `n` and `t` are the same term of the equation for the Green's function. -/
structure SameEom {d : Nat} (t : Term R) (n : NEom R d) : Prop where
  kind : t.kind = .eom
  types : n.config.types = t.config.rows.length
  shape : ∀ j, n.config.shape j = t.config.len
  entries : ∀ t' y, lattice n.config t' (fun _ => y) = chain t.config t' y
  hterm : n.hterm.base = t.hterm
  pref : n.pref = t.pref
  expShift : n.expShift = ⟨t.expShift.flt, [t.expShift.tw]⟩
  fArg : n.fArg = ⟨t.fArg.flt, [t.fArg.tw]⟩

end GGCE.Spec
