import Verif.Model.Config

/-!
Specification vocabulary for phonon clouds, independent of the model's helper functions: a cloud is
read as the occupations of an infinite chain, with the array's first site at chain site 0.
-/

namespace GGCE.Spec

/-- Occupation of chain site `x` (any integer) by phonons of type `t`, when the array's first site
sits at chain site 0. Sites outside the array are empty. -/
def chain (a : Arr) (t : Nat) (x : Int) : Int :=
  if 0 ≤ x then
    match a.rows[t]? with
    | some row => match row[x.toNat]? with
      | some v => v
      | none => 0
    | none => 0
  else 0

/-- Some phonon of some type sits at chain site `x`. -/
def Occupied (a : Arr) (x : Int) : Prop := ∃ t, chain a t x ≠ 0

/-- A rectangular array without negative entries. -/
structure Proper (a : Arr) : Prop where
  wf : a.WF
  nonneg : ∀ r ∈ a.rows, ∀ v ∈ r, 0 ≤ v

/-- A cloud: rectangular, no negative entries, at least one site, both edge sites occupied.
(The documented notion of a legal configuration without limits.) -/
structure Cloud (a : Arr) : Prop extends Proper a where
  pos : 0 < a.len
  left : Occupied a 0
  right : Occupied a (a.len - 1)

/-- The one-site vacuum with `n` phonon types. -/
structure Vacuum (a : Arr) : Prop where
  wf : a.WF
  len : a.len = 1
  empty : ∀ t x, chain a t x = 0

end GGCE.Spec
