import Verif.Py

/-!
Model of the phonon configurations of `ggce/engine/terms.py` in one spatial dimension.

A configuration array of shape `(n_phonon_types, L)` is a list of rows plus the length `L`
(needed when there are no rows).
-/

namespace GGCE

/-- A two-axis numpy integer array of shape `(rows.length, len)` (the array of terms.py:158-169, 279). -/
structure Arr where
  rows : List (List Int)
  len : Nat
  deriving DecidableEq, Repr

namespace Arr

/-- rectangular: every row has `len` entries (always true of a numpy array) (terms.py:279) -/
def WF (a : Arr) : Prop := ∀ r ∈ a.rows, r.length = a.len

/-- rectangularity can be decided (terms.py:279) -/
instance (a : Arr) : Decidable a.WF := inferInstanceAs (Decidable (∀ r ∈ a.rows, r.length = a.len))

/-- `config.shape[0]` (terms.py:200-209) -/
abbrev nTypes (a : Arr) : Nat := a.rows.length

/-- entry `(t, x)`, 0 if absent (terms.py:390, 451) -/
def get (a : Arr) (t x : Nat) : Int := (a.rows.getD t []).getD x 0

/-- `np.sum(config)` (terms.py:110, 146, 237-246) -/
def total (a : Arr) : Int := (a.rows.map List.sum).sum

/-- `total_phonons_per_type` (terms.py:223-234) -/
def totalPerType (a : Arr) : List Int := a.rows.map List.sum

/-- `config.sum(axis=0)[x]` (terms.py:45, 315) -/
def colSum (a : Arr) (x : Nat) : Int := (a.rows.map (fun r => r.getD x 0)).sum

/-- `np.zeros((n, L))` (used in equations.py:338-343) -/
def zeros (n L : Nat) : Arr := ⟨List.replicate n (List.replicate L 0), L⟩

/-- `_config_values_legal` (terms.py:17-20) -/
def valuesLegal (a : Arr) : Bool := a.rows.all (fun r => r.all (fun v => decide (0 ≤ v)))

/-- `_config_edges_legal` (terms.py:42-55) in one spatial dimension; indexing `[0, ...]` of an
empty axis raises `IndexError`. -/
def edgesLegal (a : Arr) : Py Bool :=
  if a.len = 0 then .error .indexError
  else .ok (!(decide (a.colSum 0 = 0) || decide (a.colSum (a.len - 1) = 0)))

/-- `np.where(config1d != 0)[0]` (terms.py:62) -/
def whereNonzero (r : List Int) : List Nat :=
  (List.range r.length).filter (fun i => r.getD i 0 ≠ 0)

/-- `_extent_of_1d` (terms.py:58-68) -/
def extentOf1d (r : List Int) : Int :=
  let w := whereNonzero r
  if w.length < 2 then w.length
  else ((w.max?.getD 0 : Nat) : Int) - ((w.min?.getD 0 : Nat) : Int) + 1

/-- one of the `any([...])` limit checks of `config_legal` (terms.py:121-136): `true` if some row
exceeds its limit; `IndexError` if the limit list is too short (the list is built eagerly). -/
def anyExceeds (measure : List Int → Int) : List Int → List (List Int) → Py Bool
  | _, [] => .ok false
  | [], _ :: _ => .error .indexError
  | lim :: lims, r :: rs => do
      let rest ← anyExceeds measure lims rs
      pure (decide (lim < measure r) || rest)

/-- the per-site cap check of `config_legal` (terms.py:118-120): `true` if violated -/
def capExceeded (maxPerSite : Option Int) (a : Arr) : Bool :=
  match maxPerSite with
  | some c => !(a.rows.all (fun r => r.all (fun v => decide (v ≤ c))))
  | none => false

/-- the extent check of `config_legal` (terms.py:121-128): `true` if violated -/
def extentExceeded (extent : Option (List Int)) (a : Arr) : Py Bool :=
  match extent with
  | some M => anyExceeds extentOf1d M a.rows
  | none => .ok false

/-- the number check of `config_legal` (terms.py:129-136): `true` if violated -/
def numberExceeded (number : Option (List Int)) (a : Arr) : Py Bool :=
  match number with
  | some N => anyExceeds List.sum N a.rows
  | none => .ok false

/-- `config_legal` (terms.py:71-137) -/
def configLegal (a : Arr) (maxPerSite : Option Int) (extent number : Option (List Int))
    (allowGreen : Bool) : Py Bool :=
  if allowGreen && decide (a.total = 0) then .ok true
  else if !a.valuesLegal then .ok false
  else do
    let e ← a.edgesLegal
    if !e then pure false
    else if capExceeded maxPerSite a then pure false
    else do
      let ext ← extentExceeded extent a
      if ext then pure false
      else do
        let num ← numberExceeded number a
        pure (!num)

/-- `_validate_config_is_legal` (terms.py:140-150) -/
def validate (a : Arr) : Py Unit :=
  if !a.valuesLegal then .error .abort
  else if a.total = 0 then .ok ()
  else do
    let e ← a.edgesLegal
    if e then pure () else .error .abort

/-- numpy basic indexing: `i` addresses position `i` (or `i + n` for negative `i`) of an axis of
length `n`; `none` is `IndexError` (terms.py:383, 390). -/
def npIndex (n : Nat) (i : Int) : Option Nat :=
  if 0 ≤ i ∧ i < n then some i.toNat
  else if -(n : Int) ≤ i ∧ i < 0 then some (i + n).toNat
  else none

/-- `config[t, x] += d` at a valid position (terms.py:383, 451, 479) -/
def bump (a : Arr) (t x : Nat) (d : Int) : Arr :=
  { a with rows := a.rows.modify t (fun r => r.modify x (· + d)) }

/-- `_apply_phonon_reduction_rules_` (terms.py:307-348), one dimension: trim the right end, or else
the left end (never both), returning the shift. `np.min` of an empty array raises `ValueError`. -/
def reduce (a : Arr) : Py (Arr × Int) :=
  if a.total = 0 then .ok (a, 0)
  else
    let present := (List.range a.len).filter (fun x => decide (0 < a.colSum x))
    match present.min?, present.max? with
    | some left, some right =>
      if right < a.len - 1 then
        .ok (⟨a.rows.map (List.take (right + 1)), right + 1⟩, 0)
      else if 0 < left then
        .ok (⟨a.rows.map (List.drop left), a.len - left⟩, (left : Int))
      else .ok (a, 0)
    | _, _ => .error .valueError

end Arr

/-- `Config` (terms.py:153-482): the array and the modification counters. -/
structure Config where
  arr : Arr
  maxMods : Nat
  mods : Nat
  deriving DecidableEq, Repr

namespace Config

/-- `Config.__init__` (terms.py:264-282) -/
def new (a : Arr) (maxMods : Nat := 1) (mods : Nat := 0) : Py Config := do
  a.validate
  pure ⟨a, maxMods, mods⟩

/-- `remove_phonon_` (terms.py:350-400) with two indexes. The decrement happens before the
negativity check; both failures abort the program. -/
def removePhonon (c : Config) (t x : Int) : Py (Config × Int) :=
  if c.maxMods ≤ c.mods then .error .abort
  else
    match Arr.npIndex c.arr.nTypes t, Arr.npIndex c.arr.len x with
    | some t', some x' =>
      let a := c.arr.bump t' x' (-1)
      if a.get t' x' < 0 then .error .abort
      else do
        let (a', shift) ← a.reduce
        pure (⟨a', c.maxMods, c.mods + 1⟩, shift)
    | _, _ => .error .abort

/-- `add_phonon_` (terms.py:402-482) with two indexes. The padding expression (467-474) is kept in
its original case order; `np.pad` extends every row. -/
def addPhonon (c : Config) (t x : Int) : Py (Config × Int) :=
  if c.maxMods ≤ c.mods then .error .abort
  else if t < 0 ∨ t > (c.arr.nTypes : Int) - 1 then .error .abort
  else
    let L := c.arr.len
    if 0 ≤ x ∧ x < L then
      .ok (⟨c.arr.bump t.toNat x.toNat 1, c.maxMods, c.mods + 1⟩, 0)
    else
      let shift : Int := if x > 0 then 0 else x
      let pad : Int × Int :=
        if 0 ≤ x ∧ x < (L : Int) - 1 then (0, 0)
        else if x < 0 then (-x, 0)
        else (0, x - L + 1)
      let padded : Arr :=
        ⟨c.arr.rows.map (fun r => List.replicate pad.1.toNat 0 ++ r ++ List.replicate pad.2.toNat 0),
          L + pad.1.toNat + pad.2.toNat⟩
      .ok (⟨padded.bump t.toNat (max x 0).toNat 1, c.maxMods, c.mods + 1⟩, -shift)

end Config

/-- `Term._get_phonon_config_id` (terms.py:681-684) with `Config.__str__` (284-289). -/
def configId (a : Arr) : PyStr :=
  '{' :: ((if a.total = 0 then ['G']
    else listStr (a.rows.flatten.map intStr) ++ pairStr a.nTypes a.len) ++ ['}'])

end GGCE
