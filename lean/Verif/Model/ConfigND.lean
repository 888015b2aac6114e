import Verif.Model.Config
import Mathlib.Data.Fintype.Pi
import Mathlib.Algebra.BigOperators.Group.Finset.Basic
import Mathlib.Data.List.FinRange

/-!
Model of the phonon configurations of `ggce/engine/terms.py` in any number `d` of spatial
dimensions. (`Verif/Model/Config.lean` is the one-dimensional case used by the equation generator.)

A configuration array of shape `(n_phonon_types, L_1, ..., L_d)` is its shape together with a
function from a type and an index tuple to the entry; only entries inside the shape mean anything.
-/

namespace GGCE

/-- A numpy integer array of shape `(types, shape 0, ..., shape (d - 1))` (terms.py:158-169, 279). -/
structure NArr (d : Nat) where
  types : Nat
  shape : Fin d → Nat
  val : Nat → (Fin d → Nat) → Int

/-- A numpy integer array of shape `(shape 0, ..., shape (d - 1))`: the value of
`config.sum(axis=0)` (terms.py:45, 315). -/
structure NSum (d : Nat) where
  shape : Fin d → Nat
  val : (Fin d → Nat) → Int

namespace NArr
variable {d : Nat}

/-- the index tuples of an array of the given shape (terms.py:45-54, 323) -/
def sites (shape : Fin d → Nat) : Finset (Fin d → Nat) :=
  Fintype.piFinset (fun j => Finset.range (shape j))

/-- `config.sum(axis=0)` (terms.py:45, 315) -/
def sumTypes (a : NArr d) : NSum d := ⟨a.shape, fun i => ∑ t ∈ Finset.range a.types, a.val t i⟩

/-- `np.sum(config)` (terms.py:110, 146, 237-246) -/
def total (a : NArr d) : Int := ∑ t ∈ Finset.range a.types, ∑ i ∈ sites a.shape, a.val t i

/-- `total_phonons_per_type` (terms.py:223-234): sum over all axes except the first -/
def totalPerType (a : NArr d) : List Int :=
  (List.range a.types).map (fun t => ∑ i ∈ sites a.shape, a.val t i)

/-- `_config_values_legal` (terms.py:17-20) -/
def valuesLegal (a : NArr d) : Bool :=
  decide (∀ t ∈ Finset.range a.types, ∀ i ∈ sites a.shape, 0 ≤ a.val t i)

/-- `np.sum(_config.swapaxes(0, j)[p, ...])`: the sum over the slice at position `p` of axis `j` (terms.py:51-53) -/
def slice (S : NSum d) (j : Fin d) (p : Nat) : Int :=
  ∑ i ∈ (sites S.shape).filter (fun i => i j = p), S.val i

/-- the loop of `_config_edges_legal` (terms.py:50-55) over the axes; `[0, ...]` of an empty axis
raises `IndexError` -/
def edgesLoop (S : NSum d) : List (Fin d) → Py Bool
  | [] => .ok true
  | j :: js =>
    if S.shape j = 0 then .error .indexError
    else if slice S j 0 = 0 ∨ slice S j (S.shape j - 1) = 0 then .ok false
    else edgesLoop S js

/-- `_config_edges_legal` (terms.py:42-55) -/
def edgesLegal (a : NArr d) : Py Bool := edgesLoop a.sumTypes (List.finRange d)

/-- `_validate_config_is_legal` (terms.py:140-150) with `_check_config` (29-39), whose warning about
more than three dimensions has no effect on the result -/
def validate (a : NArr d) : Py Unit :=
  if d + 1 < 2 then .error .abort
  else if !a.valuesLegal then .error .abort
  else if a.total = 0 then .ok ()
  else do
    let e ← a.edgesLegal
    if e then pure () else .error .abort

/-- `config[t, i] += v` at a valid position (terms.py:383, 451, 479) -/
def bump (a : NArr d) (t : Nat) (x : Fin d → Nat) (v : Int) : NArr d :=
  { a with val := fun t' i => if t' = t ∧ i = x then a.val t' i + v else a.val t' i }

/-- `config.swapaxes(1, j + 1)[:, lo:hi, ...].swapaxes(1, j + 1)`: keep positions `lo ≤ p < hi` of
axis `j` (with `hi ≤ shape j`) (terms.py:331-333, 338-340) -/
def cut (a : NArr d) (j : Fin d) (lo hi : Nat) : NArr d :=
  { a with
    shape := Function.update a.shape j (hi - lo)
    val := fun t i => a.val t (Function.update i j (i j + lo)) }

/-- the same slicing of the array summed over types (terms.py:330, 337) -/
def _root_.GGCE.NSum.cut (S : NSum d) (j : Fin d) (lo hi : Nat) : NSum d :=
  ⟨Function.update S.shape j (hi - lo), fun i => S.val (Function.update i j (i j + lo))⟩

/-- `np.where(_config > 0)[0]` after `swapaxes(0, j)`, without repetitions (only its minimum and
maximum are used) (terms.py:323) -/
def present (S : NSum d) (j : Fin d) : List Nat :=
  (List.range (S.shape j)).filter (fun p => decide (∃ i ∈ sites S.shape, i j = p ∧ 0 < S.val i))

/-- the loop of `_apply_phonon_reduction_rules_` (terms.py:318-346) over the axes: trim the right
end, or else the left end. Returns the array and the collected shifts. -/
def reduceLoop (S : NSum d) (a : NArr d) (shifts : Fin d → Int) :
    List (Fin d) → Py (NArr d × (Fin d → Int))
  | [] => .ok (a, shifts)
  | j :: js =>
    match (present S j).min?, (present S j).max? with
    | some left, some right =>
      if right < S.shape j - 1 then
        reduceLoop (S.cut j 0 (right + 1)) (a.cut j 0 (right + 1)) (Function.update shifts j 0) js
      else if 0 < left then
        reduceLoop (S.cut j left (S.shape j)) (a.cut j left (S.shape j))
          (Function.update shifts j (left : Int)) js
      else reduceLoop S a (Function.update shifts j 0) js
    | _, _ => .error .valueError

/-- `_apply_phonon_reduction_rules_` (terms.py:307-348); `none` is the scalar `0` returned when no
phonon is left -/
def reduce (a : NArr d) : Py (NArr d × Option (Fin d → Int)) :=
  if a.total = 0 then .ok (a, none)
  else do
    let (a', s) ← reduceLoop a.sumTypes a (fun _ => 0) (List.finRange d)
    pure (a', some s)

/-- `np.pad(config, [(0, 0)] + pad, "constant", constant_values=0)` (terms.py:464-477) -/
def pad (a : NArr d) (p : Fin d → Nat × Nat) : NArr d :=
  { a with
    shape := fun j => a.shape j + (p j).1 + (p j).2
    val := fun t i =>
      if ∀ j, (p j).1 ≤ i j ∧ i j < (p j).1 + a.shape j then a.val t (fun j => i j - (p j).1)
      else 0 }

end NArr

/-- `Config` (terms.py:153-482) in `d` dimensions: the array and the modification counters. -/
structure NConfig (d : Nat) where
  arr : NArr d
  maxMods : Nat
  mods : Nat

namespace NConfig
variable {d : Nat}
open NArr

/-- `Config.__init__` (terms.py:264-282) -/
def new (a : NArr d) (maxMods : Nat := 1) (mods : Nat := 0) : Py (NConfig d) := do
  a.validate
  pure ⟨a, maxMods, mods⟩

/-- `indexes[1:]` of a tuple of `d + 1` integers (terms.py:441) -/
def spatial (idx : List Int) : Fin d → Int := fun j => idx.getD (j + 1) 0

/-- numpy basic indexing of all spatial axes; `none` is `IndexError` (terms.py:383, 390, 451, 479) -/
def npIndexAll (shape : Fin d → Nat) (x : Fin d → Int) : Option (Fin d → Nat) :=
  if ∀ j, (Arr.npIndex (shape j) (x j)).isSome then
    some (fun j => (Arr.npIndex (shape j) (x j)).getD 0)
  else none

/-- `remove_phonon_` (terms.py:350-400). The decrement happens before the negativity check; all
failures abort the program. -/
def removePhonon (c : NConfig d) (idx : List Int) : Py (NConfig d × Option (Fin d → Int)) :=
  if c.maxMods ≤ c.mods then .error .abort
  else if idx.length ≠ d + 1 then .error .abort
  else
    match Arr.npIndex c.arr.types (idx.headD 0), npIndexAll c.arr.shape (spatial idx) with
    | some t', some x' =>
      let a := c.arr.bump t' x' (-1)
      if a.val t' x' < 0 then .error .abort
      else do
        let (a', shift) ← a.reduce
        pure (⟨a', c.maxMods, c.mods + 1⟩, shift)
    | _, _ => .error .abort

/-- the padding of one axis (terms.py:467-474), in its original case order -/
def padding (L : Nat) (x : Int) : Nat × Nat :=
  if 0 ≤ x ∧ x < (L : Int) - 1 then (0, 0)
  else if x < 0 then ((-x).toNat, 0)
  else (0, (x - L + 1).toNat)

/-- `add_phonon_` (terms.py:402-482) -/
def addPhonon (c : NConfig d) (idx : List Int) : Py (NConfig d × Option (Fin d → Int)) :=
  if c.maxMods ≤ c.mods then .error .abort
  else if idx.length ≠ d + 1 then .error .abort
  else
    let t := idx.headD 0
    if t < 0 ∨ t > (c.arr.types : Int) - 1 then .error .abort
    else
      let x : Fin d → Int := spatial idx
      if ∀ j, 0 ≤ x j ∧ x j < c.arr.shape j then
        .ok (⟨c.arr.bump t.toNat (fun j => (x j).toNat) 1, c.maxMods, c.mods + 1⟩,
          some (fun _ => 0))
      else
        let shift : Fin d → Int := fun j => if x j > 0 then 0 else x j
        let padded := c.arr.pad (fun j => padding (c.arr.shape j) (x j))
        .ok (⟨padded.bump t.toNat (fun j => (max (x j) 0).toNat) 1, c.maxMods, c.mods + 1⟩,
          some (fun j => -shift j))

end NConfig

/-- `config.flatten()` of one type: the entries in row-major order (last axis fastest) (terms.py:287) -/
def flattenFn : {d : Nat} → (Fin d → Nat) → ((Fin d → Nat) → Int) → List Int
  | 0, _, f => [f (fun j => j.elim0)]
  | _ + 1, s, f =>
    (List.range (s 0)).flatMap (fun p => flattenFn (fun j => s j.succ) (fun i => f (Fin.cons p i)))

/-- `config.flatten()` (terms.py:287) -/
def NArr.flatten {d : Nat} (a : NArr d) : List Int :=
  (List.range a.types).flatMap (fun t => flattenFn a.shape (a.val t))

/-- `str(config.shape)` for at least two axes (terms.py:288) -/
def NArr.shapeStr {d : Nat} (a : NArr d) : PyStr :=
  '(' :: (commaJoin (natStr a.types :: (List.finRange d).map (fun j => natStr (a.shape j))) ++ [')'])

/-- `Config.__str__` (terms.py:284-289) -/
def NArr.str {d : Nat} (a : NArr d) : PyStr :=
  if a.total = 0 then ['G'] else listStr (a.flatten.map intStr) ++ a.shapeStr

end GGCE
