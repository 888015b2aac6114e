import Verif.Py
import Mathlib.Algebra.Order.Field.Basic

/-!
Model of `ggce/model.py`: single terms, the Hamiltonian, the `Model` and its `add_` method.

`R` stands for Python floats, read as exact elements of an ordered field.
-/

namespace GGCE

/-- One component of a numpy shift array (`psi`, `phi`, `f_arg`, `g_arg`, `exp_shift`), in one
dimension: its dtype (`flt = true` for float64, `false` for int64) and twice its value.
Simplification: all built-in shifts are multiples of 1/2 (model.py:246-431). -/
structure Num where
  flt : Bool
  tw : Int
  deriving DecidableEq, Repr

namespace Num
/-- integer array entry (model.py:257-418) -/
def int (n : Int) : Num := ⟨false, 2 * n⟩
/-- `a - b` (terms.py:850, 887) -/
def sub (a b : Num) : Num := ⟨a.flt || b.flt, a.tw - b.tw⟩
/-- `a += b`: numpy refuses to store a float64 result into an int64 array
(`UFuncTypeError`, a `TypeError`) (terms.py:768, 789, 904, 937). -/
def iadd (a b : Num) : Py Num :=
  if a.flt = false ∧ b.flt = true then .error .typeError else .ok ⟨a.flt, a.tw + b.tw⟩
/-- `a -= b` (terms.py:905, 936, 954) -/
def isub (a b : Num) : Py Num :=
  if a.flt = false ∧ b.flt = true then .error .typeError else .ok ⟨a.flt, a.tw - b.tw⟩
/-- `np.zeros_like(a)` (terms.py:790) -/
def zerosLike (a : Num) : Num := ⟨a.flt, 0⟩
end Num

/-- `"+"` or `"-"` (model.py:98-114). -/
inductive Dag where
  | plus
  | minus
  deriving DecidableEq, Repr

/-- `SingleTerm` (model.py:52-203): `g Σ_i c†_i c_{i+ψ} b^d_{i+φ}` for one phonon type. -/
structure SingleTerm (R : Type) where
  ctype : String
  psi : Num
  phi : Num
  dag : Dag
  coupling : R
  phononIndex : Nat
  phononFrequency : R
  deriving DecidableEq

/-- `Hamiltonian` attributes (model.py:433-441). -/
structure Hamiltonian (R : Type) where
  terms : List (SingleTerm R)
  freqs : List R
  dimension : Nat
  hopping : R
  deriving DecidableEq

/-- `Model` attributes (model.py:785-803). -/
structure Model (R : Type) where
  latticeConstant : R
  temperature : R
  ham : Hamiltonian R
  maxPerSite : Option Int
  extent : List Int
  number : List Int
  absExtentOpt : Option Int
  nTypes : Nat
  deriving DecidableEq

/-- The transcendental primitives of model.py, abstracted so that the bookkeeping is computable.
`realPrims` (Verif/Model/RealPrims.lean) instantiates them over the reals.
* `couplingMap` is `model_coupling_map` (model.py:10-49),
* `tfd` is `_get_TFD_coupling_prefactors` for temperature > 0 (model.py:826-831). -/
structure Prims (R : Type) where
  couplingMap : String → R → R → R → Py R
  tfd : R → R → R × R

variable {R : Type} [Field R] [LinearOrder R]

/-- `SingleTerm.__init__` for a term (model.py:175-193); the setter of `phonon_index` aborts on
negative values (model.py:145-151). -/
def mkTerm (ct : String) (psi phi : Num) (dag : Dag) (g : R) (idx : Int) (freq : R) :
    Py (SingleTerm R) :=
  if idx < 0 then .error .abort else .ok ⟨ct, psi, phi, dag, g, idx.toNat, freq⟩

/-- `(psi, phi, dag, sign of the coupling)` of the terms built by `_get_SingleTerm_objects`
(model.py:246-431), in order; `none` for an unknown coupling type (`RuntimeError`, line 431).
Simplification: one spatial dimension (for dimension d the Holstein arrays have d zeros). -/
def termShapes (ct : String) : Option (List (Num × Num × Dag × Bool)) :=
  if ct = "Holstein" then
    some [(.int 0, .int 0, .plus, false), (.int 0, .int 0, .minus, false)]
  else if ct = "EdwardsFermionBoson" then
    some [(.int 1, .int 1, .plus, true), (.int (-1), .int (-1), .plus, true),
          (.int 1, .int 0, .minus, true), (.int (-1), .int 0, .minus, true)]
  else if ct = "BondPeierls" then
    some [(.int 1, ⟨true, 1⟩, .plus, true), (.int 1, ⟨true, 1⟩, .minus, true),
          (.int (-1), ⟨true, -1⟩, .plus, true), (.int (-1), ⟨true, -1⟩, .minus, true)]
  else if ct = "Peierls" then
    some [(.int 1, .int 0, .plus, true), (.int 1, .int 0, .minus, true),
          (.int 1, .int 1, .plus, false), (.int 1, .int 1, .minus, false),
          (.int (-1), .int (-1), .plus, true), (.int (-1), .int (-1), .minus, true),
          (.int (-1), .int 0, .plus, false), (.int (-1), .int 0, .minus, false)]
  else none

/-- `_get_SingleTerm_objects` (model.py:246-431). -/
def getSingleTerms (ct : String) (g : R) (idx : Int) (freq : R) : Py (List (SingleTerm R)) :=
  match termShapes ct with
  | none => .error .runtimeError
  | some shapes =>
      collectM (fun s => do
        let t ← mkTerm ct s.1 s.2.1 s.2.2.1 (if s.2.2.2 then g else -g) idx freq
        pure (some t)) shapes

namespace Hamiltonian

/-- `Hamiltonian.__init__` with default lists (model.py:433-441). -/
def new (dimension : Nat) (hopping : R) : Hamiltonian R :=
  ⟨[], [], dimension, hopping⟩

/-- the value of `g` in `Hamiltonian._add_` (model.py:461-474), before the multiplier -/
def strength (P : Prims R) (hopping : R) (ct : String) (freq : R) (g? lam? : Option R) : Py R :=
  match lam? with
  | some lam => P.couplingMap ct hopping freq lam
  | none => match g? with
    | some g => .ok g
    | none => .error .assertionError

/-- `Hamiltonian._add_` / `add_` (model.py:443-534). A `RuntimeError` (unknown coupling type) is
logged and the Hamiltonian is returned unchanged (lines 469-471, 483-485); the XOR violation raises
`ValueError` (458-459); the frequency is recorded only if it is not yet present (487-488). -/
def add (P : Prims R) (H : Hamiltonian R) (ct : String) (idx : Int) (freq : R)
    (g? lam? : Option R) (mult : R) : Py (Hamiltonian R) :=
  if xor g?.isSome lam?.isSome = false then .error .valueError
  else
    match strength P H.hopping ct freq g? lam? with
    | .error .runtimeError => .ok H
    | .error e => .error e
    | .ok g =>
      match getSingleTerms ct (g * mult) idx freq with
      | .error .runtimeError => .ok H
      | .error e => .error e
      | .ok ts =>
        .ok { H with
          freqs := if freq ∈ H.freqs then H.freqs else H.freqs ++ [freq]
          terms := H.terms ++ ts }

end Hamiltonian

/-- Arguments of `Model.add_` (model.py:835-846). -/
structure AddArgs (R : Type) where
  ctype : String
  freq : R
  M : Int
  N : Int
  Mtfd : Option Int := none
  Ntfd : Option Int := none
  g : Option R := none
  lam : Option R := none
  override : Option Int := none
  deriving DecidableEq

namespace Model

/-- `Model.from_parameters` (model.py:745-783). -/
def fromParameters (hopping latticeConstant temperature : R) (maxPerSite : Option Int)
    (dimension : Nat) : Model R :=
  { latticeConstant, temperature, ham := Hamiltonian.new dimension hopping, maxPerSite,
    extent := [], number := [], absExtentOpt := none, nTypes := 0 }

/-- `_get_TFD_coupling_prefactors` (model.py:805-833). -/
def tfdPrefactors (P : Prims R) (m : Model R) (omega : R) : R × R :=
  if m.temperature > 0 then P.tfd m.temperature omega else (1, 0)

/-- The guards of `Model.add_` that log an error and return (model.py:890-920): `true` if the call
is rejected. -/
def addRejected (m : Model R) (a : AddArgs R) : Bool :=
  -- 890-892
  (decide (m.temperature > 0) && (a.Mtfd.isNone || a.Ntfd.isNone)) ||
  -- 894-898
  (decide (a.N < 1) || decide (a.M < 1)) ||
  -- 900-906
  ((match a.Mtfd with | some x => decide (x < 1) | none => false) ||
   (match a.Ntfd with | some x => decide (x < 1) | none => false)) ||
  -- 908-915
  (!(xor a.g.isNone a.lam.isNone)) ||
  -- 917-920
  (match a.override with
   | some i => decide (m.temperature > 0) && decide (i % 2 ≠ 0)
   | none => false)

/-- the phonon index of a call (model.py:932-936) -/
def callIndex (m : Model R) (a : AddArgs R) : Int :=
  match a.override with | none => (m.nTypes : Int) | some i => i

/-- `Model.add_` (model.py:835-965). Lines 922-926 only log. -/
def add (P : Prims R) (m : Model R) (a : AddArgs R) : Py (Model R) :=
  if m.addRejected a then .ok m
  else
    let pf := m.tfdPrefactors P a.freq
    let idx := m.callIndex a
    match m.ham.add P a.ctype idx a.freq a.g a.lam pf.1 with
    | .error e => .error e
    | .ok ham1 =>
      let m1 : Model R := { m with
        ham := ham1
        extent := m.extent ++ [a.M]
        number := m.number ++ [a.N]
        nTypes := m.nTypes + 1 }
      if m.temperature > 0 then
        match m1.ham.add P a.ctype (idx + 1) (-a.freq) a.g a.lam pf.2 with
        | .error e => .error e
        | .ok ham2 =>
          match a.Mtfd, a.Ntfd with
          | some Mt, some Nt =>
            .ok { m1 with
              ham := ham2
              extent := m1.extent ++ [Mt]
              number := m1.number ++ [Nt]
              nTypes := m1.nTypes + 1 }
          | _, _ => .error .assertionError
      else .ok m1

/-- A history of `add_` calls; an exception ends it (model.py:835-965). -/
def adds (P : Prims R) : Model R → List (AddArgs R) → Py (Model R)
  | m, [] => .ok m
  | m, a :: as =>
    match m.add P a with
    | .error e => .error e
    | .ok m' => adds P m' as

/-- `phonon_absolute_extent` (model.py:614-630). -/
def absExtent (m : Model R) : Option Int :=
  match m.absExtentOpt with
  | some x => some x
  | none => m.extent.max?

/-- the `phonon_absolute_extent` setter (model.py:632-638): refused (logged) when more than one
phonon type is present. -/
def setAbsExtent (m : Model R) (x : Option Int) : Model R :=
  if m.extent.length > 1 then m else { m with absExtentOpt := x }

/-- the `temperature` setter (model.py:570-578), numeric argument. -/
def setTemperature (m : Model R) (x : R) : Model R :=
  if x < 0 then m else { m with temperature := x }

/-- the `lattice_constant` setter (model.py:602-612), numeric argument. -/
def setLatticeConstant (m : Model R) (x : R) : Model R :=
  if x ≤ 0 then m else { m with latticeConstant := x }

end Model

end GGCE
