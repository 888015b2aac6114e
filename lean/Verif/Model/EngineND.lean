import Verif.Model.ConfigND
import Verif.Model.Engine

/-!
Model of `config_legal`, the terms and the equations (`ggce/engine/terms.py:58-137, 485-954`,
`ggce/engine/equations.py`) for configurations with any number `d` of spatial dimensions. The
dictionary `f_arg_terms` is left out; it is used only by the system, whose generation refuses
models of more than one dimension (system.py:80-81, `generateAll`).
-/

namespace GGCE

variable {d : Nat}

namespace NArr

/-- the index tuples in the order of `np.ndenumerate` (row-major, last axis fastest) (equations.py:247, 293) -/
def indices : {d : Nat} → (Fin d → Nat) → List (Fin d → Nat)
  | 0, _ => [fun j => j.elim0]
  | _ + 1, s => (List.range (s 0)).flatMap
      (fun p => (indices (fun j => s j.succ)).map (fun i => Fin.cons p i))

/-- the component along the first spatial axis, `np.where(...)[0]` (terms.py:62) -/
def axis0 (i : Fin d → Nat) : Nat := if h : 0 < d then i ⟨0, h⟩ else 0

/-- `np.where(config[t] != 0)[0]` (terms.py:62): positions along the first spatial axis -/
def whereNonzero0 (a : NArr d) (t : Nat) : List Nat :=
  ((indices a.shape).filter (fun i => a.val t i ≠ 0)).map axis0

/-- `_extent_of_1d(config[t])` (terms.py:58-68) for a slice with any number of axes -/
def extentOf (a : NArr d) (t : Nat) : Int :=
  let w := a.whereNonzero0 t
  if w.length < 2 then w.length
  else ((w.max?.getD 0 : Nat) : Int) - ((w.min?.getD 0 : Nat) : Int) + 1

/-- one of the `any([...])` limit checks of `config_legal` (terms.py:121-136) over the phonon
types: `true` if some type exceeds its limit, `IndexError` if the limit list is too short -/
def anyExceeds (measure : Nat → Int) (lims : List Int) : List Nat → Py Bool
  | [] => .ok false
  | t :: ts =>
    match lims[t]? with
    | none => .error .indexError
    | some lim => do
        let rest ← anyExceeds measure lims ts
        pure (decide (lim < measure t) || rest)

/-- the per-site cap check of `config_legal` (terms.py:118-120): `true` if violated -/
def capExceeded (maxPerSite : Option Int) (a : NArr d) : Bool :=
  match maxPerSite with
  | some c => !decide (∀ t ∈ Finset.range a.types, ∀ i ∈ sites a.shape, a.val t i ≤ c)
  | none => false

/-- the extent check of `config_legal` (terms.py:121-128): `true` if violated -/
def extentExceeded (extent : Option (List Int)) (a : NArr d) : Py Bool :=
  match extent with
  | some M => anyExceeds a.extentOf M (List.range a.types)
  | none => .ok false

/-- the number check of `config_legal` (terms.py:129-136): `true` if violated -/
def numberExceeded (number : Option (List Int)) (a : NArr d) : Py Bool :=
  match number with
  | some N => anyExceeds (fun t => ∑ i ∈ sites a.shape, a.val t i) N (List.range a.types)
  | none => .ok false

/-- `config_legal` (terms.py:71-137) -/
def configLegal (a : NArr d) (maxPerSite : Option Int) (extent number : Option (List Int))
    (allowGreen : Bool) : Py Bool :=
  if allowGreen && decide (a.total = 0) then .ok true
  else if d + 1 < 2 then .ok false
  else if !a.valuesLegal then .ok false
  else do
    let e ← a.edgesLegal
    if !e then pure false
    else if capExceeded maxPerSite a then pure false
    else do
      let ext ← extentExceeded extent a
      if ext then pure false
      else do
        let num ← numberExceeded number a
        pure (!num)

end NArr

/-- A numpy shift array of any length: its dtype and twice its entries (compare `Num`)
(model.py:64-96, terms.py:560-651). -/
structure Vec where
  flt : Bool
  tw : List Int
  deriving DecidableEq, Repr

/-- A numpy shift array of length `d` (model.py:64-96, terms.py:560-651). -/
structure NNum (d : Nat) where
  flt : Bool
  tw : Fin d → Int
  deriving DecidableEq

namespace NNum
/-- an integer array (model.py:257-418) -/
def int (x : Fin d → Int) : NNum d := ⟨false, fun j => 2 * x j⟩
/-- `a += b` (compare `Num.iadd`) (terms.py:768, 789, 904, 937) -/
def iadd (a b : NNum d) : Py (NNum d) :=
  if a.flt = false ∧ b.flt = true then .error .typeError else .ok ⟨a.flt, fun j => a.tw j + b.tw j⟩
/-- `a -= b` (terms.py:905, 936, 954) -/
def isub (a b : NNum d) : Py (NNum d) :=
  if a.flt = false ∧ b.flt = true then .error .typeError else .ok ⟨a.flt, fun j => a.tw j - b.tw j⟩
/-- `np.zeros_like(a)` (terms.py:790) -/
def zerosLike (a : NNum d) : NNum d := ⟨a.flt, fun _ => 0⟩
end NNum

namespace Vec
/-- `a - b`, for arrays of equal length (terms.py:850, 887) -/
def sub (a b : Vec) : Vec := ⟨a.flt || b.flt, List.zipWith (· - ·) a.tw b.tw⟩
/-- the length check of the setters of `f_arg` and `g_arg` (terms.py:617-627, 641-651) -/
def fit (d : Nat) (v : Vec) : Py (NNum d) :=
  if v.tw.length = d then .ok ⟨v.flt, fun j => v.tw.getD j 0⟩ else .error .abort
end Vec

variable {R : Type} [Field R] [LinearOrder R]

/-- A `SingleTerm` together with its shift arrays (model.py:175-193). -/
structure HTerm (R : Type) where
  base : SingleTerm R
  psi : Vec
  phi : Vec

/-- `_get_SingleTerm_objects` (model.py:246-431): the Holstein shifts are integer arrays with one
zero per dimension (`np.array([0] * self._dimension)`, 254-275); all other couplings have arrays of
length one in every dimension (277-431). -/
def HTerm.ofSingle (dim : Nat) (h : SingleTerm R) : HTerm R :=
  if h.ctype = "Holstein" then
    ⟨h, ⟨false, List.replicate dim 0⟩, ⟨false, List.replicate dim 0⟩⟩
  else ⟨h, ⟨h.psi.flt, [h.psi.tw]⟩, ⟨h.phi.flt, [h.phi.tw]⟩⟩

/-- `AnnihilationTerm` or `CreationTerm` in `d` dimensions (compare `Term`) (terms.py:879-954). -/
structure NTerm (R : Type) (d : Nat) where
  kind : Kind
  config : NArr d
  hterm : HTerm R
  pref : R
  expShift : NNum d
  fArg : NNum d
  gArg : NNum d
  freqShift : R

/-- `NonIndexTerm.__init__` (terms.py:880-898) -/
def mkNonIndexND (m : Model R) (kind : Kind) (a : NArr d) (h : HTerm R) (pref : R) :
    Py (NTerm R d) := do
  a.validate
  let f ← h.phi.fit d
  let g ← (h.psi.sub h.phi).fit d
  let fs ← freqShift m.ham.freqs a.totalPerType
  pure { kind, config := a, hterm := h, pref, expShift := ⟨true, fun _ => 0⟩, fArg := f,
         gArg := g, freqShift := fs }

/-- `step_` (terms.py:900-907) followed by `_modify_n_phonons_` of `AnnihilationTerm` (930-937) or
`CreationTerm` (944-954). The scalar `0` returned for the vacuum broadcasts. -/
def stepND (t : NTerm R d) (loc : Fin d → Int) : Py (NTerm R d) := do
  let g ← t.gArg.iadd (.int loc)
  let f ← t.fArg.isub (.int loc)
  match t.kind with
  | .ann => do
      let (c, shift) ← NConfig.removePhonon ⟨t.config, 1, 0⟩
        ((t.hterm.base.phononIndex : Int) :: List.ofFn loc)
      let e ← t.expShift.isub (.int (shift.getD (fun _ => 0)))
      let f' ← f.iadd (.int (shift.getD (fun _ => 0)))
      pure { t with config := c.arr, gArg := g, fArg := f', expShift := e }
  | .cre => do
      let (c, shift) ← NConfig.addPhonon ⟨t.config, 1, 0⟩
        ((t.hterm.base.phononIndex : Int) :: List.ofFn loc)
      let f' ← f.isub (.int (shift.getD (fun _ => 0)))
      pure { t with config := c.arr, gArg := g, fArg := f',
                    expShift := .int (shift.getD (fun _ => 0)) }
  | .eom => .error .attributeError

/-- `check_if_green_and_simplify_` (terms.py:773-790) -/
def simplifyGreenND (t : NTerm R d) : Py (NTerm R d) :=
  if t.config.str = ['G'] ∧ ∃ j, t.fArg.tw j ≠ 0 then do
    let e ← t.expShift.iadd t.fArg
    pure { t with expShift := e, fArg := t.fArg.zerosLike }
  else .ok t

/-- `check_if_green_and_simplify_`, `validate` and the legality filter that follow each step
(equations.py:260-268 and 310-318) -/
def finishTermND (m : Model R) (t : NTerm R d) : Py (Option (NTerm R d)) := do
  let t ← simplifyGreenND t
  t.config.validate
  let ok ← t.config.configLegal m.maxPerSite (some m.extent) none true
  pure (if ok then some t else none)

/-- annihilation branch of `_initialize_terms` (equations.py:245-268) -/
def annTermsND (m : Model R) (a : NArr d) (h : HTerm R) : Py (List (NTerm R d)) :=
  collectM (fun loc =>
    let nval := a.val h.base.phononIndex loc
    if nval = 0 then .ok none
    else do
      let t ← mkNonIndexND m .ann a h (h.base.coupling * (nval : R))
      let t ← stepND t (fun j => (loc j : Int))
      finishTermND m t) (NArr.indices a.shape)

/-- creation branch of `_initialize_terms` (equations.py:270-318): along every axis the locations
are `0 - ae + L, ..., (2 ae - L - 1) - ae + L` -/
def creTermsND (m : Model R) (a : NArr d) (h : HTerm R) : Py (List (NTerm R d)) :=
  match m.number[h.base.phononIndex]? with
  | none => .error .indexError
  | some cap =>
    if (∑ i ∈ NArr.sites a.shape, a.val h.base.phononIndex i) + 1 > cap then .ok []
    else
      match m.absExtent with
      | none => .error .typeError
      | some ae =>
        if ∃ j, (a.shape j : Int) > ae then .error .abort
        else
          collectM (fun i => do
            let t ← mkNonIndexND m .cre a h h.base.coupling
            let t ← stepND t (fun j => (i j : Int) - ae + a.shape j)
            finishTermND m t) (NArr.indices (fun j => (2 * ae - a.shape j).toNat))

/-- `Equation._initialize_terms` (equations.py:226-318); `config[bt, ...]` raises `IndexError` for
a missing phonon type -/
def initTermsND (m : Model R) (a : NArr d) : List (HTerm R) → Py (List (NTerm R d))
  | [] => .ok []
  | h :: hs =>
    if h.base.phononIndex < a.types then do
      let ts ← match h.base.dag with
        | .minus => annTermsND m a h
        | .plus => creTermsND m a h
      let rest ← initTermsND m a hs
      pure (ts ++ rest)
    else .error .indexError

/-- The terms of `Equation.from_config` (equations.py:85-104 with 143-152) -/
def mkEquationND (m : Model R) (a : NArr d) : Py (List (NTerm R d)) := do
  a.validate
  initTermsND m a (m.ham.terms.map (HTerm.ofSingle m.ham.dimension))

/-- `EOMTerm` (terms.py:837-876); its arguments are stored without a length check. -/
structure NEom (R : Type) (d : Nat) where
  config : NArr d
  hterm : HTerm R
  pref : R
  expShift : Vec
  fArg : Vec

/-- `EOMTerm.__init__` on `n[h.phonon_index, ...] = 1` (equations.py:378-393, terms.py:841-855) -/
def mkEOMND (m : Model R) (h : HTerm R) : Py (Option (NEom R m.ham.dimension)) :=
  match h.base.dag with
  | .minus => .ok none
  | .plus =>
    if h.base.phononIndex < m.nTypes then do
      let a : NArr m.ham.dimension :=
        ⟨m.nTypes, fun _ => 1, fun t _ => if t = h.base.phononIndex then 1 else 0⟩
      a.validate
      pure (some ⟨a, h, h.base.coupling, h.psi.sub h.phi, h.phi⟩)
    else .error .indexError

/-- the terms of `GreenEquation(model)` (equations.py:337-345, 371-393) -/
def mkGreenND (m : Model R) : Py (List (NEom R m.ham.dimension)) := do
  let a : NArr m.ham.dimension := ⟨m.nTypes, fun _ => 1, fun _ _ => 0⟩
  a.validate
  collectM (mkEOMND m) (m.ham.terms.map (HTerm.ofSingle m.ham.dimension))

end GGCE
