import Verif.Model.Model
import Verif.Model.Config

/-!
Model of the terms (`ggce/engine/terms.py:485-954`), the equations (`ggce/engine/equations.py`) and
the construction of the closed system (`ggce/engine/system.py`), in one spatial dimension.
-/

namespace GGCE

/-- The three concrete right-hand-side term classes (terms.py:837, 926, 940). -/
inductive Kind where
  | eom
  | ann
  | cre
  deriving DecidableEq, Repr

/-- A right-hand-side term: `EOMTerm`, `AnnihilationTerm` or `CreationTerm`
(terms.py:659-679, 837-898). `gArg = none` is Python's `None` (EOM terms). The phonon configuration is
kept as an array: the modification counter of its `Config` is discarded after the single step. -/
structure Term (R : Type) where
  kind : Kind
  config : Arr
  hterm : SingleTerm R
  pref : R
  expShift : Num
  fArg : Num
  gArg : Option Num
  freqShift : R
  deriving DecidableEq

/-- `Term._get_f_arg_id` (terms.py:686-692); `none` is the general index term. -/
def fArgId : Option Num → PyStr
  | none => ['(', '!', ')']
  | some h => listStr [halfStr h.tw]

/-- `Term.id(full=False)` (terms.py:710-735) -/
def termId (a : Arr) (f : Option Num) : PyStr := configId a ++ fArgId f

variable {R : Type} [Field R] [LinearOrder R]

/-- `NonIndexTerm.freq_shift` (terms.py:891-896): `IndexError` if there are fewer frequencies than
phonon types. -/
def freqShift : List R → List Int → Py R
  | _, [] => .ok 0
  | [], _ :: _ => .error .indexError
  | f :: fs, n :: ns => do
      let rest ← freqShift fs ns
      pure (f * (n : R) + rest)

/-- `NonIndexTerm.__init__` (terms.py:880-898) -/
def mkNonIndex (m : Model R) (kind : Kind) (a : Arr) (h : SingleTerm R) (pref : R) :
    Py (Term R) := do
  a.validate
  let fs ← freqShift m.ham.freqs a.totalPerType
  pure { kind, config := a, hterm := h, pref, expShift := ⟨true, 0⟩, fArg := h.phi,
         gArg := some (h.psi.sub h.phi), freqShift := fs }

/-- `step_` (terms.py:900-907) followed by `_modify_n_phonons_` of `AnnihilationTerm` (930-937) or
`CreationTerm` (944-954). -/
def step (t : Term R) (loc : Int) : Py (Term R) := do
  let g ← match t.gArg with
    | some g => g.iadd (.int loc)
    | none => .error .typeError
  let f ← t.fArg.isub (.int loc)
  match t.kind with
  | .ann => do
      let (c, shift) ← Config.removePhonon ⟨t.config, 1, 0⟩ t.hterm.phononIndex loc
      let e ← t.expShift.isub (.int shift)
      let f' ← f.iadd (.int shift)
      pure { t with config := c.arr, gArg := some g, fArg := f', expShift := e }
  | .cre => do
      let (c, shift) ← Config.addPhonon ⟨t.config, 1, 0⟩ t.hterm.phononIndex loc
      let f' ← f.isub (.int shift)
      pure { t with config := c.arr, gArg := some g, fArg := f', expShift := .int shift }
  | .eom => .error .attributeError

/-- `check_if_green_and_simplify_` (terms.py:773-790) -/
def simplifyGreen (t : Term R) : Py (Term R) :=
  if configId t.config = ['{', 'G', '}'] ∧ t.fArg.tw ≠ 0 then do
    let e ← t.expShift.iadd t.fArg
    pure { t with expShift := e, fArg := t.fArg.zerosLike }
  else .ok t

/-- `check_if_green_and_simplify_`, `validate` and the legality filter that follow each step
(equations.py:260-268 and 310-318). -/
def finishTerm (m : Model R) (t : Term R) : Py (Option (Term R)) := do
  let t ← simplifyGreen t
  t.config.validate
  let ok ← t.config.configLegal m.maxPerSite (some m.extent) none true
  pure (if ok then some t else none)

/-- An equation. `fArg = none` for a generalized equation (the index term's `f_arg`), `green` tells
`GreenEquation` from `Equation` (equations.py:143-152, 321-345). -/
structure Equation (R : Type) where
  green : Bool
  config : Arr
  fArg : Option Num
  terms : List (Term R)
  fArgTerms : Dict PyStr (List Num)
  deriving DecidableEq

/-- annihilation branch of `_initialize_terms` (equations.py:245-268) -/
def annTerms (m : Model R) (a : Arr) (h : SingleTerm R) (row : List Int) : Py (List (Term R)) :=
  collectM (fun loc =>
    let nval := row.getD loc 0
    if nval = 0 then .ok none
    else do
      let t ← mkNonIndex m .ann a h (h.coupling * (nval : R))
      let t ← step t (loc : Int)
      finishTerm m t) (List.range row.length)

/-- creation branch of `_initialize_terms` (equations.py:270-318): the locations are
`0 - ae + L, ..., (2 ae - L - 1) - ae + L`. -/
def creTerms (m : Model R) (a : Arr) (h : SingleTerm R) (row : List Int) : Py (List (Term R)) :=
  match m.number[h.phononIndex]? with
  | none => .error .indexError
  | some cap =>
    if row.sum + 1 > cap then .ok []
    else
      match m.absExtent with
      | none => .error .typeError
      | some ae =>
        if (a.len : Int) > ae then .error .abort
        else
          collectM (fun (i : Nat) => do
            let t ← mkNonIndex m .cre a h h.coupling
            let t ← step t ((i : Int) - ae + a.len)
            finishTerm m t) (List.range (2 * ae - a.len).toNat)

/-- `Equation._initialize_terms` (equations.py:226-318) -/
def initTerms (m : Model R) (a : Arr) : List (SingleTerm R) → Py (List (Term R))
  | [] => .ok []
  | h :: hs =>
    match a.rows[h.phononIndex]? with
    | none => .error .indexError
    | some row => do
      let ts ← match h.dag with
        | .minus => annTerms m a h row
        | .plus => creTerms m a h row
      let rest ← initTerms m a hs
      pure (ts ++ rest)

/-- `_populate_f_arg_terms` (equations.py:197-216) -/
def populate (ts : List (Term R)) : Dict PyStr (List Num) :=
  ts.foldl (fun d t => d.push (configId t.config) t.fArg) []

/-- `Equation.from_config` (equations.py:85-104) with `__init__` (143-152) -/
def mkEquation (m : Model R) (a : Arr) : Py (Equation R) := do
  a.validate
  let ts ← initTerms m a m.ham.terms
  pure ⟨false, a, none, ts, populate ts⟩

/-- `EOMTerm.__init__` on `n[h.phonon_index, ...] = 1` (equations.py:378-393, terms.py:841-855) -/
def mkEOM (m : Model R) (h : SingleTerm R) : Py (Option (Term R)) :=
  match h.dag with
  | .minus => .ok none
  | .plus =>
    if h.phononIndex < m.nTypes then do
      let z := Arr.zeros m.nTypes 1
      let a : Arr := ⟨z.rows.set h.phononIndex [1], 1⟩
      a.validate
      pure (some { kind := .eom, config := a, hterm := h, pref := h.coupling,
                   expShift := h.psi.sub h.phi, fArg := h.phi, gArg := none, freqShift := 0 })
    else .error .indexError

/-- `GreenEquation.__init__` and `_initialize_terms` (equations.py:337-345, 371-393), one
dimension -/
def mkGreen (m : Model R) : Py (Equation R) := do
  let a := Arr.zeros m.nTypes 1
  a.validate
  let ts ← collectM (mkEOM m) m.ham.terms
  pure ⟨true, a, none, ts, populate ts⟩

/-! ### Enumeration of the clouds -/

/-- `config_space_gen` (system.py:20-55) for `length ≥ 1`; the clause for length 0 is not reached
by the code (it would recurse without end) and is set to the empty list.
`range(total_sum + 1)` is empty for negative totals, which the recursion never produces. -/
def configSpaceGen : Nat → Nat → List (List Nat)
  | 0, _ => []
  | 1, s => [[s]]
  | n + 2, s =>
    (List.range (s + 1)).flatMap (fun v => (configSpaceGen (n + 1) (s - v)).map (fun p => v :: p))

/-- `np.array(cc).reshape(n, -1)` (system.py:91) for a tuple of `n * z` entries -/
def reshape : Nat → Nat → List Nat → List (List Int)
  | 0, _, _ => []
  | n + 1, z, l => (l.take z).map Int.ofNat :: reshape n z (l.drop z)

/-- the body of the double loop of `generate_all_legal_configurations` (system.py:86-111) -/
def configsOfLength (m : Model R) (nb z : Nat) : Py (List Arr) :=
  collectM (fun c => do
    let a : Arr := ⟨reshape m.nTypes z c, z⟩
    let ok ← a.configLegal m.maxPerSite (some m.extent) (some m.number) false
    if ok then do
      a.validate
      pure (some a)
    else pure none) (configSpaceGen (z * m.nTypes) nb)

/-- `for z in range(1, ae + 1)` (system.py:86); `None + 1` is a `TypeError` -/
def configsOfNumber (m : Model R) (nb : Nat) : Py (List Arr) :=
  match m.absExtent with
  | none => .error .typeError
  | some ae =>
    (fun ls => ls.flatten) <$> collectM (fun z => some <$> configsOfLength m nb (z + 1))
      (List.range ae.toNat)

/-- `generate_all_legal_configurations` (system.py:58-113) -/
def generateAll (m : Model R) : Py (Dict Nat (List Arr)) :=
  if m.ham.dimension > 1 then .error .abort
  else
    collectM (fun i => do
      let cs ← configsOfNumber m (i + 1)
      pure (some (i + 1, cs))) (List.range m.number.sum.toNat)

/-! ### The system -/

/-- `_append_master_dictionary` (system.py:142-155) after the first equation; the first call copies
the dictionary (line 146), which is the same as merging it into the empty one because its keys are
distinct. The `None` start is modelled by `[]`. -/
def mergeFArgs (d e : Dict PyStr (List Num)) : Dict PyStr (List Num) :=
  e.foldl (fun d kv => kv.2.foldl (fun d x => Dict.push d kv.1 x) d) d

/-- first occurrences by value: Python sets identify `0` and `0.0` and keep the first (system.py:176) -/
def dedupNum : List Num → List Num
  | [] => []
  | x :: xs => x :: (dedupNum xs).filter (fun y => y.tw ≠ x.tw)

/-- An order in which Python may iterate over a set of tuples: any function returning a permutation
of its argument (system.py:174-177). -/
structure SetOrder where
  order : List Num → List Num
  perm : ∀ l, (order l).Perm l

/-- `_determine_unique_dictionary` (system.py:169-178) -/
def uniqueDict (σ : SetOrder) (d : Dict PyStr (List Num)) : Dict PyStr (List Num) :=
  d.map (fun kv => (kv.1, σ.order (dedupNum kv.2)))

/-- `_initialize_generalized_equations` (system.py:215-230): the generalized equations by phonon
number (key 0 inserted last) and the list of required arguments. `_predict_total_terms` (`Reports.lean`) only
logs. -/
def initGeneralized (σ : SetOrder) (m : Model R) (confs : Dict Nat (List Arr)) :
    Py (Dict Nat (List (Equation R)) × Dict PyStr (List Num)) := do
  let gens ← collectM (fun kv => do
    let eqs ← collectM (fun a => some <$> mkEquation m a) kv.2
    pure (some (kv.1, eqs))) confs
  let green ← mkGreen m
  let all := (gens.flatMap (fun kv => kv.2)) ++ [green]
  let d := all.foldl (fun d (e : Equation R) => mergeFArgs d e.fArgTerms) []
  pure (gens ++ [(0, [green])], uniqueDict σ d)

/-- `_increment_g_arg_` (terms.py:754-768; a no-op for EOM terms, 875-876) -/
def incrementG (delta : Num) (t : Term R) : Py (Term R) :=
  match t.kind, t.gArg with
  | .eom, _ => .ok t
  | _, some g => do
      let g' ← g.iadd delta
      pure { t with gArg := some g' }
  | _, none => .error .attributeError

/-- `_init_full` (equations.py:218-224) -/
def initFull (e : Equation R) (delta : Num) : Py (Equation R) := do
  let ts ← collectM (fun t => some <$> incrementG delta t) e.terms
  pure { e with fArg := some delta, terms := ts }

/-- the specific equations of one generalized equation (system.py:243-249) -/
def expandEq (fargs : Dict PyStr (List Num)) (e : Equation R) : Py (List (Equation R)) :=
  match fargs.get? (configId e.config) with
  | none => .error .keyError
  | some ds => collectM (fun d => some <$> initFull e d) ds

/-- `_initialize_equations` (system.py:232-260) -/
def initEquations (gens : Dict Nat (List (Equation R))) (fargs : Dict PyStr (List Num)) :
    Py (Dict Nat (List (Equation R))) :=
  collectM (fun kv => do
    let eqs ← collectM (fun e => some <$> expandEq fargs e) kv.2
    pure (some (kv.1, eqs.flatten))) gens

/-- all equations of a dictionary, in order (the loops of system.py:242-243, 269-270) -/
def allEqs (d : Dict Nat (List (Equation R))) : List (Equation R) := d.flatMap (fun kv => kv.2)

/-- `eq.index_term.id()` (system.py:271, 505) -/
def Equation.id (e : Equation R) : PyStr := termId e.config e.fArg

/-- `term.id()` (terms.py:710-737, system.py:273) -/
def Term.id (t : Term R) : PyStr := termId t.config (some t.fArg)

/-- `_final_checks` (system.py:262-281): the two sets of identifiers must be equal. -/
def finalChecks (eqs : Dict Nat (List (Equation R))) : Py Unit :=
  let lhs := (allEqs eqs).map Equation.id
  let rhs := (allEqs eqs).flatMap (fun e => e.terms.map Term.id)
  if lhs.all (fun x => decide (x ∈ rhs)) && rhs.all (fun x => decide (x ∈ lhs)) then .ok ()
  else .error .abort

/-- the three attributes computed by `_prime_system` (system.py:399-401, 415-438) -/
structure Built (R : Type) where
  gens : Dict Nat (List (Equation R))
  fargs : Dict PyStr (List Num)
  eqs : Dict Nat (List (Equation R))
  deriving DecidableEq

/-- `System(model)` without a root and without reloaded state (system.py:381-438) -/
def buildSystem (σ : SetOrder) (m : Model R) : Py (Built R) := do
  let confs ← generateAll m
  let (gens, fargs) ← initGeneralized σ m confs
  let eqs ← initEquations gens fargs
  finalChecks eqs
  pure ⟨gens, fargs, eqs⟩

/-- `get_basis(full_basis=True)` (system.py:500-506) -/
def fullBasis (eqs : Dict Nat (List (Equation R))) : Dict PyStr Nat :=
  ((allEqs eqs).zipIdx).foldl (fun d ei => d.set ei.1.id ei.2) []

/-- `get_basis(full_basis=False)` (system.py:508-515) -/
def localBasis (eqs : Dict Nat (List (Equation R))) : Dict Nat (Dict PyStr Nat) :=
  eqs.map (fun kv => (kv.1, (kv.2.zipIdx).foldl (fun d ei => Dict.set d ei.1.id ei.2) []))

end GGCE
