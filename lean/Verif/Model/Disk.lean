import Verif.Model.Engine

/-!
The checkpoint directory of a `System` (`ggce/engine/system.py:283-438`) and the construction of solvers
(`ggce/executors/solvers.py:50-81, 209-212, 367-370`).

The disk is a map from root directories (path strings) to the four files of a system checkpoint. Writing
a file is two steps: opening it, which empties it, and filling it; a process may stop after any step. The
results directory is modelled in Verif/Model/Cache.lean, other processes in Verif/Model/Parallel.lean. Not
modelled: different strings for one path, `mpi_comm`, log messages.

`model.json` is written by monty's `MSONable.to_json`, which takes the public attribute of each
constructor argument first and `from_dict` passes it to the constructor. For `phonon_absolute_extent` the
public attribute is the property (model.py:614-630), so `None` becomes the largest extent.
-/

namespace GGCE

variable {R : Type} [Field R] [LinearOrder R]

/-- `Model.from_dict(json.loads(m.to_json()))`; that this is what the functions of Verif/Model/Json.lean give is
`fromDict_tree` in Verif/Proofs/Json.lean (system.py:291, 356) -/
def Model.jsonRT (m : Model R) : Model R := { m with absExtentOpt := m.absExtent }

/-- A file: opened and not written, or complete (system.py:292-293, 333-337). -/
inductive File (α : Type) where
  | torn
  | full (a : α)
  deriving DecidableEq

/-- the type of `_generalized_equations` and `_equations` (system.py:216-227, 237-249) -/
abbrev EqDict (R : Type) := Dict Nat (List (Equation R))
/-- the type of `_f_arg_list` (system.py:142-155) -/
abbrev FArgs := Dict PyStr (List Num)

/-- The files of a root directory; `none`: there is no such file (system.py:290, 331). -/
structure Dir (R : Type) where
  model : Option (File (Model R)) := none
  gens : Option (File (EqDict R)) := none
  fargs : Option (File FArgs) := none
  eqs : Option (File (EqDict R)) := none
  deriving DecidableEq

/-- The disk: the root directories that exist (system.py:290, 331, 351, 359). -/
def FS (R : Type) := String → Option (Dir R)

/-- the files at a root; a missing directory has none (system.py:290, 331, 351, 359) -/
def FS.at (fs : FS R) (root : String) : Dir R := (fs root).getD {}

/-- change the directory at a root (system.py:292-293, 333-337, 394) -/
def FS.put (fs : FS R) (root : String) (d : Dir R) : FS R := fun q => if q = root then some d else fs q

/-- Outcome of a computation that writes files: its result, the final disk, and every state of the disk it
went through, in order (without the initial one) (for system.py:283-438). -/
structure Out (R α : Type) where
  result : Py α
  fs : FS R
  states : List (FS R)

/-- A computation that may read and write files and raise exceptions (for system.py:283-438). -/
def Io (R α : Type) := FS R → Out R α

namespace Io
variable {α β : Type}

/-- return a value (statements one after the other, for system.py:283-438) -/
def ret (a : α) : Io R α := fun fs => ⟨.ok a, fs, []⟩

/-- sequencing; an exception stops the computation (statements one after the other, for system.py:283-438) -/
def andThen (x : Io R α) (f : α → Io R β) : Io R β := fun fs =>
  match (x fs).result with
  | .error e => ⟨.error e, (x fs).fs, (x fs).states⟩
  | .ok a => ⟨(f a (x fs).fs).result, (f a (x fs).fs).fs, (x fs).states ++ (f a (x fs).fs).states⟩

/-- sequencing as a monad, statements one after the other, for system.py:283-438 -/
instance : Monad (Io R) where
  pure := ret
  bind := andThen

/-- a computation that does not touch the disk (statements one after the other, for system.py:283-438) -/
def lift (x : Py α) : Io R α := fun fs => ⟨x, fs, []⟩

/-- the files at a root (system.py:332, 352, 360, 365, 370) -/
def look (root : String) : Io R (Dir R) := fun fs => ⟨.ok (fs.at root), fs, []⟩

/-- `Path(root).mkdir(exist_ok=True, parents=True)` (system.py:394) -/
def mkdir (root : String) : Io R Unit := fun fs => ⟨.ok (), fs.put root (fs.at root), [fs.put root (fs.at root)]⟩

/-- `open` for writing, then writing and closing (system.py:292-293, 333-337) -/
def write (root : String) (upd : File β → Dir R → Dir R) (content : β) : Io R Unit := fun fs =>
  let fs1 := fs.put root (upd .torn (fs.at root))
  let fs2 := fs.put root (upd (.full content) (fs.at root))
  ⟨.ok (), fs2, [fs1, fs2]⟩

/-- `pickle.load(open(path, "rb"))` if the file exists, else `None`; an empty file is an `EOFError`
(system.py:358-371) -/
def load (f : Option (File β)) : Io R (Option β) := match f with
  | none => ret none
  | some .torn => lift (.error .eofError)
  | some (.full a) => ret (some a)

end Io

/-- The attributes of a `System` object (system.py:392-401). `lim` is `chkpt_lim`. -/
structure Sys (R : Type) where
  root : Option String
  model : Model R
  gens : Option (EqDict R)
  fargs : Option FArgs
  eqs : Option (EqDict R)
  lim : Int

namespace Sys

/-- `_save_model` (system.py:283-293): despite its docstring, the file is always opened with mode `"w"` -/
def saveModel (s : Sys R) : Io R Unit := match s.root with
  | none => pure ()
  | some r => Io.write r (fun f d => { d with model := some f }) s.model.jsonRT

/-- one round of the loop in `checkpoint` (system.py:329-338): write if there is something to write and
the file does not exist -/
def saveAttr {β : Type} (root : String) (get : Dir R → Option (File β)) (upd : File β → Dir R → Dir R)
    (obj : Option β) : Io R Unit := match obj with
  | none => pure ()
  | some b => do
    let d ← Io.look root
    if (get d).isNone then Io.write root upd b else pure ()

/-- the test against the limit (system.py:315-327): never exceeded while there are no equations -/
def overLimit (s : Sys R) : Bool := match s.eqs with
  | none => false
  | some e => decide ((allEqs e).length > s.lim)

/-- `checkpoint` (system.py:295-338) -/
def checkpoint (s : Sys R) : Io R Unit := match s.root with
  | none => pure ()
  | some r =>
    if s.overLimit then pure () else do
      saveAttr r Dir.gens (fun f d => { d with gens := some f }) s.gens
      saveAttr r Dir.fargs (fun f d => { d with fargs := some f }) s.fargs
      saveAttr r Dir.eqs (fun f d => { d with eqs := some f }) s.eqs

/-- `_initialize_generalized_equations` (system.py:215-230) when an argument list is already present: the
new arguments are merged into it (142-155). With an empty one this is `initGeneralized`. -/
def initGeneralizedFrom (σ : SetOrder) (m : Model R) (confs : Dict Nat (List Arr)) (d0 : FArgs) :
    Py (EqDict R × FArgs) := do
  let (gens, _) ← initGeneralized σ m confs
  let d := (allEqs gens).foldl (fun d (e : Equation R) => mergeFArgs d e.fArgTerms) d0
  pure (gens, uniqueDict σ d)

/-- the first half of `_prime_system` (system.py:421-428) -/
def primeGens (σ : SetOrder) (s : Sys R) : Py (Sys R) := match s.gens with
  | some _ => .ok s
  | none => do
    let confs ← generateAll s.model
    let (g, f) ← match s.fargs with
      | none => initGeneralized σ s.model confs
      | some d0 => initGeneralizedFrom σ s.model confs d0
    pure { s with gens := some g, fargs := some f }

/-- the second half (system.py:430-434); `_get_total_terms` (180-184) on a missing argument list is an
`AttributeError` -/
def primeEqs (s : Sys R) : Py (Sys R) := match s.eqs with
  | some _ => .ok s
  | none => match s.fargs, s.gens with
    | some f, some g => do
      let e ← initEquations g f
      pure { s with eqs := some e }
    | _, _ => .error .attributeError

/-- `_prime_system` (system.py:415-438): the primed object -/
def prime (σ : SetOrder) (s : Sys R) : Io R (Sys R) := do
  let s1 ← Io.lift (primeGens σ s)
  s1.checkpoint
  let s2 ← Io.lift (primeEqs s1)
  s2.checkpoint
  match s2.eqs with
  | none => Io.lift (.error .attributeError)
  | some e => do
    Io.lift (finalChecks e)
    pure s2

/-- `System.__init__` (system.py:381-413) -/
def init (σ : SetOrder) (s : Sys R) (autoprime : Bool) : Io R (Sys R) := do
  match s.root with
  | some r => Io.mkdir r
  | none => pure ()
  s.saveModel
  if autoprime then s.prime σ else pure s

/-- `System(model, root=root, chkpt_lim=lim, autoprime=autoprime)` (system.py:381-413) -/
def new (σ : SetOrder) (m : Model R) (root : Option String) (lim : Int := 1000000) (autoprime : Bool := true) :
    Io R (Sys R) := init σ ⟨root, m, none, none, none, lim⟩ autoprime

/-- `System.from_checkpoint` (system.py:340-379); an empty `model.json` is a `JSONDecodeError`, which is a
`ValueError` -/
def fromCheckpoint (σ : SetOrder) (root : String) : Io R (Sys R) := do
  let d ← Io.look root
  match d.model with
  | none => Io.lift (.error .abort)
  | some .torn => Io.lift (.error .valueError)
  | some (.full m) => do
    let g ← Io.load d.gens
    let f ← Io.load d.fargs
    let e ← Io.load d.eqs
    init σ ⟨some root, m, g, f, e, 1000000⟩ true

end Sys

/-- `Solver.__init__` (solvers.py:50-81): the system the solver will use. The root given to the solver is
used for the results directory and to look for a checkpoint; it is not passed on to a given system. -/
def solverInit (σ : SetOrder) (system : Option (Sys R)) (root : Option String) : Io R (Sys R) := do
  match root with
  | some r => Io.mkdir r
  | none => pure ()
  let s ← match system, root with
    | some s, _ => pure s
    | none, some r => Sys.fromCheckpoint σ r
    | none, none => Io.lift (.error .abort)
  s.checkpoint
  pure s

/-- `SparseSolver.__init__` (solvers.py:209-212): `get_basis` (system.py:470-516) of a system without
equations is an `AttributeError` -/
def sparseInit (σ : SetOrder) (system : Option (Sys R)) (root : Option String) :
    Io R (Sys R × Dict PyStr Nat) := do
  let s ← solverInit σ system root
  match s.eqs with
  | none => Io.lift (.error .attributeError)
  | some e => pure (s, fullBasis e)

/-- `DenseSolver.__init__` (solvers.py:367-370) -/
def denseInit (σ : SetOrder) (system : Option (Sys R)) (root : Option String) :
    Io R (Sys R × Dict Nat (Dict PyStr Nat)) := do
  let s ← solverInit σ system root
  match s.eqs with
  | none => Io.lift (.error .attributeError)
  | some e => pure (s, localBasis e)

end GGCE
