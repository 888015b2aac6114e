import Verif.Model.Interrupt

/-!
Programs that run at the same time on one disk, as with `mpirun` or several terminals. A process is described by what it does
with the disk next: test for a file or read it, change the disk, or print an answer. Other processes may act between any two
of these. Testing for a file and reading it are separate (`path.exists()`, then `open`), and so are opening a file for writing
(which empties it) and filling it. Filling is one step: if two processes have opened the same file, it holds what the last
one wrote. Calculations in memory take no step. That a process which is alone does what Verif/Model/Interrupt.lean says
is `C109_alone`.

Not modelled here: communicators (Verif/Model/Crew.lean), log messages, files that are deleted.
-/

namespace GGCE

variable {R K V : Type} [Field R] [LinearOrder R] [Field K]

/-- What a process will do, on a disk of type `S`: print answers of type `A`, and return or raise in the end
(for system.py:283-438 and solvers.py:50-190). -/
inductive Todo (S A α : Type) : Type 1 where
  | stop (r : Py α)
  | read {β : Type} (f : S → β) (k : β → Todo S A α)
  | write (f : S → S) (k : Todo S A α)
  | say (a : A) (k : Todo S A α)

namespace Todo
variable {S A α β : Type}

/-- sequencing; an exception stops the process (for system.py:283-438 and solvers.py:50-190) -/
def andThen (x : Todo S A α) (f : α → Todo S A β) : Todo S A β := match x with
  | .stop (.ok a) => f a
  | .stop (.error e) => .stop (.error e)
  | .read g k => .read g (fun b => (k b).andThen f)
  | .write g k => .write g (k.andThen f)
  | .say a k => .say a (k.andThen f)

/-- `try`: the exception as a value (for system.py:283-438 and solvers.py:50-190) -/
def attempt : Todo S A α → Todo S A (Py α)
  | .stop r => .stop (.ok r)
  | .read g k => .read g (fun b => (k b).attempt)
  | .write g k => .write g k.attempt
  | .say a k => .say a k.attempt

/-- sequencing as a monad, for system.py:283-438 and solvers.py:50-190 -/
instance : Monad (Todo S A) where
  pure a := .stop (.ok a)
  bind := andThen

/-- what happens if no other process acts: the answers, the result, the disk
(for system.py:283-438 and solvers.py:50-190) -/
def alone : Todo S A α → S → List A × Py α × S
  | .stop r, s => ([], r, s)
  | .read f k, s => (k (f s)).alone s
  | .write f k, s => k.alone (f s)
  | .say a k, s => (a :: (k.alone s).1, (k.alone s).2)

end Todo

/-- a process of a program (for system.py:283-438 and solvers.py:50-190) -/
abbrev Act (R K α : Type) := Todo (Store R K) (Py (Answer K)) α

namespace Act
variable {α β : Type}

/-- a file of a checkpoint, if it is there (system.py:332, 352, 360, 365, 370) -/
def look (root : String) (get : Dir R → Option (File β)) : Act R K (Option (File β)) :=
  .read (fun st => get (st.fs.at root)) (fun x => .stop (.ok x))

/-- one change of a directory (system.py:292-293, 333-337) -/
def change (root : String) (upd : Dir R → Dir R) : Act R K Unit :=
  .write (fun st => { st with fs := st.fs.put root (upd (st.fs.at root)) }) (.stop (.ok ()))

/-- `mkdir` with `exist_ok` (system.py:394, solvers.py:63) -/
def mkdir (root : String) : Act R K Unit := change root id

/-- `open` for writing, then writing and closing (system.py:292-293, 333-337) -/
def writeFile (root : String) (upd : File β → Dir R → Dir R) (content : β) : Act R K Unit := do
  change root (upd .torn)
  change root (upd (.full content))

/-- `if path.exists(): x = pickle.load(open(path, "rb"))` (system.py:358-371) -/
def load (root : String) (get : Dir R → Option (File β)) : Act R K (Option β) := do
  let there ← look root get
  if there.isNone then pure none
  else do
    match ← look root get with
    | none => .stop (.error .fileNotFound)
    | some .torn => .stop (.error .eofError)
    | some (.full a) => pure (some a)

/-- `_save_model` (system.py:283-293) -/
def saveModel (s : Sys R) : Act R K Unit := match s.root with
  | none => pure ()
  | some r => writeFile r (fun f d => { d with model := some f }) s.model.jsonRT

/-- one round of the loop in `checkpoint` (system.py:329-338) -/
def saveAttr (root : String) (get : Dir R → Option (File β)) (upd : File β → Dir R → Dir R) (obj : Option β) :
    Act R K Unit := match obj with
  | none => pure ()
  | some b => do
    let there ← look root get
    if there.isNone then writeFile root upd b else pure ()

/-- `checkpoint` (system.py:295-338) -/
def checkpoint (s : Sys R) : Act R K Unit := match s.root with
  | none => pure ()
  | some r =>
    if s.overLimit then pure () else do
      saveAttr r Dir.gens (fun f d => { d with gens := some f }) s.gens
      saveAttr r Dir.fargs (fun f d => { d with fargs := some f }) s.fargs
      saveAttr r Dir.eqs (fun f d => { d with eqs := some f }) s.eqs

/-- `_prime_system` (system.py:415-438) -/
def prime (σ : SetOrder) (s : Sys R) : Act R K (Sys R) := do
  let s1 ← .stop (s.primeGens σ)
  checkpoint s1
  let s2 ← .stop s1.primeEqs
  checkpoint s2
  match s2.eqs with
  | none => .stop (.error .attributeError)
  | some e => do
    .stop (finalChecks e)
    pure s2

/-- `System.__init__` (system.py:381-413) with `autoprime` -/
def init (σ : SetOrder) (s : Sys R) : Act R K (Sys R) := do
  match s.root with
  | some r => mkdir r
  | none => pure ()
  saveModel s
  prime σ s

/-- `System.from_checkpoint` (system.py:340-379) -/
def fromCheckpoint (σ : SetOrder) (root : String) : Act R K (Sys R) := do
  let there ← look root Dir.model
  if there.isNone then .stop (.error .abort)
  else do
    match ← look root Dir.model with
    | none => .stop (.error .fileNotFound)
    | some .torn => .stop (.error .valueError)
    | some (.full m) => do
      let g ← load root Dir.gens
      let f ← load root Dir.fargs
      let e ← load root Dir.eqs
      init σ ⟨some root, m, g, f, e, 1000000⟩

/-- `Solver.__init__` (solvers.py:50-81) -/
def solverInit (σ : SetOrder) (system : Option (Sys R)) (root : Option String) : Act R K (Sys R) := do
  match root with
  | some r => mkdir r
  | none => pure ()
  let s ← match system, root with
    | some s, _ => pure s
    | none, some r => fromCheckpoint σ r
    | none, none => .stop (.error .abort)
  checkpoint s
  pure s

/-- the constructors of the two solvers (solvers.py:209-212, 367-370) -/
def newSolver (σ : SetOrder) (kind : SolverKind K) (system : Option (Sys R)) (root : Option String) :
    Act R K (SolverObj R K) := do
  let s ← solverInit σ system root
  match s.eqs, kind with
  | none, _ => .stop (.error .attributeError)
  | some e, .sparse sp => pure (.sparse s (fullBasis e) sp)
  | some e, .dense => pure (.dense s (localBasis e))

/-- the construction of the solver in a program (solvers.py:50-81) -/
def construct (m : Model R) (s : Script R K) : Act R K (SolverObj R K) := match s.source with
  | .fresh sysRoot lim solverRoot => do
    let sys ← init s.order ⟨sysRoot, m, none, none, none, lim⟩
    newSolver s.order s.kind (some sys) solverRoot
  | .resume root => newSolver s.order s.kind none (some root)

/-- a file in a results directory, if it is there (solvers.py:134-135) -/
def lookResult (root : String) (c : PyStr) : Act R K (Option (File (Option K))) :=
  .read (fun st => (st.results root).get? c) (fun x => .stop (.ok x))

/-- one change of a file in a results directory (solvers.py:142) -/
def changeResult (root : String) (c : PyStr) (f : File (Option K)) : Act R K Unit :=
  .write (fun st => { st with results := fun q => if q = root then (st.results root).set c f else st.results q })
    (.stop (.ok ()))

/-- `solve` (solvers.py:335-347, 419-450), with `_pre_solve` (128-136) and `_post_solve` (138-142) -/
def solve [FloorRing R] (raw : Point R → Py (Option K)) (root : Option String) (p : Point R) : Act R K (Option K) :=
  match root with
  | none => .stop (raw p)
  | some r => do
    let there ← lookResult r (cacheKey p)
    if there.isNone then do
      let G ← .stop (raw p)
      changeResult r (cacheKey p) .torn
      changeResult r (cacheKey p) (.full G)
      pure G
    else do
      match ← lookResult r (cacheKey p) with
      | none => .stop (.error .fileNotFound)
      | some .torn => .stop (.error .eofError)
      | some (.full G) => pure G

/-- the loop of `greens_function` (solvers.py:171-173) -/
def solveAll [FloorRing R] (raw : Point R → Py (Option K)) (root : Option String) :
    List (Point R) → Act R K (List (Option K))
  | [] => pure []
  | p :: ps => do
    let G ← solve raw root p
    let Gs ← solveAll raw root ps
    pure (G :: Gs)

/-- one call (solvers.py:144-190, 335-347) -/
def call [FloorRing R] (raw : Point R → Py (Option K)) (root : Option String) : Call R → Act R K (Answer K)
  | .solve p => do
    let v ← solve raw root p
    pure (.value v)
  | .grid k w eta => do
    let ks ← .stop (floatToList k)
    let ws ← .stop (floatToList w)
    let Gs ← solveAll raw root ((jobList ks ws).map (fun j => ⟨j.1, j.2, eta⟩))
    let M ← .stop (reshapeGrid Gs ks.length ws.length)
    pure (.matrix M)

/-- the calls of a program, each answer printed; an exception ends it (solvers.py:144-190, 335-347) -/
def calls [FloorRing R] (raw : Point R → Py (Option K)) (root : Option String) : List (Call R) → Act R K Unit
  | [] => pure ()
  | c :: cs => do
    match ← (call raw root c).attempt with
    | .error e => .say (.error e) (.stop (.error e))
    | .ok a => .say (.ok a) (calls raw root cs)

/-- a program for the model `m` (system.py:381-438, solvers.py:50-190) -/
noncomputable def program [FloorRing R] (F : Phys R K) (m : Model R) (s : Script R K) : Act R K Unit := do
  match ← (construct m s).attempt with
  | .error e => .say (.error e) (.stop (.error e))
  | .ok o => calls (o.raw F) s.source.solverRoot s.calls

end Act

/-- a process: the program it runs, what it has printed, and what is left to do
(system.py:381-438, solvers.py:50-190) -/
structure Running (R K : Type) : Type 1 where
  script : Script R K
  said : List (Py (Answer K))
  rest : Act R K Unit

/-- one step of a process (system.py:381-438, solvers.py:50-190) -/
def Running.move (p : Running R K) (st : Store R K) : Store R K × Running R K := match p.rest with
  | .stop r => (st, { p with rest := .stop r })
  | .read f k => (st, { p with rest := k (f st) })
  | .write f k => (f st, { p with rest := k })
  | .say a k => (st, { p with said := p.said ++ [a], rest := k })

end GGCE
