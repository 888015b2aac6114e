import Verif.Model.Disk
import Verif.Model.Cache
import Verif.Model.Grid
import Verif.Model.Solver

/-!
Whole programs, as in the README and the tutorials: construct a `System` (or name the directory of an earlier one),
construct a solver, call `solve` and `greens_function`; then further programs on the same disk. This composes the
models of the single steps: `Sys.new`, `sparseInit`, `denseInit` (Verif/Model/Disk.lean), `cachedSolve`
(Verif/Model/Cache.lean), `sparseSolve`, `denseSolve` (Verif/Model/Solver.lean) and the grid of Verif/Model/Grid.lean.
One process at a time, without communicator.
-/

namespace GGCE

variable {R K : Type} [Field R] [LinearOrder R] [Field K]

/-- The disk: the checkpoints, and the files in the results directory of every root. A result is `none` if it is
not a finite number (system.py:290, 331, solvers.py:59-69). -/
structure Machine (R K : Type) where
  fs : FS R
  results : String → Dict PyStr (Option K)

/-- which class of solver, for the sparse one with the routine that solves linear systems (solvers.py:193, 350) -/
inductive SolverKind (K : Type) where
  | sparse (spsolve : LinSys K → Py (Nat → K))
  | dense

/-- A solver object: the system it uses, its basis (solvers.py:209-212, 367-370). -/
inductive SolverObj (R K : Type) where
  | sparse (sys : Sys R) (basis : Dict PyStr Nat) (spsolve : LinSys K → Py (Nat → K))
  | dense (sys : Sys R) (basis : Dict Nat (Dict PyStr Nat))

/-- `SparseSolver(system=system, root=root)` or `DenseSolver(system=system, root=root)`
(solvers.py:50-81, 209-212, 367-370) -/
def SolverObj.new (σ : SetOrder) (kind : SolverKind K) (system : Option (Sys R)) (root : Option String) :
    Io R (SolverObj R K) := match kind with
  | .sparse sp => do
    let (s, basis) ← sparseInit σ system root
    pure (.sparse s basis sp)
  | .dense => do
    let (s, basis) ← denseInit σ system root
    pure (.dense s basis)

/-- the part of `solve` between the two comments (solvers.py:339-343, 422-446) -/
noncomputable def SolverObj.raw (F : Phys R K) (o : SolverObj R K) (p : Point R) : Py (Option K) := match o with
  | .sparse s basis sp => match s.eqs with
    | none => .error .attributeError
    | some e => (sparseSolve F s.model p basis e sp).map some
  | .dense s basis => match s.eqs with
    | none => .error .attributeError
    | some e => denseSolve F s.model p basis e

/-- a call of a method of the solver (solvers.py:144, 315, 401) -/
inductive Call (R : Type) where
  /-- `solver.solve(k, w, eta)` -/
  | solve (p : Point R)
  /-- `solver.greens_function(k, w, eta)` -/
  | grid (k w : GridArg R) (eta : R)

/-- what a call returns (solvers.py:190, 347, 450) -/
inductive Answer (K : Type) where
  | value (v : Option K)
  | matrix (M : List (List (Option K)))

/-- `for _k, _w in jobs: s.append(self.solve(_k, _w, eta))` (solvers.py:171-173): an exception ends the loop; files
written so far stay -/
def solveAll [FloorRing R] (raw : Point R → Py (Option K)) (negative : Option K → Bool) :
    List (Point R) → CacheState R (Option K) → Py (List (Option K)) × CacheState R (Option K)
  | [], s => (.ok [], s)
  | p :: ps, s =>
    match cachedSolve raw negative s p with
    | (.error e, s1) => (.error e, s1)
    | (.ok G, s1) =>
      match solveAll raw negative ps s1 with
      | (.error e, s2) => (.error e, s2)
      | (.ok Gs, s2) => (.ok (G :: Gs), s2)

/-- one call (solvers.py:144-190, 315-347, 401-450) -/
def runCall [FloorRing R] (raw : Point R → Py (Option K)) (negative : Option K → Bool) (c : Call R)
    (s : CacheState R (Option K)) : Py (Answer K) × CacheState R (Option K) := match c with
  | .solve p => ((cachedSolve raw negative s p).1.map .value, (cachedSolve raw negative s p).2)
  | .grid k w eta =>
    match floatToList k, floatToList w with
    | .ok ks, .ok ws =>
      let r := solveAll raw negative ((jobList ks ws).map (fun j => ⟨j.1, j.2, eta⟩)) s
      (r.1.bind (fun Gs => (reshapeGrid Gs ks.length ws.length).map .matrix), r.2)
    | .error e, _ => (.error e, s)
    | _, .error e => (.error e, s)

/-- the calls of a program; an exception ends it (solvers.py:144-190, 315-347, 401-450) -/
def runCalls [FloorRing R] (raw : Point R → Py (Option K)) (negative : Option K → Bool) :
    List (Call R) → CacheState R (Option K) → List (Py (Answer K)) × CacheState R (Option K)
  | [], s => ([], s)
  | c :: cs, s =>
    match runCall raw negative c s with
    | (.error e, s1) => ([.error e], s1)
    | (.ok a, s1) => (.ok a :: (runCalls raw negative cs s1).1, (runCalls raw negative cs s1).2)

/-- where the system of a program comes from (system.py:340-413, solvers.py:71-74) -/
inductive Source where
  /-- `System(model, root=sysRoot, chkpt_lim=lim)`, then a solver with `root=solverRoot` -/
  | fresh (sysRoot : Option String) (lim : Int) (solverRoot : Option String)
  /-- a solver with `root=root` only -/
  | resume (root : String)

/-- A program. Every process has its own order of iteration of sets (hash randomisation)
(system.py:381-438, solvers.py:50-190). -/
structure Script (R K : Type) where
  order : SetOrder
  kind : SolverKind K
  source : Source
  calls : List (Call R)

/-- the root of the solver (solvers.py:50-52) -/
def Source.solverRoot : Source → Option String
  | .fresh _ _ r => r
  | .resume r => some r

/-- the construction of the solver in a program (solvers.py:50-81) -/
def Script.construct (m : Model R) (s : Script R K) : Io R (SolverObj R K) := match s.source with
  | .fresh sysRoot lim solverRoot => do
    let sys ← Sys.new s.order m sysRoot lim
    SolverObj.new s.order s.kind (some sys) solverRoot
  | .resume root => SolverObj.new s.order s.kind none (some root)

/-- A program for the model `m`: the results of its calls, and the disk afterwards
(system.py:381-438, solvers.py:50-190). -/
noncomputable def Script.run [FloorRing R] (F : Phys R K) (negative : Option K → Bool) (m : Model R) (s : Script R K)
    (mach : Machine R K) : List (Py (Answer K)) × Machine R K :=
  match (s.construct m mach.fs).result with
  | .error e => ([.error e], { mach with fs := (s.construct m mach.fs).fs })
  | .ok o =>
    let r := runCalls (o.raw F) negative s.calls ⟨s.source.solverRoot.map mach.results, []⟩
    (r.1, { fs := (s.construct m mach.fs).fs
            results := match s.source.solverRoot, r.2.dir with
              | some root, some d => fun q => if q = root then d else mach.results q
              | _, _ => mach.results })

/-- programs one after the other (system.py:381-438, solvers.py:50-190) -/
noncomputable def runScripts [FloorRing R] (F : Phys R K) (negative : Option K → Bool) (m : Model R) :
    List (Script R K) → Machine R K → List (List (Py (Answer K))) × Machine R K
  | [], mach => ([], mach)
  | s :: ss, mach =>
    let r := s.run F negative m mach
    (r.1 :: (runScripts F negative m ss r.2).1, (runScripts F negative m ss r.2).2)

/-- programs for various models one after the other (system.py:381-438, solvers.py:50-190) -/
noncomputable def runAll [FloorRing R] (F : Phys R K) (negative : Option K → Bool) :
    List (Model R × Script R K) → Machine R K → List (List (Py (Answer K))) × Machine R K
  | [], mach => ([], mach)
  | (m, s) :: ss, mach =>
    let r := s.run F negative m mach
    (r.1 :: (runAll F negative ss r.2).1, (runAll F negative ss r.2).2)

end GGCE
