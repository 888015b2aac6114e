import Verif.Model.Petsc

/-!
Preparing matrices and solving from them in one parallel program (`docs/source/tutorials/petsc_advanced.rst:109-171`):
every rank calls `prepare_greens_function` of a first `MassSolverMUMPS`, constructs a second one with the same
`matr_dir`, and calls its `greens_function` (`ggce/executors/petsc4py/base.py:66-117, 331-432, 479-682`,
`ggce/executors/petsc4py/solvers.py:120-235`). The ranks share one matrix directory and run at their own pace. The
steps that matter to other ranks are separate: opening a matrix file for writing (which empties it), writing it, the
split of the communicator in the second constructor, reading the sample file, reading the matrix of the point, and the
collective part of `solve`, which is one step of the whole brigade. Results directories are in `Crew.lean`. All ranks
are taken to build the same matrices, and all to see the same files at all times. Several ranks writing the same bytes
to the same file at a time leave the complete file once all have finished, and an emptied file until the first has.
-/

namespace GGCE.Stage
open Petsc

variable {R K : Type} [Field R] [LinearOrder R] [Field K]

/-- what a rank is doing (base.py:111-117, 331-432, 582-682, petsc4py/solvers.py:120-235) -/
inductive Phase (K : Type) where
  /-- in the first stage, before its `i`-th matrix or after the last (base.py:658-661) -/
  | prepare (i : Nat)
  /-- the file of the `i`-th matrix is open and empty (base.py:606-607) -/
  | writing (i : Nat)
  /-- in `Split`, waiting for the other ranks (base.py:115-117) -/
  | arrived
  /-- in the second stage, before its `i`-th job or after the last (base.py:540-541) -/
  | sample (i : Nat)
  /-- the size of the matrix has been inferred (base.py:356) -/
  | load (i N : Nat)
  /-- the matrix has been read (base.py:358-362); waiting for the other ranks of the brigade -/
  | joined (i N : Nat) (ts : List (Nat × Nat × K))
  /-- stopped with an exception (base.py:361-362, 675-680) -/
  | failed

/-- the files of the matrix directory with `.pkl` in their names (an emptied file is `none`), and what the ranks are
doing and have computed (base.py:541, 603-607, 673-678) -/
structure World (K : Type) where
  files : Dict PyStr (Option (List (Nat × Nat × K)))
  phase : Nat → Phase K
  done : Nat → List K

/-- The program: number of ranks, whether the second constructor gets a `brigade_size` (base.py:82-90), brigade size
of the second stage, jobs of each rank in the two stages (base.py:536, 649), the matrix of a point, and what a brigade
computes when its ranks have inferred the given sizes and read the given matrices for the given points. -/
structure Program (R K : Type) where
  world : Nat
  split : Bool
  size : Nat
  first : Nat → List (Point R)
  second : Nat → List (Point R)
  matrix : Point R → List (Nat × Nat × K)
  solve : List (Nat × Point R × List (Nat × Nat × K)) → Py K

/-- The collective part of `solve` with a matrix directory (base.py:377-427, petsc4py/solvers.py:177-224): PETSc
refuses to create a vector if the ranks ask for different sizes; each rank inserts the rows it owns of the matrix it
has read, and `G0` of its point. -/
def solveLoaded (F : Phys R K) (m : Model R) (ksp : DistSys K → Py (List K)) (size : Nat)
    (l : List (Nat × Point R × List (Nat × Nat × K))) : Py K :=
  match l with
  | [] => .error .runtimeError
  | (N, _, _) :: rest =>
    if rest.all (fun x => decide (x.1 = N)) then do
      let rs ← mapPy (fun x => rankAssemble N size x.1.2.2 x.2) (l.zip (List.range size))
      let x ← ksp ⟨N, rs.map Prod.snd, if N = 0 then [] else l.map (fun x =>
        (N - 1, F.G0 x.2.1.k x.2.1.w m.latticeConstant x.2.1.eta m.ham.hopping))⟩
      readG N size x
    else .error .runtimeError

/-- the jobs of a rank as points (base.py:519-520, 536, 645-649) -/
def pointsOf (b : Brigades) (k w : List R) (eta : R) (rank : Nat) : List (Point R) :=
  match b.jobs (jobList k w) rank with
  | .ok l => l.map (fun x => ⟨x.1, x.2, eta⟩)
  | .error _ => []

/-- The program of the tutorial (petsc_advanced.rst:109-171): layout `a` and grid `k`, `w` in the first stage, layout
`b` and grid `k'`, `w'` in the second; both grids after padding (base.py:508-517, 634-643). -/
def Program.of (F : Phys R K) (m : Model R) (ksp : DistSys K → Py (List K)) (matrix : Point R → List (Nat × Nat × K))
    (a b : Brigades) (k w k' w' : List R) (eta : R) : Program R K where
  world := b.world
  split := b.size?.isSome
  size := b.size
  first := pointsOf a k w eta
  second := pointsOf b k' w' eta
  matrix := matrix
  solve := solveLoaded F m ksp b.size

/-- replace the phase of a rank (base.py:331-432, 582-682) -/
def World.setPhase (c : World K) (r : Nat) (q : Phase K) : World K :=
  { c with phase := fun r' => if r' = r then q else c.phase r' }

/-- the call of `solve` returns (base.py:541, petsc4py/solvers.py:230) -/
def Phase.next : Phase K → Phase K
  | .joined i _ _ => .sample (i + 1)
  | q => q

/-- one step of one rank, or a collective step (base.py:82-117, 331-432, 536-541, 582-682) -/
inductive Step [FloorRing R] (P : Program R K) : World K → World K → Prop
  /-- `open(matr_loc, "wb")` (base.py:606) -/
  | «open» (c : World K) (r i : Nat) (p : Point R) (hr : r < P.world) (hp : c.phase r = .prepare i)
      (ht : (P.first r)[i]? = some p) :
      Step P c (World.setPhase { c with files := c.files.set (matName p) none } r (.writing i))
  /-- the matrix is written and the file closed (base.py:607) -/
  | write (c : World K) (r i : Nat) (p : Point R) (hr : r < P.world) (hp : c.phase r = .writing i)
      (ht : (P.first r)[i]? = some p) :
      Step P c (World.setPhase { c with files := c.files.set (matName p) (some (P.matrix p)) } r (.prepare (i + 1)))
  /-- the first stage ends; the second constructor splits the communicator if it has a `brigade_size` (base.py:82-90) -/
  | arrive (c : World K) (r : Nat) (hr : r < P.world) (hp : c.phase r = .prepare (P.first r).length) :
      Step P c (c.setPhase r (if P.split then .arrived else .sample 0))
  /-- `Split`: no rank can know the new communicators before all ranks have named theirs (base.py:115-117) -/
  | split (c : World K) (hs : P.split = true) (hall : ∀ r < P.world, c.phase r = .arrived) :
      Step P c { c with phase := fun r => if r < P.world then .sample 0 else c.phase r }
  /-- `_get_matr_size`: any file may be the sample (base.py:668-682) -/
  | sample (c : World K) (r i : Nat) (p : Point R) (n : PyStr) (ts : List (Nat × Nat × K)) (hr : r < P.world)
      (hp : c.phase r = .sample i) (ht : (P.second r)[i]? = some p) (hn : c.files.get? n = some (some ts)) (he : ts ≠ []) :
      Step P c (c.setPhase r (.load i (cooRows ts)))
  /-- no file, or an emptied file, or an empty matrix: `ValueError` or `EOFError` (base.py:675-680) -/
  | noSample (c : World K) (r i : Nat) (p : Point R) (hr : r < P.world) (hp : c.phase r = .sample i)
      (ht : (P.second r)[i]? = some p)
      (hn : c.files = [] ∨ ∃ n, c.files.get? n = some none ∨ c.files.get? n = some (some [])) :
      Step P c (c.setPhase r .failed)
  /-- the matrix of the point (base.py:358-362) -/
  | load (c : World K) (r i N : Nat) (p : Point R) (ts : List (Nat × Nat × K)) (hr : r < P.world)
      (hp : c.phase r = .load i N) (ht : (P.second r)[i]? = some p) (hn : c.files.get? (matName p) = some (some ts)) :
      Step P c (c.setPhase r (.joined i N ts))
  /-- no such file, or an emptied file: `FileNotFoundError` or `EOFError` (base.py:361-362) -/
  | noLoad (c : World K) (r i N : Nat) (p : Point R) (hr : r < P.world) (hp : c.phase r = .load i N)
      (ht : (P.second r)[i]? = some p) (hn : c.files.get? (matName p) = none ∨ c.files.get? (matName p) = some none) :
      Step P c (c.setPhase r .failed)
  /-- all ranks of brigade `j` are there: solve, gather, broadcast (base.py:377-427, petsc4py/solvers.py:154-230) -/
  | meet (c : World K) (j : Nat) (l : List (Nat × Point R × List (Nat × Nat × K))) (G : K) (hj : j * P.size < P.world)
      (hlen : l.length = P.size)
      (hall : ∀ s < P.size, ∃ i N p ts, c.phase (j * P.size + s) = .joined i N ts ∧
        (P.second (j * P.size + s))[i]? = some p ∧ l[s]? = some (N, p, ts))
      (hs : P.solve l = .ok G) :
      Step P c { c with
        phase := fun r => if r / P.size = j then (c.phase r).next else c.phase r
        done := fun r => if r / P.size = j then c.done r ++ [G] else c.done r }
  /-- the computation raises on all ranks -/
  | crash (c : World K) (j : Nat) (l : List (Nat × Point R × List (Nat × Nat × K))) (e : Err) (hj : j * P.size < P.world)
      (hlen : l.length = P.size)
      (hall : ∀ s < P.size, ∃ i N p ts, c.phase (j * P.size + s) = .joined i N ts ∧
        (P.second (j * P.size + s))[i]? = some p ∧ l[s]? = some (N, p, ts))
      (hs : P.solve l = .error e) :
      Step P c { c with phase := fun r => if r / P.size = j then .failed else c.phase r }

/-- any number of steps (base.py:540-541, 658-659) -/
inductive Steps [FloorRing R] (P : Program R K) : World K → World K → Prop
  | refl (c : World K) : Steps P c c
  | tail {c d e : World K} : Steps P c d → Step P d e → Steps P c e

/-- all ranks before their first matrix (base.py:657-658) -/
def World.start (files : Dict PyStr (Option (List (Nat × Nat × K)))) : World K := ⟨files, fun _ => .prepare 0, fun _ => []⟩

/-- all ranks have finished their jobs and go on to the final `gather` (base.py:545) -/
def Final (P : Program R K) (c : World K) : Prop := ∀ r < P.world, c.phase r = .sample (P.second r).length

/-- the steps a rank has left at most, for `n` matrices and `n'` jobs (a measure for the loops in base.py:540-541 and
658-659) -/
def Phase.work (n n' : Nat) : Phase K → Nat
  | .prepare i => 3 * n' + 3 + 2 * (n - i)
  | .writing i => 3 * n' + 2 + 2 * (n - i)
  | .arrived => 3 * n' + 2
  | .sample i => 3 * (n' - i) + 1
  | .load i _ => 3 * (n' - i)
  | .joined i _ _ => 3 * (n' - i) - 1
  | .failed => 0

/-- the steps left at most (a measure for the loops in base.py:540-541 and 658-659) -/
def work (P : Program R K) (c : World K) : Nat :=
  ((List.range P.world).map (fun r => (c.phase r).work (P.first r).length (P.second r).length)).sum

end GGCE.Stage
