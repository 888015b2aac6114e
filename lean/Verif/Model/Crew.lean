import Verif.Model.Cache
import Verif.Model.Grid

/-!
The ranks of a `MassSolver` at work: brigades of ranks, each rank going through the jobs of its brigade and calling
`MassSolverMUMPS.solve` (`ggce/executors/petsc4py/solvers.py:120-235`), with one results directory for all. The steps
that matter to other ranks are separate: testing for and reading the result file, the collective part, opening the
file for writing (which empties it) and writing it. The collective part (matrix assembly, KSP, barrier, gather,
broadcast) is one step of the whole brigade: no rank leaves it before all ranks have entered, and between entering
and leaving a rank touches no file.
-/

namespace GGCE.Crew

variable {R V : Type} [Field R]

/-- what a rank is doing (petsc4py/solvers.py:144-235) -/
inductive Phase (V : Type) where
  /-- before `_pre_solve` of the next job, or at the end -/
  | idle
  /-- in the collective part, waiting for the other ranks of the brigade -/
  | joined
  /-- the value is known, the file not opened (petsc4py/solvers.py:226-228; rank 0 of the brigade only) -/
  | computed (G : V)
  /-- the file is open and empty (petsc4py/solvers.py:117-118) -/
  | opened (G : V)

/-- a rank: number of jobs done, phase, results so far, and whether it stopped with an exception
(petsc4py/solvers.py:144-235) -/
structure Rank (V : Type) where
  pos : Nat
  phase : Phase V
  done : List V
  failed : Bool

/-- the results directory, if any (an emptied file is `none`), and the ranks by brigade and number in it
(petsc4py/solvers.py:107-111, base.py:28-64) -/
structure World (V : Type) where
  files : Option (Dict PyStr (Option V))
  ranks : Nat → Nat → Rank V

/-- The program: number of brigades, ranks in each, jobs of each brigade (base.py:519-520, 536), and the value the
brigade computes when rank `r` has set up the rows it owns for the `r`-th point of the list. -/
structure Plan (R V : Type) where
  brigades : Nat
  size : Nat
  jobs : Nat → List (Point R)
  solve : List (Point R) → Py V

/-- The program of `MassSolver.greens_function` on the given grid (base.py:519-541): brigade `j` has the jobs
`get_jobs_on_this_brigade` gives to its first rank, `j * brigade_size`. -/
def Plan.of (b : Brigades) (k w : List R) (eta : R) (solve : List (Point R) → Py V) : Plan R V where
  brigades := b.count
  size := b.size
  jobs := fun j => match b.jobs (jobList k w) (j * b.size) with
    | .ok l => l.map (fun x => ⟨x.1, x.2, eta⟩)
    | .error _ => []
  solve := solve

/-- the result file of a point (petsc4py/solvers.py:107-111) -/
def World.look [LinearOrder R] [IsStrictOrderedRing R] [FloorRing R] (c : World V) (p : Point R) : Option (Option V) :=
  c.files.bind (fun d => d.get? (cacheKey p))

/-- replace the state of rank `r` of brigade `j` (petsc4py/solvers.py:104-118, 144-235) -/
def World.setRank (c : World V) (j r : Nat) (q : Rank V) : World V :=
  { c with ranks := fun j' r' => if j' = j ∧ r' = r then q else c.ranks j' r' }

/-- replace the states of the ranks of brigade `j` (petsc4py/solvers.py:104-118, 144-235) -/
def World.setBrigade (c : World V) (j : Nat) (f : Nat → Rank V) : World V :=
  { c with ranks := fun j' r' => if j' = j then f r' else c.ranks j' r' }

/-- the call returns (petsc4py/solvers.py:147, 230, base.py:541) -/
def Rank.next (q : Rank V) (G : V) : Rank V := { q with pos := q.pos + 1, phase := .idle, done := q.done ++ [G] }

/-- one step of one rank, or the collective step of one brigade (petsc4py/solvers.py:104-118, 144-235) -/
inductive Step [LinearOrder R] [IsStrictOrderedRing R] [FloorRing R] (P : Plan R V) : World V → World V → Prop
  /-- the file exists and is complete (petsc4py/solvers.py:110-112, 145-147) -/
  | hit (c : World V) (j r : Nat) (p : Point R) (G : V) (hj : j < P.brigades) (hr : r < P.size)
      (hf : (c.ranks j r).failed = false) (hp : (c.ranks j r).phase = .idle)
      (ht : (P.jobs j)[(c.ranks j r).pos]? = some p) (hg : c.look p = some (some G)) :
      Step P c (c.setRank j r ((c.ranks j r).next G))
  /-- the file exists and is empty: `EOFError` -/
  | eof (c : World V) (j r : Nat) (p : Point R) (hj : j < P.brigades) (hr : r < P.size)
      (hf : (c.ranks j r).failed = false) (hp : (c.ranks j r).phase = .idle)
      (ht : (P.jobs j)[(c.ranks j r).pos]? = some p) (hg : c.look p = some none) :
      Step P c (c.setRank j r { c.ranks j r with failed := true })
  /-- no file, or no directory: on to the collective part -/
  | enter (c : World V) (j r : Nat) (p : Point R) (hj : j < P.brigades) (hr : r < P.size)
      (hf : (c.ranks j r).failed = false) (hp : (c.ranks j r).phase = .idle)
      (ht : (P.jobs j)[(c.ranks j r).pos]? = some p) (hg : c.look p = none) :
      Step P c (c.setRank j r { c.ranks j r with phase := .joined })
  /-- all ranks of the brigade are there: solve, gather, broadcast (petsc4py/solvers.py:149-224) -/
  | meet (c : World V) (j : Nat) (ps : List (Point R)) (G : V) (hj : j < P.brigades)
      (hall : ∀ r < P.size, (c.ranks j r).failed = false ∧ (c.ranks j r).phase = .joined)
      (hlen : ps.length = P.size) (hps : ∀ r < P.size, (P.jobs j)[(c.ranks j r).pos]? = ps[r]?)
      (hs : P.solve ps = .ok G) :
      Step P c (c.setBrigade j (fun r => if r < P.size then
        if r = 0 then { c.ranks j r with phase := .computed G } else (c.ranks j r).next G else c.ranks j r))
  /-- the computation raises on all ranks -/
  | crash (c : World V) (j : Nat) (ps : List (Point R)) (e : Err) (hj : j < P.brigades)
      (hall : ∀ r < P.size, (c.ranks j r).failed = false ∧ (c.ranks j r).phase = .joined)
      (hlen : ps.length = P.size) (hps : ∀ r < P.size, (P.jobs j)[(c.ranks j r).pos]? = ps[r]?)
      (hs : P.solve ps = .error e) :
      Step P c (c.setBrigade j (fun r => if r < P.size then { c.ranks j r with failed := true } else c.ranks j r))
  /-- no directory: nothing to write -/
  | skip (c : World V) (j r : Nat) (G : V) (hj : j < P.brigades) (hr : r < P.size)
      (hf : (c.ranks j r).failed = false) (hp : (c.ranks j r).phase = .computed G) (hd : c.files = none) :
      Step P c (c.setRank j r ((c.ranks j r).next G))
  /-- `open(path, "wb")` -/
  | «open» (c : World V) (j r : Nat) (p : Point R) (G : V) (d : Dict PyStr (Option V)) (hj : j < P.brigades) (hr : r < P.size)
      (hf : (c.ranks j r).failed = false) (hp : (c.ranks j r).phase = .computed G)
      (ht : (P.jobs j)[(c.ranks j r).pos]? = some p) (hd : c.files = some d) :
      Step P c (World.setRank { c with files := some (d.set (cacheKey p) none) } j r
        { c.ranks j r with phase := .opened G })
  /-- the file is written and closed -/
  | write (c : World V) (j r : Nat) (p : Point R) (G : V) (d : Dict PyStr (Option V)) (hj : j < P.brigades) (hr : r < P.size)
      (hf : (c.ranks j r).failed = false) (hp : (c.ranks j r).phase = .opened G)
      (ht : (P.jobs j)[(c.ranks j r).pos]? = some p) (hd : c.files = some d) :
      Step P c (World.setRank { c with files := some (d.set (cacheKey p) (some G)) } j r ((c.ranks j r).next G))

/-- any number of steps (base.py:536-541) -/
inductive Steps [LinearOrder R] [IsStrictOrderedRing R] [FloorRing R] (P : Plan R V) : World V → World V → Prop
  | refl (c : World V) : Steps P c c
  | tail {c d e : World V} : Steps P c d → Step P d e → Steps P c e

/-- all ranks at the start (base.py:536-541) -/
def World.start (files : Option (Dict PyStr (Option V))) : World V := ⟨files, fun _ _ => ⟨0, .idle, [], false⟩⟩

/-- all ranks have finished their jobs and go on to the final `gather` (base.py:545) -/
def Final (P : Plan R V) (c : World V) : Prop :=
  ∀ j < P.brigades, ∀ r < P.size, (c.ranks j r).failed = false ∧ (c.ranks j r).phase = .idle ∧
    (c.ranks j r).pos = (P.jobs j).length

/-- the steps a rank has left at most (a measure for the loop in base.py:540-541) -/
def Rank.work (n : Nat) (q : Rank V) : Nat :=
  4 * (n - q.pos) - match q.phase with
    | .idle => 0
    | .joined => 1
    | .computed _ => 2
    | .opened _ => 3

/-- the steps left at most (a measure for the loop in base.py:540-541) -/
def work (P : Plan R V) (c : World V) : Nat :=
  ((List.range P.brigades).map (fun j =>
    ((List.range P.size).map (fun r => (c.ranks j r).work (P.jobs j).length)).sum)).sum

end GGCE.Crew
