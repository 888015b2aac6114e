import Verif.Model.Solver
import Mathlib.Algebra.Order.Floor.Ring
import Mathlib.Algebra.Order.Floor.Semiring

/-!
The result cache of the solvers: `_k_omega_eta_to_str` (`ggce/executors/solvers.py:104-107`),
`_pre_solve` and `_post_solve` (solvers.py:127-142; the same code in petsc4py/solvers.py:104-118), and
their use in `solve` (solvers.py:335-347, 419-450).

Numbers are exact; negative zero is not modelled (`f"{-0.0:.10f}"` has a sign, `0.0` has not).
-/

namespace GGCE

variable {R V : Type} [Field R] [LinearOrder R]

/-- rounding of a non-negative number to an integer as in Python's formatting: half to even
(the format `.10f` of solvers.py:107) -/
def roundHalfEven [FloorRing R] (x : R) : Nat :=
  let f := ⌊x⌋.toNat
  if x - f < 1 / 2 then f else if 1 / 2 < x - f then f + 1 else if f % 2 = 0 then f else f + 1

/-- the last `d` decimal digits of `n` (the format `.10f` of solvers.py:107) -/
def fixedDigits : Nat → Nat → PyStr
  | 0, _ => []
  | d + 1, n => fixedDigits d (n / 10) ++ [Nat.digitChar (n % 10)]

/-- `|x|` rounded to a multiple of `1e-10` (the format `.10f` of solvers.py:107) -/
def round10 [FloorRing R] (x : R) : Nat := roundHalfEven (|x| * 10 ^ 10)

/-- `f"{x:.10f}"` (the format `.10f` of solvers.py:107) -/
def fmt10 [FloorRing R] (x : R) : PyStr :=
  (if x < 0 then ['-'] else []) ++ natStr (round10 x / 10 ^ 10) ++ '.' :: fixedDigits 10 (round10 x % 10 ^ 10)

/-- the name of the file of a point: `_k_omega_eta_to_str` and the suffix of `_pre_solve`
(solvers.py:107, 132) -/
def cacheKey [FloorRing R] (p : Point R) : PyStr :=
  fmt10 p.k ++ '_' :: (fmt10 p.w ++ '_' :: (fmt10 p.eta ++ ".pkl".toList))

/-- What a solver object can see and change: the files of its results directory (`none`: no root given,
so no directory) and the messages it has logged with `logger.error` (solvers.py:59-69, 131-142). -/
structure CacheState (R V : Type) where
  dir : Option (Dict PyStr V)
  logged : List (Point R)

/-- `_pre_solve` (solvers.py:128-136): the stored result, if the file exists -/
def preSolve [FloorRing R] (s : CacheState R V) (p : Point R) : Option V :=
  match s.dir with
  | none => none
  | some d => d.get? (cacheKey p)

/-- `_post_solve` (solvers.py:138-142); `negative G` is `-G.imag / np.pi < 0.0` -/
def postSolve [FloorRing R] (negative : V → Bool) (s : CacheState R V) (p : Point R) (G : V) : CacheState R V :=
  { dir := s.dir.map (fun d => d.set (cacheKey p) G)
    logged := if negative G then s.logged ++ [p] else s.logged }

/-- `solve` (solvers.py:335-347, 419-450), with `raw` the part between the two comments "Solution" and
"Solution Done". A failure there leaves the state unchanged. -/
def cachedSolve [FloorRing R] (raw : Point R → Py V) (negative : V → Bool) (s : CacheState R V) (p : Point R) :
    Py V × CacheState R V :=
  match preSolve s p with
  | some G => (.ok G, s)
  | none =>
    match raw p with
    | .error e => (.error e, s)
    | .ok G => (.ok G, postSolve negative s p G)

/-- A history of calls of `solve`, each with the solver that makes it; all solvers share the directory.
The results in order, and the final state (solvers.py:171-173). -/
def runSolves [FloorRing R] (negative : V → Bool) (s : CacheState R V) :
    List ((Point R → Py V) × Point R) → List (Py V) × CacheState R V
  | [] => ([], s)
  | (raw, p) :: rest =>
    let r := cachedSolve raw negative s p
    let rs := runSolves negative r.2 rest
    (r.1 :: rs.1, rs.2)

/-! ### Several processes on one directory

Each process runs through its list of points calling `solve`. The steps that matter for other processes
are separate: testing for and reading the file, opening it for writing (which empties it), and writing
it. `pickle.load` of an empty file raises `EOFError`. -/

/-- what a process is doing (solvers.py:128-142, 171-173, 335-347) -/
inductive Phase (R V : Type) where
  /-- between calls -/
  | idle
  /-- result computed, file not opened yet -/
  | computed (p : Point R) (G : V)
  /-- file opened and emptied -/
  | opened (p : Point R) (G : V)

/-- a process: remaining points (including the current one), results so far, and whether it has stopped
with an exception (solvers.py:128-142, 171-173, 335-347) -/
structure Proc (R V : Type) where
  todo : List (Point R)
  phase : Phase R V
  done : List V
  failed : Bool

/-- files (`none` is an emptied file) and processes (solvers.py:128-142, 171-173, 335-347) -/
structure World (R V : Type) where
  files : Dict PyStr (Option V)
  procs : Nat → Proc R V

/-- replace the state of process `i` (solvers.py:128-142, 171-173, 335-347) -/
def World.setProc (c : World R V) (i : Nat) (q : Proc R V) : World R V :=
  { c with procs := fun j => if j = i then q else c.procs j }

/-- one step of one process (solvers.py:128-142, 171-173, 335-347) -/
inductive World.Step [FloorRing R] (raw : Point R → Py V) : World R V → World R V → Prop
  /-- the file exists and is complete -/
  | hit (c : World R V) (i : Nat) (p rest G) (hf : (c.procs i).failed = false) (hp : (c.procs i).phase = .idle)
      (ht : (c.procs i).todo = p :: rest) (hg : c.files.get? (cacheKey p) = some (some G)) :
      Step raw c (c.setProc i { c.procs i with todo := rest, done := (c.procs i).done ++ [G] })
  /-- the file exists and is empty: `EOFError` -/
  | eof (c : World R V) (i : Nat) (p rest) (hf : (c.procs i).failed = false) (hp : (c.procs i).phase = .idle)
      (ht : (c.procs i).todo = p :: rest) (hg : c.files.get? (cacheKey p) = some none) :
      Step raw c (c.setProc i { c.procs i with failed := true })
  /-- no file: compute -/
  | miss (c : World R V) (i : Nat) (p rest G) (hf : (c.procs i).failed = false) (hp : (c.procs i).phase = .idle)
      (ht : (c.procs i).todo = p :: rest) (hg : c.files.get? (cacheKey p) = none) (hr : raw p = .ok G) :
      Step raw c (c.setProc i { c.procs i with phase := .computed p G })
  /-- no file, and the computation raises -/
  | raise (c : World R V) (i : Nat) (p rest e) (hf : (c.procs i).failed = false) (hp : (c.procs i).phase = .idle)
      (ht : (c.procs i).todo = p :: rest) (hg : c.files.get? (cacheKey p) = none) (hr : raw p = .error e) :
      Step raw c (c.setProc i { c.procs i with failed := true })
  /-- `open(path, "wb")` -/
  | «open» (c : World R V) (i : Nat) (p G) (hf : (c.procs i).failed = false)
      (hp : (c.procs i).phase = .computed p G) :
      Step raw c (World.setProc { c with files := c.files.set (cacheKey p) none } i
        { c.procs i with phase := .opened p G })
  /-- the file is written and closed, and the call returns -/
  | write (c : World R V) (i : Nat) (p G) (hf : (c.procs i).failed = false)
      (hp : (c.procs i).phase = .opened p G) :
      Step raw c (World.setProc { c with files := c.files.set (cacheKey p) (some G) } i
        { c.procs i with phase := .idle, todo := (c.procs i).todo.tail, done := (c.procs i).done ++ [G] })

/-- any number of steps (solvers.py:128-142, 171-173, 335-347) -/
inductive World.Steps [FloorRing R] (raw : Point R → Py V) : World R V → World R V → Prop
  | refl (c : World R V) : Steps raw c c
  | tail {c d e : World R V} : Steps raw c d → Step raw d e → Steps raw c e

/-- processes at the start, process `i` with the points `jobs i` (solvers.py:128-142, 171-173, 335-347) -/
def World.start (files : Dict PyStr (Option V)) (jobs : Nat → List (Point R)) : World R V :=
  ⟨files, fun i => ⟨jobs i, .idle, [], false⟩⟩

end GGCE
