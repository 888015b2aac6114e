import Verif.Model.Utils

/-!
`greens_function` of the serial and MPI solvers (`ggce/executors/solvers.py:144-190`) and of the PETSc
solvers (`ggce/executors/petsc4py/base.py`), as functions of the value `solve(k, w, eta)` of the solver.
Values are of an arbitrary type `V` (complex numbers in numpy arrays). Progress bars, logging and the
dictionaries with timing information are not modelled. An exception on any rank is taken to end the
whole MPI program with that exception; Verif/Model/Ranks.lean has `gather` block instead.
-/

namespace GGCE

variable {R V : Type} [Field R]

/-- `for x in xs: s.append(f(x))`, stopping at the first exception (solvers.py:171-173) -/
def mapPy {α β : Type} (f : α → Py β) : List α → Py (List β)
  | [] => .ok []
  | x :: xs => do
    let y ← f x
    let ys ← mapPy f xs
    pure (y :: ys)

/-- `jobs = [(_k, _w) for _k in k for _w in w]` (solvers.py:168, base.py:520) -/
def jobList (k w : List R) : List (R × R) := k.flatMap (fun x => w.map (fun y => (x, y)))

/-- `np.array(s).reshape(r, c)`; `ValueError` if the number of elements differs (solvers.py:186, 190) -/
def reshapeGrid (s : List V) (r c : Nat) : Py (List (List V)) :=
  if s.length = r * c then .ok ((List.range r).map (fun i => (s.drop (i * c)).take c))
  else .error .valueError

/-- `BasicSolver.greens_function` without communicator (solvers.py:163-174, 190) -/
def greensSerial (solve : R → R → Py V) (k w : GridArg R) : Py (List (List V)) := do
  let k ← floatToList k
  let w ← floatToList w
  let s ← mapPy (fun j => solve j.1 j.2) (jobList k w)
  reshapeGrid s k.length w.length

/-- `BasicSolver.greens_function` on a communicator with `size` ranks (solvers.py:163-188): what each
rank returns; `none` is Python's `None`. -/
def greensMPI (solve : R → R → Py V) (size : Nat) (k w : GridArg R) : Py (List (Option (List (List V)))) := do
  let k ← floatToList k
  let w ← floatToList w
  let jobs := jobList k w
  let all ← mapPy (fun rank => do
    let mine ← chunkJobs jobs size rank
    mapPy (fun j => solve j.1 j.2) mine) (List.range size)
  let res ← reshapeGrid all.flatten k.length w.length
  pure ((List.range size).map (fun rank => if rank = 0 then some res else none))

/-! ### Brigades -/

/-- The layout of a `MassSolver`: number of ranks and the argument `brigade_size` (base.py:28-54, 80-117). -/
structure Brigades where
  world : Nat
  size? : Option Nat

namespace Brigades

/-- `MassSolver.__init__` (base.py:66-117): the world must split evenly. A brigade size of 0 is a
`ZeroDivisionError`, here `valueError`. -/
def check (b : Brigades) : Py Unit :=
  match b.size? with
  | none => .ok ()
  | some s => if s = 0 then .error .valueError else if b.world % s = 0 then .ok () else .error .assertionError

/-- `brigade_size` (base.py:38-42) -/
def size (b : Brigades) : Nat := b.size?.getD b.world

/-- `brigades` (base.py:44-48) -/
def count (b : Brigades) : Nat := match b.size? with
  | some s => b.world / s
  | none => 1

/-- `mpi_brigade` of a rank (base.py:28-32) -/
def index (b : Brigades) (rank : Nat) : Nat := match b.size? with
  | some s => rank / s
  | none => 0

/-- `get_jobs_on_this_brigade` (base.py:119-138) -/
def jobs {α : Type} (b : Brigades) (jobs : List α) (rank : Nat) : Py (List α) :=
  if b.count = 1 then .ok jobs else chunkJobs jobs b.count (b.index rank)

end Brigades

/-- the grid `MassSolver.greens_function` works on (base.py:502-517): padded if the jobs do not divide
evenly -/
def massGrid (b : Brigades) (k w : List R) : Py (List R × List R) :=
  if k.length * w.length % b.count = 0 then .ok (k, w) else paddedKw k w b.count

/-- `xs[i]` for a non-negative index (base.py:556) -/
def listGet {α : Type} (xs : List α) (i : Nat) : Py α := match xs[i]? with
  | some x => .ok x
  | none => .error .indexError

/-- `[all_results[int(n * brigade_size)] for n in range(brigades)]` (base.py:553-558) -/
def pickCommanders (b : Brigades) (all : List (List V)) : Py (List (List V)) :=
  if 1 < b.size then mapPy (fun n => listGet all (n * b.size)) (List.range b.count) else .ok all

/-- `MassSolver.__init__` followed by `MassSolver.greens_function` (base.py:479-580). `isNaN` is
`np.isnan`. The result is broadcast, so all ranks return the same. All ranks of a brigade get the same
value of `solve` (petsc4py/solvers.py:224 broadcasts it). -/
def massGreens (solve : R → R → Py V) (isNaN : V → Bool) (b : Brigades) (k w : GridArg R) :
    Py (List (List V)) := do
  b.check
  let k ← floatToList k
  let w ← floatToList w
  let (k, w) ← massGrid b k w
  let all ← mapPy (fun rank => do
    let mine ← b.jobs (jobList k w) rank
    mapPy (fun j => solve j.1 j.2) mine) (List.range b.world)
  let picked ← pickCommanders b all
  reshapeGrid (picked.flatten.filter (fun v => !isNaN v)) k.length w.length

end GGCE
