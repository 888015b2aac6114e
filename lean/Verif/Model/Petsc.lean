import Verif.Model.Grid
import Verif.Model.Cache
import Verif.Model.Solver

/-!
The distributed linear system of the PETSc solvers: `MassSolver._setup_petsc_structs`, `_scaffold`,
`_scaffold_from_disk`, `prepare_system` (`ggce/executors/petsc4py/base.py:140-432, 582-682`) and
`MassSolverMUMPS.solve` (`ggce/executors/petsc4py/solvers.py:120-235`).

All ranks of one brigade are run side by side: a function of the rank gives what that rank does, and an
exception on one rank ends the whole program with that exception (in reality the others would block).
What PETSc does is modelled from its documentation: `PETSC_DECIDE` ownership, insertion (not addition) of
values, an error for an entry without preallocated room or outside the matrix. MUMPS is a parameter. The convergence
checks and memory reports are in `Diagnostics.lean`. Not modelled: timings.
-/

namespace GGCE.Petsc

variable {R K : Type} [Field R] [LinearOrder R] [Field K]

/-- number of rows PETSc gives to a rank of a communicator with `size` ranks (base.py:155, 164):
`N/size + ((N % size) > rank)` -/
def localSize (N size rank : Nat) : Nat := N / size + if rank < N % size then 1 else 0

/-- half-open range of rows (base.py:167) -/
structure Range where
  lo : Nat
  hi : Nat

/-- `rstart <= i and i < rend` (base.py:293-294, 307) -/
def Range.owns (o : Range) (i : Nat) : Bool := decide (o.lo ≤ i) && decide (i < o.hi)

/-- `getOwnershipRange` (base.py:167): the rows come in the order of the ranks -/
def ownership (N size rank : Nat) : Range :=
  let lo := ((List.range rank).map (localSize N size)).sum
  ⟨lo, lo + localSize N size rank⟩

/-- `x[i] += 1` (base.py:295, 297) -/
def bump (x : List Nat) (i : Nat) : Py (List Nat) :=
  if i < x.length then .ok (x.modify i (· + 1)) else .error .indexError

/-- the counting loop (base.py:289-297, 385-393) for `diag_nnz` and `offdiag_nnz` -/
def nnzLoop (o : Range) : List (Nat × Nat × K) → List Nat × List Nat → Py (List Nat × List Nat)
  | [], s => .ok s
  | (i, j, _) :: ts, (d, f) =>
    if o.owns i then
      if o.owns j then do
        let d ← bump d (i - o.lo)
        nnzLoop o ts (d, f)
      else do
        let f ← bump f (i - o.lo)
        nnzLoop o ts (d, f)
    else nnzLoop o ts (d, f)

/-- the entries a rank holds (base.py:309) -/
abbrev Store (K : Type) := Dict (Nat × Nat) K

/-- number of entries held in row `i` in the diagonal block (`inside`) or outside of it (base.py:300, 309) -/
def used (o : Range) (s : Store K) (i : Nat) (inside : Bool) : Nat :=
  (s.filter (fun e => decide (e.1.1 = i) && (o.owns e.1.2 == inside))).length

/-- `_mat_X.setValues` (base.py:309, 409), insert mode: replaces an existing entry; a new entry needs
preallocated room, otherwise PETSc raises an error, as for a column outside the matrix. Setting a row of another rank is not modelled (here an
error); the code never does. -/
def setValue (N : Nat) (o : Range) (alloc : List Nat × List Nat) (s : Store K) (i j : Nat) (v : K) : Py (Store K) :=
  if o.owns i && decide (j < N) then
    match s.get? (i, j) with
    | some _ => .ok (s.set (i, j) v)
    | none =>
      let room := ((if o.owns j then alloc.1 else alloc.2)[i - o.lo]?).getD 0
      if used o s i (o.owns j) < room then .ok (s.set (i, j) v) else .error .runtimeError
  else .error .runtimeError

/-- the loop that sets the values (base.py:306-309, 402-409) -/
def fillLoop (N : Nat) (o : Range) (alloc : List Nat × List Nat) : List (Nat × Nat × K) → Store K → Py (Store K)
  | [], s => .ok s
  | (i, j, v) :: ts, s =>
    if o.owns i then do
      let s ← setValue N o alloc s i j v
      fillLoop N o alloc ts s
    else fillLoop N o alloc ts s

/-- what one rank does to assemble the matrix (base.py:286-309): the preallocation and the entries set -/
def rankAssemble (N size : Nat) (ts : List (Nat × Nat × K)) (rank : Nat) :
    Py ((List Nat × List Nat) × Store K) := do
  let o := ownership N size rank
  let alloc ← nnzLoop o ts (List.replicate (o.hi - o.lo) 0, List.replicate (o.hi - o.lo) 0)
  let s ← fillLoop N o alloc ts []
  pure (alloc, s)

/-- The assembled system: its size, the entries of each rank, and the insertions into the right-hand side
(base.py:151-190, 319). -/
structure DistSys (K : Type) where
  n : Nat
  stores : List (Store K)
  rhs : List (Nat × K)

/-- entry of the assembled matrix (base.py:309-313) -/
def DistSys.entry (d : DistSys K) (i j : Nat) : K := (Dict.get? d.stores.flatten (i, j)).getD 0

/-- entry of the assembled right-hand side: the last insertion wins (base.py:319-323) -/
def DistSys.rhsAt (d : DistSys K) (i : Nat) : K := (Dict.get? d.rhs.reverse i).getD 0

/-- The distributed part of `_scaffold` (base.py:281-323): every rank inserts its rows, and every rank
inserts `G0` at `linsys_size - 1` (PETSc ignores a negative index). -/
def assembleDist (N size : Nat) (ts : List (Nat × Nat × K)) (G0 : K) : Py (DistSys K) := do
  let rs ← mapPy (rankAssemble N size ts) (List.range size)
  pure ⟨N, rs.map Prod.snd, if N = 0 then [] else List.replicate size (N - 1, G0)⟩

/-- `getArray` of each rank, gathered (petsc4py/solvers.py:205-207) -/
def gathered (N size : Nat) (x : List K) : List (List K) :=
  (List.range size).map (fun r => (x.drop (ownership N size r).lo).take (localSize N size r))

/-- `G_vec[self.brigade_size - 1][-1]` (petsc4py/solvers.py:216-217) -/
def readG (N size : Nat) (x : List K) : Py K :=
  match (gathered N size x)[size - 1]? with
  | none => .error .indexError
  | some a => match a.getLast? with
    | none => .error .indexError
    | some g => .ok g

/-- `_scaffold` (base.py:244-329); `_sparse_matrix_from_equations` (192-242) is the same text as that of
the serial solver -/
def petscScaffold (F : Phys R K) (m : Model R) (p : Point R) (basis : Dict PyStr Nat)
    (eqs : Dict Nat (List (Equation R))) (size : Nat) : Py (DistSys K) := do
  let ts ← sparseTriples F m p basis eqs
  assembleDist basis.length size ts (F.G0 p.k p.w m.latticeConstant p.eta m.ham.hopping)

/-- `MassSolverMUMPS.solve` without the cache and without a matrix directory (petsc4py/solvers.py:149-150,
177-224), on a brigade of `size` ranks; `ksp` is the linear solver and returns the whole vector -/
def petscSolve (F : Phys R K) (m : Model R) (p : Point R) (basis : Dict PyStr Nat)
    (eqs : Dict Nat (List (Equation R))) (ksp : DistSys K → Py (List K)) (size : Nat) : Py K := do
  let d ← petscScaffold F m p basis eqs size
  let x ← ksp d
  readG d.n size x

/-! ### Matrices on disk -/

/-- The files of a matrix directory (base.py:603-607, 673-678). -/
abbrev MatDir (K : Type) := Dict PyStr (List (Nat × Nat × K))

/-- `matr_at_k_{k:.10f}_w_{w:.10f}_e_{eta:.10f}.pkl` (base.py:358-360, 603-605) -/
def matName [FloorRing R] (p : Point R) : PyStr :=
  "matr_at_k_".toList ++ fmt10 p.k ++ "_w_".toList ++ fmt10 p.w ++ "_e_".toList ++ fmt10 p.eta ++ ".pkl".toList

/-- `prepare_system` (base.py:582-607) -/
def prepareSystem [FloorRing R] (F : Phys R K) (m : Model R) (basis : Dict PyStr Nat)
    (eqs : Dict Nat (List (Equation R))) (dir : MatDir K) (p : Point R) : Py (MatDir K) := do
  let ts ← sparseTriples F m p basis eqs
  pure (dir.set (matName p) ts)

/-- the loop of `prepare_greens_function` (base.py:658-659) over jobs in any order -/
def prepareAll [FloorRing R] (F : Phys R K) (m : Model R) (basis : Dict PyStr Nat)
    (eqs : Dict Nat (List (Equation R))) : List (Point R) → MatDir K → Py (MatDir K)
  | [], dir => .ok dir
  | p :: ps, dir => do
    let dir ← prepareSystem F m basis eqs dir p
    prepareAll F m basis eqs ps dir

/-- `MassSolver.__init__` followed by `prepare_greens_function` (base.py:609-661): the ranks write the
matrices of their jobs, here one rank after the other. -/
def massPrepare [FloorRing R] (F : Phys R K) (m : Model R) (basis : Dict PyStr Nat)
    (eqs : Dict Nat (List (Equation R))) (b : Brigades) (k w : GridArg R) (eta : R) (dir : MatDir K) :
    Py (MatDir K) := do
  b.check
  let k ← floatToList k
  let w ← floatToList w
  let (k, w) ← massGrid b k w
  let mine ← mapPy (b.jobs (jobList k w)) (List.range b.world)
  prepareAll F m basis eqs (mine.flatten.map (fun j => ⟨j.1, j.2, eta⟩)) dir

/-- `_get_matr_size` (base.py:668-682) when `np.random.choice` picks the file number `pick` (modulo their
number): `ValueError` for an empty directory and for an empty matrix -/
def matrSize (dir : MatDir K) (pick : Nat) : Py Nat :=
  if dir = [] then .error .valueError
  else match dir[pick % dir.length]? with
    | none => .error .valueError
    | some f => if f.2 = [] then .error .valueError else .ok (cooRows f.2)

/-- `_scaffold_from_disk` (base.py:331-432). Every rank picks its own sample file (`picks rank`); PETSc
refuses to create a vector if the ranks ask for different sizes. -/
def scaffoldFromDisk [FloorRing R] (F : Phys R K) (m : Model R) (p : Point R) (dir : MatDir K)
    (size : Nat) (picks : Nat → Nat) : Py (DistSys K) := do
  let ns ← mapPy (fun r => matrSize dir (picks r)) (List.range size)
  match dir.get? (matName p) with
  | none => .error .fileNotFound
  | some ts =>
    match ns with
    | [] => .error .runtimeError
    | N :: rest =>
      if rest.all (fun x => decide (x = N)) then
        assembleDist N size ts (F.G0 p.k p.w m.latticeConstant p.eta m.ham.hopping)
      else .error .runtimeError

/-- `MassSolverMUMPS.solve` without the cache, with a matrix directory (petsc4py/solvers.py:151-152, 177-224) -/
def petscSolveDisk [FloorRing R] (F : Phys R K) (m : Model R) (p : Point R) (dir : MatDir K)
    (ksp : DistSys K → Py (List K)) (size : Nat) (picks : Nat → Nat) : Py K := do
  let d ← scaffoldFromDisk F m p dir size picks
  let x ← ksp d
  readG d.n size x

end GGCE.Petsc
