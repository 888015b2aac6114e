import Verif.Model.Petsc

/-!
The checks the PETSc solver makes on its own result: `check_conv_manual`
(`ggce/executors/petsc4py/base.py:434-477`), `check_conv` and `check_mem_use`
(`ggce/executors/petsc4py/solvers.py:29-102`), and `MassSolverMUMPS.solve` with the cache and the meta
information (petsc4py/solvers.py:104-235).

MUMPS is a parameter: what it leaves behind is a vector, a preconditioner and its exit codes. The norm is a
parameter as well (`realNorm` in Verif/Spec/Diagnostics.lean is the one meant). Messages are those of global
rank 0. Not modelled: the entry `"time"` of the meta dictionary, debug messages, memory per rank.
-/

namespace GGCE.Petsc

variable {R K : Type} [Field R] [LinearOrder R] [Field K]

/-- `_vector_b` as a list (base.py:319) -/
def DistSys.rhsVec (d : DistSys K) : List K := (List.range d.n).map d.rhsAt

/-- `_mat_X(x)`: matrix times vector (base.py:455) -/
def DistSys.mul (d : DistSys K) (x : List K) : List K :=
  (List.range d.n).map (fun i => ((List.range d.n).map (fun j => d.entry i j * x.getD j 0)).sum)

/-- What `ksp.solve` leaves behind (petsc4py/solvers.py:179-194): the solution vector, the preconditioner `pc` (the
factored matrix applied to a vector), `INFOG(1)` and `INFOG(31)`. -/
structure MumpsRun (K : Type) where
  x : List K
  pc : List K → List K
  infog1 : Int
  infog31 : Int

/-- messages above level "debug" (base.py:470, petsc4py/solvers.py:53-70) -/
inductive Note where
  /-- "Solution failed residual relative tolerance check" (base.py:469-475) -/
  | residual
  /-- "A MUMPS error occured" (petsc4py/solvers.py:57-63) -/
  | mumpsError
  /-- "A MUMPS warning occured" (petsc4py/solvers.py:64-70) -/
  | mumpsWarning
  /-- "A(k,w) < 0" (petsc4py/solvers.py:115-116) -/
  | negative
  deriving DecidableEq, Repr

/-- the meta dictionary of a computed point (petsc4py/solvers.py:230-235) -/
structure SolveMeta (R : Type) where
  exitCode : Int
  memTot : R
  excess : R
  deriving DecidableEq

/-- `self.tol_excess` (base.py:454-465) -/
def tolExcess (nrm : List K → R) (d : DistSys K) (run : MumpsRun K) (rtol : R) : R :=
  nrm (run.pc (List.zipWith (· - ·) d.rhsVec (d.mul run.x))) - rtol * nrm (run.pc d.rhsVec)

/-- the message of `check_conv_manual` (base.py:467-477) -/
def residualNotes (excess : R) : List Note := if excess > 0 then [.residual] else []

/-- the message of `check_conv` (petsc4py/solvers.py:47-70) -/
def mumpsNotes (code : Int) : List Note :=
  if code = 0 then [] else if code < 0 then [.mumpsError] else if code > 0 then [.mumpsWarning] else []

/-- `BYTES_TO_GB` (petsc4py/solvers.py:11) -/
def bytesToGB : R := 1073741274

/-- `self.total_mem_used` (petsc4py/solvers.py:96-98) -/
def totalMem (infog31 : Int) : R := (infog31 : R) * 10 ^ 6 / bytesToGB

/-- `MassSolverMUMPS.solve` (petsc4py/solvers.py:120-235) on a brigade of `size` ranks: the value and the meta
dictionary (`none` for the empty one of a stored result, line 148), the results directory afterwards, and the
messages. An exception leaves the directory unchanged. -/
def massSolve [FloorRing R] (F : Phys R K) (m : Model R) (basis : Dict PyStr Nat)
    (eqs : Dict Nat (List (Equation R))) (mumps : DistSys K → Py (MumpsRun K)) (nrm : List K → R)
    (negative : K → Bool) (size : Nat) (rtol : R) (dir : Option (Dict PyStr K)) (p : Point R) :
    Py (K × Option (SolveMeta R)) × Option (Dict PyStr K) × List Note :=
  match preSolve ⟨dir, []⟩ p with
  | some G => (.ok (G, none), dir, [])
  | none =>
    match petscScaffold F m p basis eqs size with
    | .error e => (.error e, dir, [])
    | .ok d =>
      match mumps d with
      | .error e => (.error e, dir, [])
      | .ok run =>
        let excess := tolExcess nrm d run rtol
        let notes := residualNotes excess ++ mumpsNotes run.infog1
        match readG d.n size run.x with
        | .error e => (.error e, dir, notes)
        | .ok G =>
          let s := postSolve negative ⟨dir, []⟩ p G
          (.ok (G, some ⟨run.infog1, totalMem run.infog31, excess⟩), s.dir,
            notes ++ (if s.logged = [] then [] else [.negative]))

end GGCE.Petsc
