import Verif.Model.Grid
import Verif.Model.Cache

/-!
The meta information of `MassSolver.greens_function` (`ggce/executors/petsc4py/base.py:479-580`). `solve` returns a
pair: the value and a dictionary, which is empty if the value came from a file
(`ggce/executors/petsc4py/solvers.py:145-147, 230-235`).
-/

namespace GGCE

variable {R V M : Type} [Field R]

/-- `MassSolver.greens_function(k, w, eta, return_meta=True)` (base.py:503-580): the values without NaN are put
into the shape of the grid (563-571), the dictionaries are one list, which is not touched further (564). -/
def massGreensMeta (solve : R → R → Py (V × M)) (isNaN : V → Bool) (b : Brigades) (k w : GridArg R) :
    Py (List (List V) × List M) := do
  b.check
  let k ← floatToList k
  let w ← floatToList w
  let (k, w) ← massGrid b k w
  let all ← mapPy (fun rank => do
    let mine ← b.jobs (jobList k w) rank
    mapPy (fun j => solve j.1 j.2) mine) (List.range b.world)
  let picked ← pickCommanders b all
  let results := picked.flatten
  let res ← reshapeGrid ((results.map Prod.fst).filter (fun v => !isNaN v)) k.length w.length
  pure (res, results.map Prod.snd)

/-- `MassSolverMUMPS.solve` with its dictionary (petsc4py/solvers.py:145-147, 226-235): `none` is `{}`. -/
def solveMeta [LinearOrder R] [IsStrictOrderedRing R] [FloorRing R] (raw : Point R → Py (V × M)) (files : Dict PyStr V)
    (p : Point R) : Py (V × Option M) :=
  match files.get? (cacheKey p) with
  | some v => .ok (v, none)
  | none => (raw p).map (fun x => (x.1, some x.2))

end GGCE
