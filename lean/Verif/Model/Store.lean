import Verif.Model.Solver

/-!
The single-precision storage of the linear system in `_scaffold` (solvers.py:287-313). The rounding `rnd` is a
parameter; the theorems about it ask only that its error is relative or tiny.
-/

namespace GGCE

variable {R K : Type} [Field R] [LinearOrder R] [Field K]

/-- `np.array(dat, dtype=np.complex64)` (solvers.py:289) and the one entry of the right-hand side
(solvers.py:304-307): every stored number is rounded, the positions are kept. -/
def LinSys.store (rnd : K → K) (ls : LinSys K) : LinSys K :=
  ⟨ls.triples.map (fun t => (t.1, t.2.1, rnd t.2.2)), ls.rhsRow, rnd ls.rhsVal⟩

/-- `SparseSolver.solve` without the cache (solvers.py:340-342), with the storage in `complex64` -/
def sparseSolveStored (rnd : K → K) (F : Phys R K) (m : Model R) (p : Point R) (basis : Dict PyStr Nat)
    (eqs : Dict Nat (List (Equation R))) (spsolve : LinSys K → Py (Nat → K)) : Py K :=
  sparseSolve F m p basis eqs (fun ls => spsolve (ls.store rnd))

end GGCE
