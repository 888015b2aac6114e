import Verif.Model.FloatSolver

/-!
The dense solver in floating-point arithmetic: the second half of `Verif.Model.Solver` with the operations of a machine.
-/

namespace GGCE

/-- the operations of numpy and scipy in `DenseSolver.solve`: the product `@` and `linalg.solve` (solvers.py:436-437), the
difference `np.eye(..) - ..` and `1.0 - ..` taken element by element, and the division (solvers.py:436, 444) -/
structure DenseLib (K : Type) where
  matmul : ∀ {r s c : Nat}, Matrix (Fin r) (Fin s) K → Matrix (Fin s) (Fin c) K → Matrix (Fin r) (Fin c) K
  solve : ∀ {r c : Nat}, Matrix (Fin r) (Fin r) K → Matrix (Fin r) (Fin c) K → Py (Matrix (Fin r) (Fin c) K)
  sub : K → K → K
  div : K → K → K

variable {R K : Type} [Field R] [LinearOrder R] [Field K]

/-- the terms of one equation that `_fill_matrix` adds up (solvers.py:386-391), see `fillRow` -/
def fillRowF (M : Fpu K) (F : Phys R K) (m : Model R) (p : Point R) (rows : Nat) (col : Dict PyStr Nat) (n' : Nat) (i : Nat)
    (ts : List (Term R)) : Py (List (Nat × Nat × K)) :=
  collectM (fun t =>
    if t.config.total ≠ (n' : Int) then .ok none
    else
      match col.get? t.id with
      | none => .error .keyError
      | some j =>
        if i < rows ∧ j < col.length then do
          let c ← t.coefficientF M F m p
          pure (some (i, j, c))
        else .error .indexError) ts

/-- the contributions of `_fill_matrix` (solvers.py:372-393), see `fillMatrix` -/
def fillMatrixF (M : Fpu K) (F : Phys R K) (m : Model R) (p : Point R) (basis : Dict Nat (Dict PyStr Nat))
    (eqs : Dict Nat (List (Equation R))) (n n' : Nat) : Py (List (Nat × Nat × K)) :=
  match eqs.get? n, basis.get? n, basis.get? n' with
  | some es, some row, some col =>
    List.flatten <$> collectM (fun e =>
      match row.get? e.id with
      | none => .error .keyError
      | some i => some <$> fillRowF M F m p row.length col n' i e.terms) es
  | _, _, _ => .error .keyError

/-- The element of the filled matrix: `A[ii_basis, jj_basis] += coefficient` (solvers.py:391) adds with the machine's
addition and stores the sum with `rnd`, because `A` has the type `complex64` (solvers.py:380). -/
def fillEntryF (M : Fpu K) (rnd : K → K) (ts : List (Nat × Nat × K)) (i j : Nat) : K :=
  ts.foldl (fun a t => if t.1 = i ∧ t.2.1 = j then rnd (M.add a t.2.2) else a) 0

/-- the filled matrix (solvers.py:380-393) -/
def toMatrixF (M : Fpu K) (rnd : K → K) (r c : Nat) (ts : List (Nat × Nat × K)) : Matrix (Fin r) (Fin c) K :=
  fun i j => fillEntryF M rnd ts i j

/-- the recursion of `DenseSolver.solve` (solvers.py:424-437), see `denseR` -/
def denseRF (L : DenseLib K) (M : Fpu K) (rnd : K → K) (F : Phys R K) (m : Model R) (p : Point R)
    (basis : Dict Nat (Dict PyStr Nat)) (eqs : Dict Nat (List (Equation R))) :
    (s n : Nat) → Py (Matrix (Fin (blockDim basis (n + 1))) (Fin (blockDim basis n)) K)
  | 0, n => do
    let alpha ← fillMatrixF M F m p basis eqs (n + 1) n
    pure (toMatrixF M rnd _ _ alpha)
  | s + 1, n => do
    let R' ← denseRF L M rnd F m p basis eqs s (n + 1)
    let beta ← fillMatrixF M F m p basis eqs (n + 1) (n + 2)
    let alpha ← fillMatrixF M F m p basis eqs (n + 1) n
    let D : Matrix (Fin (blockDim basis (n + 1))) (Fin (blockDim basis (n + 1))) K :=
      L.matmul (toMatrixF M rnd _ (blockDim basis (n + 2)) beta) R'
    L.solve (fun i j => L.sub ((1 : Matrix _ _ K) i j) (D i j)) (toMatrixF M rnd _ _ alpha)

open Classical in
/-- `DenseSolver.solve` without the cache (solvers.py:424-446), see `denseSolve`; the quotient is stored as `complex64`
(solvers.py:445). -/
noncomputable def denseSolveF (L : DenseLib K) (M : Fpu K) (rnd : K → K) (F : Phys R K) (m : Model R) (p : Point R)
    (basis : Dict Nat (Dict PyStr Nat)) (eqs : Dict Nat (List (Equation R))) : Py (Option K) :=
  if m.number.sum.toNat = 0 then .error .attributeError
  else do
    let R1 ← denseRF L M rnd F m p basis eqs (m.number.sum.toNat - 1) 0
    let g0 := F.G0 p.k p.w m.latticeConstant p.eta m.ham.hopping
    let beta ← fillMatrixF M F m p basis eqs 0 1
    let D : Matrix (Fin (blockDim basis 0)) (Fin (blockDim basis 0)) K :=
      L.matmul (toMatrixF M rnd _ (blockDim basis 1) beta) R1
    if h : blockDim basis 0 = 1 then
      let i : Fin (blockDim basis 0) := ⟨0, by omega⟩
      let q := L.sub 1 (D i i)
      if q = 0 then pure none else pure (some (rnd (L.div g0 q)))
    else .error .valueError

end GGCE
