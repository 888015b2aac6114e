import Verif.Model.Store
import Verif.Model.Float

/-!
The sparse solver in floating-point arithmetic: `Verif.Model.Solver` with the products in the coefficients and the
additions of matrix elements replaced by the operations of a machine.
-/

namespace GGCE

/-- the machine's multiplication and addition of complex numbers, as used in terms.py:867-873, 923 and
solvers.py:251 -/
structure Fpu (K : Type) where
  mul : K → K → K
  add : K → K → K

variable {R K : Type} [Field R] [LinearOrder R] [Field K]

/-- `EOMTerm.coefficient` (terms.py:857-873) and `NonIndexTerm.coefficient` (terms.py:909-923), the products from left
to right with the machine's multiplication. Simplified: the argument of the exponential, the prefactor and the
frequency shift are exact. -/
def Term.coefficientF (M : Fpu K) (F : Phys R K) (m : Model R) (p : Point R) (t : Term R) : Py K :=
  let phase := F.expI (p.k * (m.latticeConstant * t.expShift.val))
  match t.kind with
  | .eom => .ok (M.mul (M.mul (F.ofReal t.pref) (F.G0 p.k p.w m.latticeConstant p.eta m.ham.hopping)) phase)
  | _ =>
    match t.gArg with
    | none => .error .typeError
    | some g => .ok (M.mul (M.mul (F.ofReal t.pref) phase)
        (F.g0 g.val (p.w - t.freqShift) m.latticeConstant p.eta m.ham.hopping))

/-- `try: row_dict[jj] += v except KeyError: row_dict[jj] = v` (solvers.py:250-253) with the machine's addition -/
def addToF (M : Fpu K) (d : Dict Nat K) (j : Nat) (v : K) : Dict Nat K :=
  match d.get? j with
  | some u => d.set j (M.add u v)
  | none => d.set j v

/-- the loop over the terms of an equation (solvers.py:248-253) -/
def rowLoopF (M : Fpu K) (basis : Dict PyStr Nat) : List (PyStr × Py K) → Dict Nat K → Py (Dict Nat K)
  | [], d => .ok d
  | (id, c) :: rest, d =>
    match basis.get? id with
    | none => .error .keyError
    | some j => do
      let v ← c
      rowLoopF M basis rest (addToF M d j v)

/-- `eq._terms_list + [eq.index_term]` (solvers.py:248) with coefficients -/
def rowTermsF (M : Fpu K) (F : Phys R K) (m : Model R) (p : Point R) (e : Equation R) : List (PyStr × Py K) :=
  e.terms.map (fun t => (t.id, t.coefficientF M F m p)) ++ [(e.id, .ok 1)]

/-- one row of the matrix (solvers.py:244-257) -/
def sparseRowF (M : Fpu K) (F : Phys R K) (m : Model R) (p : Point R) (basis : Dict PyStr Nat) (e : Equation R) :
    Py (List (Nat × Nat × K)) :=
  match basis.get? e.id with
  | none => .error .keyError
  | some i => do
    let d ← rowLoopF M basis (rowTermsF M F m p e) []
    pure (d.map (fun kv => (i, kv.1, kv.2)))

/-- `_sparse_matrix_from_equations` (solvers.py:214-264) -/
def sparseTriplesF (M : Fpu K) (F : Phys R K) (m : Model R) (p : Point R) (basis : Dict PyStr Nat)
    (eqs : Dict Nat (List (Equation R))) : Py (List (Nat × Nat × K)) :=
  List.flatten <$> collectM (fun n =>
    match eqs.get? n with
    | none => .error .keyError
    | some es => (fun rows => some (List.flatten rows)) <$>
        collectM (fun e => some <$> sparseRowF M F m p basis e) es)
    (List.range (m.number.sum.toNat + 1))

/-- `_scaffold` (solvers.py:266-313) before the conversion to `complex64` -/
def scaffoldF (M : Fpu K) (F : Phys R K) (m : Model R) (p : Point R) (basis : Dict PyStr Nat)
    (eqs : Dict Nat (List (Equation R))) : Py (LinSys K) := do
  let ts ← sparseTriplesF M F m p basis eqs
  match basis.get? "{G}[0.0]".toList with
  | none => .error .keyError
  | some gi =>
    match eqs.get? 0 with
    | none => .error .keyError
    | some [] => .error .indexError
    | some (e :: _) => pure ⟨ts, gi, e.bias F m p⟩

/-- `SparseSolver.solve` without the cache (solvers.py:340-342): the coefficients with the functions `F`, the matrix with
the operations `M`, stored with `rnd` (solvers.py:288-291, 305-308), and the linear solver `spsolve` -/
def sparseSolveF (M : Fpu K) (rnd : K → K) (F : Phys R K) (m : Model R) (p : Point R) (basis : Dict PyStr Nat)
    (eqs : Dict Nat (List (Equation R))) (spsolve : LinSys K → Py (Nat → K)) : Py K := do
  let ls ← scaffoldF M F m p basis eqs
  let res ← spsolve (ls.store rnd)
  match basis.get? "{G}[0.0]".toList with
  | none => .error .keyError
  | some gi => pure (res gi)

end GGCE
