import Verif.Model.Engine
import Mathlib.LinearAlgebra.Matrix.NonsingularInverse

/-!
Model of the coefficients (`ggce/engine/terms.py:793-923`), and of the sparse and dense solvers
(`ggce/executors/solvers.py:193-450`), in exact arithmetic over a field `K` (complex numbers in the
instance of Verif/Model/RealPhys.lean). Rounding to `complex64` is in Verif/Model/Store.lean. Not modelled: logging, progress bars.
The cache (`_pre_solve`, `_post_solve`) is modelled in Verif/Model/Cache.lean.
-/

namespace GGCE

/-- The functions of `ggce/utils/physics.py` and `cmath.exp` that enter the coefficients, abstracted so
that the matrix assembly is independent of them. `realPhys` (Verif/Model/RealPhys.lean) instantiates
them over the complex numbers.
* `ofReal` is the conversion of a float to complex,
* `expI x` is `cmath.exp(1j * x)`,
* `g0 delta omega a eta t` is `g0_delta_omega` (physics.py:6-71),
* `G0 k omega a eta t` is `G0_k_omega` (physics.py:74-105). -/
structure Phys (R K : Type) where
  ofReal : R → K
  expI : R → K
  g0 : R → R → R → R → R → K
  G0 : R → R → R → R → R → K

/-- A point `(k, w, eta)` at which the system is solved (solvers.py:315, 401). -/
structure Point (R : Type) where
  k : R
  w : R
  eta : R

variable {R K : Type} [Field R] [LinearOrder R] [Field K]

/-- the value of a shift (terms.py:865, 910, 916) -/
def Num.val (n : Num) : R := (n.tw : R) / 2

/-- `EOMTerm.coefficient` (terms.py:857-873) and `NonIndexTerm.coefficient` (terms.py:909-923). The
lattice constant and hopping are those of the model the term was made with (854-855, 897-898).
A missing `g_arg` would make `g0_delta_omega` raise a `TypeError`. -/
def Term.coefficient (F : Phys R K) (m : Model R) (p : Point R) (t : Term R) : Py K :=
  let phase := F.expI (p.k * (m.latticeConstant * t.expShift.val))
  match t.kind with
  | .eom => .ok (F.ofReal t.pref * F.G0 p.k p.w m.latticeConstant p.eta m.ham.hopping * phase)
  | _ =>
    match t.gArg with
    | none => .error .typeError
    | some g => .ok (F.ofReal t.pref * phase *
        F.g0 g.val (p.w - t.freqShift) m.latticeConstant p.eta m.ham.hopping)

/-- `Equation.bias` (equations.py:154-158) and `GreenEquation.bias` (347-369) -/
def Equation.bias (F : Phys R K) (m : Model R) (p : Point R) (e : Equation R) : K :=
  if e.green then F.G0 p.k p.w m.latticeConstant p.eta m.ham.hopping else 0

/-! ### Sparse solver -/

/-- `try: row_dict[jj] += v except KeyError: row_dict[jj] = v` (solvers.py:250-253) -/
def addTo (d : Dict Nat K) (j : Nat) (v : K) : Dict Nat K :=
  match d.get? j with
  | some u => d.set j (u + v)
  | none => d.set j v

/-- the loop over the terms of an equation (solvers.py:248-253), each given by its identifier and the
computation of its coefficient -/
def rowLoop (basis : Dict PyStr Nat) : List (PyStr × Py K) → Dict Nat K → Py (Dict Nat K)
  | [], d => .ok d
  | (id, c) :: rest, d =>
    match basis.get? id with
    | none => .error .keyError
    | some j => do
      let v ← c
      rowLoop basis rest (addTo d j v)

/-- `eq._terms_list + [eq.index_term]` (solvers.py:248) with coefficients; the index term's is 1
(terms.py:819-834) -/
def rowTerms (F : Phys R K) (m : Model R) (p : Point R) (e : Equation R) : List (PyStr × Py K) :=
  e.terms.map (fun t => (t.id, t.coefficient F m p)) ++ [(e.id, .ok 1)]

/-- one row of the matrix (solvers.py:244-257) -/
def sparseRow (F : Phys R K) (m : Model R) (p : Point R) (basis : Dict PyStr Nat) (e : Equation R) :
    Py (List (Nat × Nat × K)) :=
  match basis.get? e.id with
  | none => .error .keyError
  | some i => do
    let d ← rowLoop basis (rowTerms F m p e) []
    pure (d.map (fun kv => (i, kv.1, kv.2)))

/-- `_sparse_matrix_from_equations` (solvers.py:214-264); `range(total_bosons + 1)` starts at 0 -/
def sparseTriples (F : Phys R K) (m : Model R) (p : Point R) (basis : Dict PyStr Nat)
    (eqs : Dict Nat (List (Equation R))) : Py (List (Nat × Nat × K)) :=
  List.flatten <$> collectM (fun n =>
    match eqs.get? n with
    | none => .error .keyError
    | some es => (fun rows => some (List.flatten rows)) <$>
        collectM (fun e => some <$> sparseRow F m p basis e) es)
    (List.range (m.number.sum.toNat + 1))

/-- The linear system handed to `spsolve`: `coo_matrix(...).tocsr()` of the triples (its shape is
inferred from the largest indices) and the right-hand side, one entry in one column (solvers.py:293-313). -/
structure LinSys (K : Type) where
  triples : List (Nat × Nat × K)
  rhsRow : Nat
  rhsVal : K

/-- `_scaffold` (solvers.py:266-313): the right-hand side row is `basis["{G}[0.0]"]`, its value the
bias of `equations[0][0]`. -/
def scaffold (F : Phys R K) (m : Model R) (p : Point R) (basis : Dict PyStr Nat)
    (eqs : Dict Nat (List (Equation R))) : Py (LinSys K) := do
  let ts ← sparseTriples F m p basis eqs
  match basis.get? "{G}[0.0]".toList with
  | none => .error .keyError
  | some gi =>
    match eqs.get? 0 with
    | none => .error .keyError
    | some [] => .error .indexError
    | some (e :: _) => pure ⟨ts, gi, e.bias F m p⟩

/-- entry of the matrix represented by a coordinate list (duplicates are summed) (solvers.py:293) -/
def cooEntry (ts : List (Nat × Nat × K)) (i j : Nat) : K :=
  ((ts.filter (fun t => t.1 = i ∧ t.2.1 = j)).map (fun t => t.2.2)).sum

/-- number of rows inferred by `coo_matrix` (solvers.py:293) -/
def cooRows (ts : List (Nat × Nat × K)) : Nat := (ts.map (fun t => t.1 + 1)).foldl max 0
/-- number of columns inferred by `coo_matrix` (solvers.py:293) -/
def cooCols (ts : List (Nat × Nat × K)) : Nat := (ts.map (fun t => t.2.1 + 1)).foldl max 0

/-- `SparseSolver.solve` without the cache (solvers.py:340-342), for a linear solver `spsolve`:
`G = res[basis["{G}[0.0]"]]`. -/
def sparseSolve (F : Phys R K) (m : Model R) (p : Point R) (basis : Dict PyStr Nat)
    (eqs : Dict Nat (List (Equation R))) (spsolve : LinSys K → Py (Nat → K)) : Py K := do
  let ls ← scaffold F m p basis eqs
  let res ← spsolve ls
  match basis.get? "{G}[0.0]".toList with
  | none => .error .keyError
  | some gi => pure (res gi)

/-! ### Dense solver -/

/-- The terms of one equation that `_fill_matrix` adds up (solvers.py:386-391): those with
`total_phonons == n'`. A number outside the matrix of `rows` times `len(col)` is an `IndexError`, before the
coefficient is evaluated. -/
def fillRow (F : Phys R K) (m : Model R) (p : Point R) (rows : Nat) (col : Dict PyStr Nat) (n' : Nat) (i : Nat)
    (ts : List (Term R)) : Py (List (Nat × Nat × K)) :=
  collectM (fun t =>
    if t.config.total ≠ (n' : Int) then .ok none
    else
      match col.get? t.id with
      | none => .error .keyError
      | some j =>
        if i < rows ∧ j < col.length then do
          let c ← t.coefficient F m p
          pure (some (i, j, c))
        else .error .indexError) ts

/-- `_fill_matrix` (solvers.py:372-393) for `n_phonons = n` and `n_phonons + shift = n'`: the
contributions that are added to the zero matrix of shape `len(basis[n]) × len(basis[n'])`. -/
def fillMatrix (F : Phys R K) (m : Model R) (p : Point R) (basis : Dict Nat (Dict PyStr Nat))
    (eqs : Dict Nat (List (Equation R))) (n n' : Nat) : Py (List (Nat × Nat × K)) :=
  match eqs.get? n, basis.get? n, basis.get? n' with
  | some es, some row, some col =>
    List.flatten <$> collectM (fun e =>
      match row.get? e.id with
      | none => .error .keyError
      | some i => some <$> fillRow F m p row.length col n' i e.terms) es
  | _, _, _ => .error .keyError

/-- `len(basis[n])` (solvers.py:378-379) -/
def blockDim (basis : Dict Nat (Dict PyStr Nat)) (n : Nat) : Nat := ((basis.get? n).getD []).length

/-- the filled matrix (solvers.py:380-393) -/
def toMatrix (r c : Nat) (ts : List (Nat × Nat × K)) : Matrix (Fin r) (Fin c) K :=
  fun i j => cooEntry ts i j

open Classical in
/-- The recursion of `DenseSolver.solve` (solvers.py:424-437), from the top down: `denseR s n` is `R`
after treating `n + 1 + s, …, n + 1` phonons, where `n + 1 + s` is the total; `linalg.solve` raises
`LinAlgError` for a singular matrix. -/
noncomputable def denseR (F : Phys R K) (m : Model R) (p : Point R)
    (basis : Dict Nat (Dict PyStr Nat)) (eqs : Dict Nat (List (Equation R))) :
    (s n : Nat) → Py (Matrix (Fin (blockDim basis (n + 1))) (Fin (blockDim basis n)) K)
  | 0, n => do
    let alpha ← fillMatrix F m p basis eqs (n + 1) n
    pure (toMatrix _ _ alpha)
  | s + 1, n => do
    let R' ← denseR F m p basis eqs s (n + 1)
    let beta ← fillMatrix F m p basis eqs (n + 1) (n + 2)
    let alpha ← fillMatrix F m p basis eqs (n + 1) n
    let X : Matrix (Fin (blockDim basis (n + 1))) (Fin (blockDim basis (n + 1))) K :=
      1 - toMatrix _ _ beta * R'
    if X.det = 0 then .error .linAlgError
    else pure (X⁻¹ * toMatrix _ _ alpha)

open Classical in
/-- `DenseSolver.solve` without the cache (solvers.py:424-445). With no phonons the name `R` is
unbound (an exception; here `attributeError`). For more than one Green's function unknown the result
would not be a scalar and `_post_solve` would raise a `ValueError`. `none` stands for the infinite or
undefined value numpy returns when dividing by zero. -/
noncomputable def denseSolve (F : Phys R K) (m : Model R) (p : Point R)
    (basis : Dict Nat (Dict PyStr Nat)) (eqs : Dict Nat (List (Equation R))) : Py (Option K) :=
  if m.number.sum.toNat = 0 then .error .attributeError
  else do
    let R1 ← denseR F m p basis eqs (m.number.sum.toNat - 1) 0
    let g0 := F.G0 p.k p.w m.latticeConstant p.eta m.ham.hopping
    let beta ← fillMatrix F m p basis eqs 0 1
    let B : Matrix (Fin (blockDim basis 0)) (Fin (blockDim basis 1)) K := toMatrix _ _ beta
    let D : Matrix (Fin (blockDim basis 0)) (Fin (blockDim basis 0)) K := B * R1
    if h : blockDim basis 0 = 1 then
      let i : Fin (blockDim basis 0) := ⟨0, by omega⟩
      if 1 - D i i = 0 then pure none else pure (some (g0 / (1 - D i i)))
    else .error .valueError

end GGCE
