import Verif.Model.Solver

/-!
What a basis handed to a solver (`Solver(..., basis=...)`, `ggce/executors/solvers.py:50-54`) may look like: the
same identifiers as in the basis of the system, numbered from 0 in any order.
-/

namespace GGCE.Spec

/-- `b'` numbers the identifiers of `b`: it is a dictionary with the same keys, different keys have different
numbers, and the numbers are below the number of keys. -/
structure Numbering (b b' : Dict PyStr Nat) : Prop where
  nodup : (b'.map Prod.fst).Nodup
  keys : ∀ id, (∃ i, b'.get? id = some i) ↔ ∃ i, b.get? id = some i
  small : ∀ id i, b'.get? id = some i → i < b.length
  inj : ∀ id id' i, b'.get? id = some i → b'.get? id' = some i → id = id'

/-- The same block by block, for the basis of the dense solver. -/
structure BlockNumbering (B B' : Dict Nat (Dict PyStr Nat)) : Prop where
  keys : ∀ n, (∃ b', B'.get? n = some b') ↔ ∃ b, B.get? n = some b
  blocks : ∀ n b b', B.get? n = some b → B'.get? n = some b' → Numbering b b'

/-- What `scipy.sparse.linalg.spsolve` does before solving: a right-hand side whose number of rows differs from
that of the matrix is a `ValueError`. -/
def ChecksShape {K : Type} (spsolve : LinSys K → Py (Nat → K)) : Prop :=
  ∀ ls, cooRows ls.triples ≠ ls.rhsRow + 1 → spsolve ls = .error .valueError

end GGCE.Spec
