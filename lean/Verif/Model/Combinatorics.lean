import Verif.Py
import Mathlib.Data.Nat.Choose.Basic

/-! Model of `ggce/utils/combinatorics.py`. -/

namespace GGCE

/-- `scipy.special.comb(n, k, exact=True)`: zero outside `0 ≤ k ≤ n` (used in combinatorics.py:20) -/
def combExact (n k : Int) : Nat :=
  if n < k ∨ n < 0 ∨ k < 0 then 0 else n.toNat.choose k.toNat

/-- `generalized_equations_combinatorics_term` (combinatorics.py:5-20) -/
def geTerm (m n : Nat) : Nat :=
  if m = 1 ∨ n = 2 then 1 else combExact ((m : Int) + n - 3) ((n : Int) - 2)

/-- the double sum for one phonon type (combinatorics.py:30-38);
`range(1, N + 1)` is empty for `N < 1` -/
def geSum (M N : Int) : Nat :=
  ((List.range M.toNat).map (fun i =>
    ((List.range N.toNat).map (fun j => geTerm (i + 1) (j + 1))).sum)).sum

/-- `total_generalized_equations` (combinatorics.py:23-43) -/
def totalGeneralized (M N : List Int) (nbt : Nat) : Py Nat := do
  let bosons ← collectM (fun bt =>
    match M[bt]?, N[bt]? with
    | some x, some y => .ok (some (geSum x y))
    | _, _ => .error .indexError) (List.range nbt)
  pure bosons.prod

end GGCE
