import Verif.Spec.Chain

/-! Documented legality of a one-dimensional configuration (terms.py:78-103), in terms of the
infinite-chain reading. -/

namespace GGCE.Spec

/-- total number of phonons of type `t` -/
def typeTotal (a : Arr) (t : Nat) : Int := (a.rows.getD t []).sum

/-- total number of phonons -/
def phonons (a : Arr) : Int := (a.rows.map List.sum).sum

/-- every site of every type carries at most `c` phonons -/
def CapOk (c : Int) (a : Arr) : Prop := ∀ t x, chain a t x ≤ c

/-- the occupied span of type `t` is at most `m` (an empty type has span 0) -/
def SpanOk (a : Arr) (t : Nat) (m : Int) : Prop :=
  0 ≤ m ∧ ∀ x y, chain a t x ≠ 0 → chain a t y ≠ 0 → y - x + 1 ≤ m

/-- A legal configuration: a cloud obeying all given limits. -/
structure Legal (cap : Option Int) (extent number : Option (List Int)) (a : Arr) : Prop
    extends Cloud a where
  capOk : ∀ c, cap = some c → CapOk c a
  extentOk : ∀ M, extent = some M → ∀ t, t < a.rows.length → ∃ m, M[t]? = some m ∧ SpanOk a t m
  numberOk : ∀ N, number = some N → ∀ t, t < a.rows.length →
    ∃ n, N[t]? = some n ∧ typeTotal a t ≤ n

end GGCE.Spec
