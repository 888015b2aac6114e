import Mathlib.Algebra.Order.Field.Basic

/-!
What a user is told about padded grids (`docs/source/tutorials/petsc_advanced.rst:32-54`).
-/

namespace GGCE.Spec

variable {R : Type} [Field R] [LinearOrder R]

/-- a rising or falling axis whose points are more than `gap` apart -/
def Ordered (gap : R) (x : List R) : Prop :=
  x.Pairwise (fun u v => u + gap < v) ∨ x.Pairwise (fun u v => v + gap < u)

/-- `v` lies beyond all points of `x`, on one side -/
def Outside (x : List R) (v : R) : Prop := (∀ u ∈ x, u < v) ∨ (∀ u ∈ x, v < u)

/-- `result[:nk, :nw]` -/
def slice {V : Type} (nk nw : Nat) (M : List (List V)) : List (List V) := (M.take nk).map (List.take nw)

end GGCE.Spec
