import Verif.Model.ConfigND

/-!
Specification vocabulary for phonon clouds in `d` dimensions, independent of the model's helper
functions: a cloud is read as the occupations of the infinite lattice ℤ^d, with the array's first
site at the origin.
-/

namespace GGCE.Spec
variable {d : Nat}

/-- Occupation of the lattice site `x` by phonons of type `t`, when the array's first site sits at
the origin. Sites outside the array are empty. -/
def lattice (a : NArr d) (t : Nat) (x : Fin d → Int) : Int :=
  if t < a.types ∧ ∀ j, 0 ≤ x j ∧ x j < a.shape j then a.val t (fun j => (x j).toNat) else 0

/-- A cloud in `d` dimensions: no negative occupation, and along every axis both the first and the
last slice of the array contain a phonon. -/
structure CloudND (a : NArr d) : Prop where
  nonneg : ∀ t x, 0 ≤ lattice a t x
  first : ∀ j, ∃ t x, lattice a t x ≠ 0 ∧ x j = 0
  last : ∀ j, ∃ t x, lattice a t x ≠ 0 ∧ x j = (a.shape j : Int) - 1

/-- The one-site vacuum. -/
structure VacuumND (a : NArr d) : Prop where
  shape : ∀ j, a.shape j = 1
  empty : ∀ t x, lattice a t x = 0

/-- The two arrays have the same shape and the same entries. -/
structure SameND (a b : NArr d) : Prop where
  types : a.types = b.types
  shape : ∀ j, a.shape j = b.shape j
  entries : ∀ t x, lattice a t x = lattice b t x

end GGCE.Spec
