import Verif.Spec.Rhs

/-! Models whose hierarchy is expected to close. -/

namespace GGCE.Spec

/-- A one-dimensional model with positive limits, whose terms act on existing phonon types. -/
structure Bounded {R : Type} (m : Model R) (ae : Int) : Prop extends ListsOk m where
  absExtent : m.absExtent = some ae
  dim : m.ham.dimension = 1
  types : 1 ≤ m.nTypes
  aePos : 1 ≤ ae
  extPos : ∀ x ∈ m.extent, 1 ≤ x
  numPos : ∀ x ∈ m.number, 1 ≤ x
  capPos : ∀ c, m.maxPerSite = some c → 1 ≤ c
  index : ∀ h ∈ m.ham.terms, h.phononIndex < m.nTypes

/-- A one-dimensional model with positive limits, every phonon type created by some term and some
annihilation term. -/
structure Shaped {R : Type} (m : Model R) (ae : Int) : Prop extends Sound m ae where
  dim : m.ham.dimension = 1
  types : 1 ≤ m.nTypes
  aePos : 1 ≤ ae
  extPos : ∀ x ∈ m.extent, 1 ≤ x
  numPos : ∀ x ∈ m.number, 1 ≤ x
  capPos : ∀ c, m.maxPerSite = some c → 1 ≤ c
  plus : ∀ t, t < m.nTypes → ∃ h ∈ m.ham.terms, h.phononIndex = t ∧ h.dag = .plus
  minus : ∃ h ∈ m.ham.terms, h.dag = .minus

/-- A well-formed one-dimensional model: moreover no mixture of integer and half-integer shift arrays
(a half-integer cloud argument must never be added to an integer propagator argument). -/
structure WellFormed {R : Type} (m : Model R) (ae : Int) : Prop extends Shaped m ae where
  dtype : ∀ h ∈ m.ham.terms, h.phi.flt = true →
    ∀ h' ∈ m.ham.terms, (h'.psi.flt || h'.phi.flt) = true

end GGCE.Spec
