import Verif.Model.Model

/-!
What a user can read off a model.
-/

namespace GGCE.Spec

/-- The same values of all public attributes: lattice constant, temperature, Hamiltonian (terms, frequencies, dimension and
hopping), phonons per site, extents, numbers of phonons, absolute extent, number of phonon types. -/
structure SameAttributes {R : Type} [Field R] [LinearOrder R] (m m' : Model R) : Prop where
  lattice : m'.latticeConstant = m.latticeConstant
  temperature : m'.temperature = m.temperature
  ham : m'.ham = m.ham
  cap : m'.maxPerSite = m.maxPerSite
  extent : m'.extent = m.extent
  number : m'.number = m.number
  abs : m'.absExtent = m.absExtent
  types : m'.nTypes = m.nTypes

end GGCE.Spec
