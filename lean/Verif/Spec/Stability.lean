import Verif.Spec.Operator

/-! How far apart two models are. -/

namespace GGCE.Spec

/-- the largest number of phonons of type `t` -/
noncomputable def maxNumber (m : Model ℝ) (t : ℕ) : ℝ := (m.number.getD t 0 : ℤ)

/-- Two models with the same limits and the same terms, up to the hopping, the frequencies and the strengths of
the couplings. -/
structure SameShape (m m' : Model ℝ) : Prop where
  nTypes : m'.nTypes = m.nTypes
  extent : m'.extent = m.extent
  number : m'.number = m.number
  cap : m'.maxPerSite = m.maxPerSite
  lattice : m'.latticeConstant = m.latticeConstant
  terms : List.Forall₂ (fun h h' : SingleTerm ℝ => h'.psi = h.psi ∧ h'.phi = h.phi ∧ h'.dag = h.dag ∧
    h'.phononIndex = h.phononIndex) m.ham.terms m'.ham.terms

/-- `2 |t - t'| + Σ_T |Ω_T - Ω'_T| N_T + Σ_h |g_h - g'_h| √N_h` -/
noncomputable def distance (m m' : Model ℝ) : ℝ :=
  2 * |m.ham.hopping - m'.ham.hopping| +
    ∑ t ∈ Finset.range m.nTypes, |m.ham.freqs.getD t 0 - m'.ham.freqs.getD t 0| * maxNumber m t +
    (List.zipWith (fun h h' : SingleTerm ℝ => |h.coupling - h'.coupling| * √(maxNumber m h.phononIndex))
      m.ham.terms m'.ham.terms).sum

/-- A bound for the speed with which the Hamiltonian changes with the momentum:
`a (2 |t| + Σ_h |g_h| √N_h |s_h|)`, where the term `h` moves the electron by `s_h` sites. -/
noncomputable def speed (m : Model ℝ) : ℝ :=
  |m.latticeConstant| * (2 * |m.ham.hopping| +
    (m.ham.terms.map (fun h => |h.coupling| * √(maxNumber m h.phononIndex) * |((electronSite h 0 : ℤ) : ℝ)|)).sum)

/-- how many terms a coupling type has -/
def termCount (ct : String) : ℝ :=
  if ct = "Holstein" then 2 else if ct = "EdwardsFermionBoson" then 4 else if ct = "BondPeierls" then 4
  else if ct = "Peierls" then 8 else 0

/-- Two calls that differ in frequency and coupling strength only, both given as `phonon_coupling`. -/
structure AlikeCall (a a' : AddArgs ℝ) : Prop where
  ctype : a'.ctype = a.ctype
  M : a'.M = a.M
  N : a'.N = a.N
  g : a.g.isSome ∧ a'.g.isSome

/-- `|Ω - Ω'| N + c |g - g'| √N`, where `c` is the number of terms of the coupling -/
noncomputable def callDistance (a a' : AddArgs ℝ) : ℝ :=
  |a.freq - a'.freq| * (a.N : ℝ) + termCount a.ctype * (|a.g.getD 0 - a'.g.getD 0| * √(a.N : ℝ))

end GGCE.Spec
