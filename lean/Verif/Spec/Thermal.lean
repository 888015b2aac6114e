import Verif.Spec.Powers
import Mathlib.Probability.ProductMeasure
import Mathlib.Probability.Distributions.Geometric

/-!
What finite temperature means: the phonons of a Hamiltonian are in thermal equilibrium before the electron is added.
Nothing here mentions fictitious phonons.
-/

namespace GGCE.Spec
open Complex MeasureTheory

/-- a sample of the thermal ensemble: the number of phonons of each type on each site -/
abbrev Sample := ℕ × ℤ → ℕ

/-- its occupations -/
def Sample.occ (ν : Sample) : Occ := fun t x => ν (t, x)

/-- The number of phonons of energy `Omega` on one site in thermal equilibrium: `j` phonons have probability
`(1 - q) q^j` with `q = exp (-Omega / T)`. -/
noncomputable def boltzmann (T Omega : ℝ) : Measure ℕ :=
  ProbabilityTheory.geometricMeasure (Set.projIcc 0 1 zero_le_one (1 - Real.exp (-Omega / T)))

/-- The thermal ensemble of the phonons of the model: all sites and types are independent. -/
noncomputable def gibbs (m : Model ℝ) (T : ℝ) : Measure Sample :=
  Measure.infinitePi (fun i : ℕ × ℤ => boltzmann T (m.ham.freqs.getD i.1 0))

/-- the energy of the phonons `n`, measured from that of the phonons `ν` -/
noncomputable def relEnergy (m : Model ℝ) (ν n : Occ) : ℝ :=
  ∑ t ∈ Finset.range m.nTypes, m.ham.freqs.getD t 0 * ((∑ᶠ x, (n t x - ν t x) : ℤ) : ℝ)

/-- the matrix element of `b†` or `b` on a normalised state with `v` phonons: `√(v+1)` or `√v` -/
noncomputable def climb (d : Dag) (v : ℤ) : ℝ :=
  match d with
  | .plus => Real.sqrt (v + 1)
  | .minus => Real.sqrt v

/-- `⟨k, ν| (H - E_ν)^j |e, n⟩` for the Hamiltonian of the model without limits: the electron at site `e` and phonons
`n`, on a background `ν` of (infinitely many) phonons; `⟨k|` is the plane wave `Σ_e exp (-i k a e) ⟨e|`. -/
noncomputable def onBackground (m : Model ℝ) (k : ℝ) (ν : Occ) : ℕ → Occ → ℤ → ℂ
  | 0 => fun n e => open Classical in if n = ν then exp (-(I * (k * m.latticeConstant * e))) else 0
  | j + 1 => fun n e =>
    relEnergy m ν n * onBackground m k ν j n e -
      m.ham.hopping * (onBackground m k ν j n (e - 1) + onBackground m k ν j n (e + 1)) +
      (m.ham.terms.map (fun h : SingleTerm ℝ => (h.coupling : ℂ) *
        (climb h.dag (n h.phononIndex (bosonSite h e)) : ℂ) *
        onBackground m k ν j (n.act h.dag h.phononIndex (bosonSite h e)) (electronSite h e))).sum

/-- The `j`-th moment of the spectral function at temperature `T`: the thermal average over `ν` of
`⟨k, ν| (H - E_ν)^j |0, ν⟩`. -/
noncomputable def thermalMoment (m : Model ℝ) (T k : ℝ) (j : ℕ) : ℂ :=
  ∫ ν : Sample, onBackground m k ν.occ j ν.occ 0 ∂(gibbs m T)

/-- the coupling is to the displacement `b + b†` of the phonons -/
def Displacement (ctype : String) : Prop := ctype = "Holstein" ∨ ctype = "Peierls" ∨ ctype = "BondPeierls"

end GGCE.Spec
