import Verif.Spec.Operator

/-! A lower bound for the energies of a model that does not depend on its limits. -/

namespace GGCE.Spec

/-- the number of terms that act on the phonons of type `t` -/
def actCount (m : Model ℝ) (t : ℕ) : ℕ := (m.ham.terms.map (·.phononIndex)).count t

/-- `-2 |t| - Σ_h c_h g_h² / (4 Ω_h)`, where `c_h` is the number of terms with the phonons of `h` -/
noncomputable def energyFloor (m : Model ℝ) : ℝ :=
  -(2 * |m.ham.hopping|) -
    (m.ham.terms.map (fun h => (actCount m h.phononIndex : ℝ) * h.coupling ^ 2 /
      (4 * m.ham.freqs.getD h.phononIndex 0))).sum

/-- `g² / Ω` for Holstein, `4 g² / Ω` for EdwardsFermionBoson and BondPeierls, `16 g² / Ω` for Peierls -/
noncomputable def callFloor (a : AddArgs ℝ) : ℝ :=
  (if a.ctype = "Holstein" then 1 else if a.ctype = "Peierls" then 16 else 4) * a.g.getD 0 ^ 2 / a.freq

end GGCE.Spec
