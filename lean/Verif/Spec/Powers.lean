import Verif.Spec.Untruncated

/-! The moments of the spectral function of the Hamiltonian without limits. -/

namespace GGCE.Spec

open Classical in
/-- the amplitudes of `H^j |bare⟩`, for the Hamiltonian without limits at crystal momentum `k` -/
noncomputable def powers (m : Model ℝ) (k : ℝ) : ℕ → Occ → ℂ
  | 0 => fun n => if n = 0 then 1 else 0
  | j + 1 => fun n => if Conceivable m n then frameAll m k (powers m k j) n else 0

/-- the moment `⟨bare| H^j |bare⟩` -/
noncomputable def moment (m : Model ℝ) (k : ℝ) (j : ℕ) : ℂ := powers m k j 0

/-- the electron moves by one site at most, and the phonon is where the electron was or where it goes -/
def Adjacent {R : Type} (h : SingleTerm R) : Prop :=
  |electronSite h 0| ≤ 1 ∧ (bosonSite h 0 = 0 ∨ bosonSite h 0 = electronSite h 0)

end GGCE.Spec
