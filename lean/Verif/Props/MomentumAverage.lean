import Verif.Proofs.MomentumAverage
import Verif.Props.Parameters

/-!
Property C68: clouds of one site give the momentum average of the literature.
-/

set_option linter.unusedSectionVars false

namespace GGCE.Props
open Spec Arr Complex

/-- **C68**. A Holstein model at zero temperature with `phonon_extent = 1`: for every number of phonons, cap,
frequency, coupling, momentum, energy and broadening, both solvers return the momentum average (MA) of the
literature, a continued fraction whose length is the largest number of phonons on a site. -/
theorem C68_momentum_average (σ : SetOrder) (hopping lattice : ℝ)
    (hl : hopping = 0 ∨ (0 < hopping ∧ lattice = 1)) (cap : Option Int) (hcap : ∀ c, cap = some c → 1 ≤ c)
    (Omega g : ℝ) (N : ℤ) (hN : 1 ≤ N) :
    ∃ m b, (Model.fromParameters hopping lattice 0 cap 1).adds realPrims
        [{ ctype := "Holstein", freq := Omega, M := 1, N := N, g := some g }] = .ok m ∧
      buildSystem σ m = .ok b ∧
      ∀ k w eta : ℝ, 0 < eta → Gives m b ⟨k, w, eta⟩
        (momentumAverage g hopping Omega (k * lattice) (w + eta * I)
          (match cap with | none => N | some c => min N c).toNat) := by
  have hc : Clean realPrims hopping 0 [({ ctype := "Holstein", freq := Omega, M := 1, N := N, g := some g } : AddArgs ℝ)] := by
    constructor <;> intro a ha <;> simp only [List.mem_cons, List.not_mem_nil, or_false] at ha <;> subst ha
    · exact ⟨le_rfl, hN, by simp, by simp, by simp, Or.inl ⟨g, rfl, rfl⟩, by simp⟩
    · simp [Known]
    · rfl
    · simp [Defined]
  have hf : ((modes 0 [({ ctype := "Holstein", freq := Omega, M := 1, N := N, g := some g } : AddArgs ℝ)]).map
      (·.freq)).Nodup := by
    rw [modes_of_clean hc]; simp [modesAt]
  obtain ⟨m, b, h1, ⟨ae, h2⟩, h3⟩ := C16_assembled σ realPrims C42_names hopping lattice 0 cap hcap _ (by simp) hc hf
    (Or.inr (by simp))
  refine ⟨m, b, h1, h3, fun k w eta heta => ?_⟩
  have hp := physical_assembled h1 (Or.inr (by simp)) hl
  rw [fromParameters_blueprint hopping lattice 0 cap _ hc hf] at h1
  cases h1
  have hm : blueprint hopping lattice 0 cap (parts realPrims hopping 0
      [({ ctype := "Holstein", freq := Omega, M := 1, N := N, g := some g } : AddArgs ℝ)]) =
      oneSite hopping lattice cap Omega g N := by
    unfold oneSite parts
    rw [List.flatMap_cons, List.flatMap_nil, List.append_nil]
    unfold partsAt
    rw [if_neg (lt_irrefl _), strengthD_ok (g := g) (by simp [Hamiltonian.strength]), mul_one]
  rw [hm] at h2 h3 hp ⊢
  have hae : ae = 1 := by
    have := h2.absExtent
    simp [Model.absExtent, oneSite, blueprint] at this
    exact this.symm
  subst hae
  obtain ⟨Ψ, hΨ, -, g1, g2⟩ := C55_exact σ _ _ h2 b h3 hp ⟨k, w, eta⟩ heta
  have e := oneSite_green hN hcap hl heta hΨ
  have ed : depth cap N = (match cap with | none => N | some c => min N c).toNat := by
    unfold depth; cases cap <;> rfl
  rw [ed] at e
  rw [← e]
  exact ⟨g1, g2⟩

/-! ### concrete cases -/

/-- The hypotheses are met, and one phonon gives the first level of the fraction:
`G = 1 / (z + 2 cos k - g² ḡ(z - Ω))` with `g = 1/2`, `Ω = 2`. -/
example (σ : SetOrder) : ∃ m b, (Model.fromParameters (1 : ℝ) 1 0 none 1).adds realPrims
      [{ ctype := "Holstein", freq := 2, M := 1, N := 1, g := some (1 / 2) }] = .ok m ∧ buildSystem σ m = .ok b ∧
    ∀ k w eta : ℝ, 0 < eta → Gives m b ⟨k, w, eta⟩
      (1 / (w + eta * I + 2 * Real.cos k - 1 / 4 * localG 1 (w + eta * I - 2))) := by
  obtain ⟨m, b, h1, h2, h3⟩ := C68_momentum_average σ 1 1 (Or.inr (by norm_num)) none (by simp) 2 (1 / 2) 1 le_rfl
  refine ⟨m, b, h1, h2, fun k w eta heta => ?_⟩
  have h := h3 k w eta heta
  have e : momentumAverage (1 / 2) 1 2 (k * 1) (w + eta * I) (1 : ℤ).toNat =
      1 / (w + eta * I + 2 * Real.cos k - 1 / 4 * localG 1 (w + eta * I - 2)) := by
    have : (1 : ℤ).toNat = 1 := rfl
    rw [this]
    simp only [momentumAverage, selfEnergy]
    push_cast
    rw [sub_zero, mul_one, mul_one, one_mul, one_mul, div_div_eq_mul_div, div_one]
    norm_num
  rw [← e]
  exact h

/-- Without hopping the average is `1/z`, as it should be. -/
example (z : ℂ) : localG 0 z = 1 / z := by
  have hpi : (Real.pi : ℂ) ≠ 0 := by exact_mod_cast Real.pi_pos.ne'
  unfold localG
  simp only [Complex.ofReal_zero, mul_zero, zero_mul, add_zero, intervalIntegral.integral_const, sub_neg_eq_add,
    Complex.real_smul]
  push_cast
  field_simp
  ring

end GGCE.Props
