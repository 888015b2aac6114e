import Verif.Proofs.SecondOrder
import Verif.Props.Parameters

/-!
Property C72: with one phonon the code is second-order perturbation theory.
-/

set_option linter.unusedSectionVars false

namespace GGCE.Props
open Spec Arr Complex

/-- From the dense solver to both solvers. -/
theorem gives_of_dense {σ : SetOrder} {m : Model ℝ} {ae : Int} (hm : WellFormed m ae) {b : Built ℝ}
    (hb : buildSystem σ m = .ok b) {p : Point ℝ} {G : ℂ}
    (hG : denseSolve realPhys m p (localBasis b.eqs) b.eqs = .ok (some G)) : Gives m b p G := by
  obtain ⟨ls, -, -, -, h⟩ := (C21_sparse_dense_agree σ m ae hm b hb realPhys p).2 G hG
  exact ⟨h, hG⟩

theorem dyson {a s : ℂ} (ha : a ≠ 0) : 1 / a / (1 - 1 / a * s) = 1 / (a - s) := by
  rw [div_div, mul_sub, mul_one, ← mul_assoc, mul_one_div_cancel ha, one_mul]

theorem clean_one {hopping : ℝ} {ct : String} {Omega g : ℝ} {M N : ℤ}
    (hct : ct = "Holstein" ∨ ct = "EdwardsFermionBoson" ∨ ct = "Peierls" ∨ ct = "BondPeierls") (hM : 1 ≤ M)
    (hN : 1 ≤ N) :
    Clean realPrims hopping 0 [({ ctype := ct, freq := Omega, M := M, N := N, g := some g } : AddArgs ℝ)] ∧
    ((modes 0 [({ ctype := ct, freq := Omega, M := M, N := N, g := some g } : AddArgs ℝ)]).map (·.freq)).Nodup ∧
    ((∀ a ∈ [({ ctype := ct, freq := Omega, M := M, N := N, g := some g } : AddArgs ℝ)], a.ctype = "BondPeierls") ∨
      (∀ a ∈ [({ ctype := ct, freq := Omega, M := M, N := N, g := some g } : AddArgs ℝ)], a.ctype ≠ "BondPeierls")) := by
  have hc : Clean realPrims hopping 0 [({ ctype := ct, freq := Omega, M := M, N := N, g := some g } : AddArgs ℝ)] := by
    constructor <;> intro a ha <;> simp only [List.mem_cons, List.not_mem_nil, or_false] at ha <;> subst ha
    · exact ⟨hM, hN, by simp, by simp, by simp, Or.inl ⟨g, rfl, rfl⟩, by simp⟩
    · show Known ct
      unfold Known; tauto
    · rfl
    · simp [Defined]
  refine ⟨hc, ?_, ?_⟩
  · rw [modes_of_clean hc]; simp [modesAt]
  · by_cases h : ct = "BondPeierls"
    · exact Or.inl (by simpa using h)
    · exact Or.inr (by simpa using h)

theorem parts_one (hopping : ℝ) (ct : String) (Omega g : ℝ) (M N : ℤ) :
    parts realPrims hopping 0 [({ ctype := ct, freq := Omega, M := M, N := N, g := some g } : AddArgs ℝ)] =
      [⟨ct, Omega, M, N, g⟩] := by
  unfold parts
  rw [List.flatMap_cons, List.flatMap_nil, List.append_nil]
  unfold partsAt
  rw [if_neg (lt_irrefl _), strengthD_ok (g := g) (by simp [Hamiltonian.strength]), mul_one]

/-- The one-phonon model of a single call. -/
theorem one_call (σ : SetOrder) (hopping lattice : ℝ) (cap : Option Int) (hcap : ∀ c, cap = some c → 1 ≤ c)
    (ct : String) (hct : ct = "Holstein" ∨ ct = "EdwardsFermionBoson" ∨ ct = "Peierls" ∨ ct = "BondPeierls")
    (Omega g : ℝ) (M N : ℤ) (hM : 1 ≤ M) (hN : 1 ≤ N) :
    ∃ b, (Model.fromParameters hopping lattice 0 cap 1).adds realPrims
        [{ ctype := ct, freq := Omega, M := M, N := N, g := some g }] =
        .ok (blueprint hopping lattice 0 cap [⟨ct, Omega, M, N, g⟩]) ∧
      WellFormed (blueprint hopping lattice 0 cap [⟨ct, Omega, M, N, g⟩]) M ∧
      buildSystem σ (blueprint hopping lattice 0 cap [⟨ct, Omega, M, N, g⟩]) = .ok b := by
  obtain ⟨hc, hf, hb⟩ := clean_one (hopping := hopping) (Omega := Omega) (g := g) hct hM hN
  obtain ⟨m, b, h1, ⟨ae, h2⟩, h3⟩ := C16_assembled σ realPrims C42_names hopping lattice 0 cap hcap _ (by simp) hc hf hb
  have h0 := h1
  rw [fromParameters_blueprint hopping lattice 0 cap _ hc hf, parts_one] at h1
  cases h1
  have hae : ae = M := by
    have := h2.absExtent
    simp [Model.absExtent, blueprint] at this
    exact this.symm
  subst hae
  exact ⟨b, h0, h2, h3⟩

/-- **C72**. One call of any of the four coupling types at zero temperature with `phonon_number = 1`: for every
extent, cap, frequency, coupling, momentum, energy and broadening, both solvers return the Green's function with
the self-energy of second-order perturbation theory. -/
theorem C72_second_order (σ : SetOrder) (hopping lattice : ℝ)
    (hl : hopping = 0 ∨ (0 < hopping ∧ lattice = 1)) (cap : Option Int) (hcap : ∀ c, cap = some c → 1 ≤ c)
    (ct : String) (hct : ct = "Holstein" ∨ ct = "EdwardsFermionBoson" ∨ ct = "Peierls" ∨ ct = "BondPeierls")
    (Omega g : ℝ) (M : ℤ) (hM : 1 ≤ M) :
    ∃ m b, (Model.fromParameters hopping lattice 0 cap 1).adds realPrims
        [{ ctype := ct, freq := Omega, M := M, N := 1, g := some g }] = .ok m ∧
      buildSystem σ m = .ok b ∧
      ∀ k w eta : ℝ, 0 < eta → Gives m b ⟨k, w, eta⟩
        (secondOrder ct g hopping Omega (k * lattice) (w + eta * I)) := by
  obtain ⟨b, h1, h2, h3⟩ := one_call σ hopping lattice cap hcap ct hct Omega g M 1 hM le_rfl
  have hb := (clean_one (hopping := hopping) (Omega := Omega) (g := g) hct hM (le_refl (1 : ℤ))).2.2
  have hp := physical_assembled h1 hb hl
  refine ⟨_, b, h1, h3, fun k w eta heta => ?_⟩
  set m := blueprint hopping lattice 0 cap [⟨ct, Omega, M, 1, g⟩] with hm
  have hone := oneBoson_dense h2 h3 rfl rfl ⟨k, w, eta⟩
  have hterms : m.ham.terms = termsOf ct g 0 Omega := by
    simp [hm, blueprint, partTerms]
  have hself : oneSelf m ⟨k, w, eta⟩ = secondOrderSelf ct g hopping Omega (k * lattice) (w + eta * I) :=
    oneSelf_eq (m := m) rfl rfl hterms hct hl ⟨k, w, eta⟩ heta
  obtain ⟨-, G, -, -, -, -, -, hG⟩ := C22_nonsingular σ m M h2 b h3 hp ⟨k, w, eta⟩ heta
  refine gives_of_dense h2 h3 ?_
  rw [hG] at hone
  by_cases hz : 1 - realPhys.G0 k w m.latticeConstant eta m.ham.hopping * oneSelf m ⟨k, w, eta⟩ = 0
  · rw [if_pos hz] at hone; cases hone
  · rw [if_neg hz] at hone
    rw [hG, hone]
    congr 2
    rw [hself] at hz ⊢
    unfold secondOrder
    have hz0 : (w : ℂ) + eta * I + 2 * hopping * Real.cos (k * lattice) ≠ 0 :=
      cos_denom_ne (by simpa using heta) _ _
    have e : realPhys.G0 k w m.latticeConstant eta m.ham.hopping =
        1 / ((w : ℂ) + eta * I + 2 * hopping * Real.cos (k * lattice)) := by
      show (1 : ℂ) / ((w : ℂ) + I * eta + 2 * hopping * Real.cos (k * lattice)) = _
      rw [mul_comm I]
    simp only
    rw [e, dyson hz0]

/-! ### concrete cases -/

/-- The hypotheses are met by a BondPeierls model. -/
example (σ : SetOrder) : ∃ m b, (Model.fromParameters (1 : ℝ) 1 0 none 1).adds realPrims
      [{ ctype := "BondPeierls", freq := 2, M := 3, N := 1, g := some (1 / 2) }] = .ok m ∧ buildSystem σ m = .ok b ∧
    ∀ k w eta : ℝ, 0 < eta → Gives m b ⟨k, w, eta⟩ (secondOrder "BondPeierls" (1 / 2) 1 2 (k * 1) (w + eta * I)) :=
  C72_second_order σ 1 1 (Or.inr (by norm_num)) none (by simp) "BondPeierls" (by simp) 2 (1 / 2) 3 (by norm_num)

/-- Without coupling it is the free propagator. -/
example (ct : String) (t Omega k : ℝ) (z : ℂ) : secondOrder ct 0 t Omega k z = 1 / (z + 2 * t * Real.cos k) := by
  have : ∀ q, vertex ct 0 k q = 0 := by
    intro q; unfold vertex; split_ifs <;> simp
  simp [secondOrder, secondOrderSelf, this]

/-- For a Holstein model it is the first level of the momentum average (C68), whatever the extent. -/
example (g t Omega k : ℝ) (z : ℂ) : secondOrder "Holstein" g t Omega k z =
    1 / (z + 2 * t * Real.cos k - g ^ 2 * localG t (z - Omega)) := by
  have : ∀ q, vertex "Holstein" g k q = g := by intro q; simp [vertex]
  unfold secondOrder secondOrderSelf localG
  simp only [this]
  congr 2
  have e : ∀ q : ℝ, ((g ^ 2 : ℝ) : ℂ) / (z - Omega + 2 * t * Real.cos q) =
      (g ^ 2 : ℂ) * (1 / (z - Omega + 2 * t * Real.cos q)) := by
    intro q; push_cast; ring
  simp only [e]
  rw [intervalIntegral.integral_const_mul]
  ring

end GGCE.Props
