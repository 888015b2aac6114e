import Verif.Proofs.Negative
import Verif.Props.SecondOrder
import Verif.Props.Operator
import Verif.Props.Stability

/-!
Property C123: what a negative broadening means. Without hopping it gives the advanced Green's function, the complex
conjugate of the retarded one; with hopping and a coupling it does not.
-/

set_option linter.unusedSectionVars false

namespace GGCE.Props
open Spec Arr Complex
open scoped ComplexConjugate

/-- **C123**, the part that holds: models without hopping. The number returned for `-eta` is the complex conjugate of the
one for `eta`. Missing: hopping, see `C123_hopping_fails`. -/
theorem C123_advanced_partial (σ : SetOrder) (lattice T : ℝ) (cap : Option Int) (hcap : ∀ c, cap = some c → 1 ≤ c)
    (as : List (AddArgs ℝ)) (hne : as ≠ []) (hc : Clean realPrims 0 T as) (hf : ((modes T as).map (·.freq)).Nodup)
    (hb : (∀ a ∈ as, a.ctype = "BondPeierls") ∨ (∀ a ∈ as, a.ctype ≠ "BondPeierls")) :
    ∃ m b, (Model.fromParameters 0 lattice T cap 1).adds realPrims as = .ok m ∧ buildSystem σ m = .ok b ∧
      ∀ k w eta : ℝ, 0 < eta → ∃ G, Gives m b ⟨k, w, eta⟩ G ∧ Gives m b ⟨k, w, -eta⟩ (conj G) := by
  obtain ⟨m, b, h1, ⟨ae, h2⟩, h3⟩ := C16_assembled σ realPrims C42_names 0 lattice T cap hcap as hne hc hf hb
  refine ⟨m, b, h1, h3, fun k w eta heta => ?_⟩
  have hp := physical_assembled h1 hb (Or.inl rfl)
  have h0 : m.ham.hopping = 0 := by
    rw [fromParameters_blueprint 0 lattice T cap as hc hf] at h1
    cases h1
    rfl
  obtain ⟨Ψ, -, -, g1, g2⟩ := C55_exact σ m ae h2 b h3 hp ⟨k, w, eta⟩ heta
  obtain ⟨Ψ', -, -, g1', g2'⟩ := C55_exact σ m ae h2 b h3 hp ⟨-k, w, eta⟩ heta
  refine ⟨Ψ 0 0, ⟨g1, g2⟩, ?_⟩
  have hsym := C57_symmetric σ m ae h2 b h3 hp k w eta heta _ _ (returned_of_gives ⟨g1, g2⟩) (returned_of_gives ⟨g1', g2'⟩)
  rw [← hsym]
  have hr := ready_of_built h2 h3
  refine gives_of_dense h2 h3 ?_
  have hcoef := fun t => coefV_conj h0 (-k) w eta t
  rw [neg_neg] at hcoef
  exact hr.dense_conj (total_pos m ae h2) hcoef (by
    show G0R _ _ _ _ _ = conj (G0R _ _ _ _ _)
    simp [G0R, h0]) g2'

/-- C123 fails with hopping. A Holstein model with one phonon, any positive hopping, any coupling other than zero, any
frequency and extent: at no momentum and frequency is the number returned for `-eta` the complex conjugate of the one for
`eta`. The code takes the principal branch of the square root in `g0_delta_omega`, so that the self-energy has the wrong
sign. -/
theorem C123_hopping_fails (σ : SetOrder) (hopping : ℝ) (ht : 0 < hopping) (Omega g : ℝ) (hg : g ≠ 0) (M : ℤ) (hM : 1 ≤ M) :
    ∃ m b, (Model.fromParameters hopping 1 0 none 1).adds realPrims
        [{ ctype := "Holstein", freq := Omega, M := M, N := 1, g := some g }] = .ok m ∧ buildSystem σ m = .ok b ∧
      ∀ k w eta : ℝ, 0 < eta → ∃ G, Gives m b ⟨k, w, eta⟩ G ∧
        denseSolve realPhys m ⟨k, w, -eta⟩ (localBasis b.eqs) b.eqs ≠ .ok (some (conj G)) := by
  obtain ⟨b, h1, h2, h3⟩ := one_call σ hopping 1 none (by simp) "Holstein" (Or.inl rfl) Omega g M 1 hM le_rfl
  have hp := physical_assembled h1 (Or.inr (by simp)) (Or.inr ⟨ht, rfl⟩)
  refine ⟨_, b, h1, h3, fun k w eta heta => ?_⟩
  set m := blueprint hopping 1 0 none [⟨"Holstein", Omega, M, 1, g⟩] with hm
  obtain ⟨Ψ, -, -, g1, g2⟩ := C55_exact σ m M h2 b h3 hp ⟨k, w, eta⟩ heta
  refine ⟨Ψ 0 0, ⟨g1, g2⟩, fun hcon => ?_⟩
  have hone := oneBoson_dense h2 h3 rfl rfl ⟨k, w, eta⟩
  have hone' := oneBoson_dense h2 h3 rfl rfl ⟨k, w, -eta⟩
  have hterms : m.ham.terms = termsOf "Holstein" g 0 Omega := by
    simp [hm, blueprint, partTerms]
  rw [g2] at hone
  rw [hcon] at hone'
  have hs : ∀ p : Point ℝ, oneSelf m p = (g : ℂ) ^ 2 * g0R 0 (p.w - Omega) 1 p.eta hopping := by
    intro p
    rw [oneSelf_holstein (m := m) rfl rfl hterms p]
    simp [hm, blueprint, realPhys]
  rw [hs] at hone hone'
  obtain ⟨q1, q2⟩ := g0_negative ht (w - Omega) 1 heta
  have hG0 : G0R k w 1 (-eta) hopping = conj (G0R k w 1 eta hopping) := by
    unfold G0R
    simp only [map_div₀, map_one, map_add, map_mul, Complex.conj_ofReal, Complex.conj_I, map_ofNat, Complex.ofReal_neg]
    congr 1
    ring
  have hG0' : G0R k w 1 eta hopping ≠ 0 := by
    unfold G0R
    refine one_div_ne_zero (fun h => ?_)
    have := congrArg Complex.im h
    simp at this
    exact heta.ne' this
  have r1 : realPhys.G0 k w m.latticeConstant eta m.ham.hopping = G0R k w 1 eta hopping := rfl
  have r2 : realPhys.G0 k w m.latticeConstant (-eta) m.ham.hopping = G0R k w 1 (-eta) hopping := rfl
  simp only [] at hone hone'
  rw [r1] at hone
  rw [r2, hG0, q1] at hone'
  generalize G0R k w 1 eta hopping = x at hone hone' hG0'
  generalize g0R 0 (w - Omega) 1 eta hopping = y at hone hone' q2
  split at hone
  · cases hone
  · rename_i hd
    split at hone'
    · cases hone'
    · rename_i hd'
      have e1 := Option.some.inj (Except.ok.inj hone)
      have e2 := Option.some.inj (Except.ok.inj hone')
      rw [e1, map_div₀] at e2
      simp only [map_sub, map_one, map_mul, map_pow, Complex.conj_ofReal] at e2
      have hx : conj x ≠ 0 := by simpa using hG0'
      have hd2 : (1 : ℂ) - conj x * ((g : ℂ) ^ 2 * conj y) ≠ 0 := by
        intro h
        apply hd
        have := congrArg conj h
        simpa using this
      rw [div_eq_div_iff hd2 hd'] at e2
      have e3 := mul_left_cancel₀ hx e2
      have e4 : conj x * ((g : ℂ) ^ 2 * conj y) = 0 := by linear_combination e3 / 2
      have hgc : (g : ℂ) ≠ 0 := by exact_mod_cast hg
      have hy : conj y ≠ 0 := by simpa using q2
      exact absurd e4 (mul_ne_zero hx (mul_ne_zero (pow_ne_zero 2 hgc) hy))

/-! ### the hypotheses are met -/

/-- a Holstein model without hopping -/
example (σ : SetOrder) : ∃ m b, (Model.fromParameters (0 : ℝ) 1 0 none 1).adds realPrims
      [{ ctype := "Holstein", freq := 2, M := 2, N := 3, g := some 1 }] = .ok m ∧ buildSystem σ m = .ok b ∧
      ∃ G, Gives m b ⟨1 / 2, -3, 1 / 10⟩ G ∧ Gives m b ⟨1 / 2, -3, -(1 / 10)⟩ (conj G) := by
  obtain ⟨hc, hf, hb⟩ := clean_one (hopping := 0) (ct := "Holstein") (Omega := 2) (g := 1) (M := 2) (N := 3) (Or.inl rfl)
    (by norm_num) (by norm_num)
  obtain ⟨m, b, h1, h2, h3⟩ := C123_advanced_partial σ 1 0 none (by simp) _ (by simp) hc hf hb
  exact ⟨m, b, h1, h2, h3 _ _ _ (by norm_num)⟩

end GGCE.Props
