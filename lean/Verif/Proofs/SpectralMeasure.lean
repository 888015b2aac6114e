import Verif.Proofs.Hilbert
import Mathlib.Analysis.InnerProductSpace.StarOrder
import Mathlib.Analysis.CStarAlgebra.ContinuousFunctionalCalculus.Basic
import Mathlib.Analysis.CStarAlgebra.ContinuousFunctionalCalculus.Instances
import Mathlib.Analysis.CStarAlgebra.ContinuousLinearMap
import Mathlib.MeasureTheory.Integral.RieszMarkovKakutani.Real

/-! The spectral measure of a bounded self-adjoint operator in a state. -/

set_option linter.unusedSectionVars false

namespace GGCE
open Complex MeasureTheory CompactlySupported CompactlySupportedContinuousMap
open scoped InnerProductSpace

variable {E : Type*} [NormedAddCommGroup E] [InnerProductSpace ℂ E] [CompleteSpace E]

theorem spectral_compact {H : E →L[ℂ] E} : CompactSpace (spectrum ℝ H) :=
  ContinuousFunctionalCalculus.compactSpace_spectrum (p := IsSelfAdjoint) H

/-- the average of a function of the operator in the state -/
noncomputable def stateAverage {H : E →L[ℂ] E} (hH : IsSelfAdjoint H) (v : E) :
    C_c(spectrum ℝ H, ℝ) →ₚ[ℝ] ℝ :=
  PositiveLinearMap.mk₀
    { toFun := fun f => (⟪v, cfcHom hH (f : C(spectrum ℝ H, ℝ)) v⟫_ℂ).re
      map_add' := fun f g => by
        have : cfcHom hH ((f + g : C_c(spectrum ℝ H, ℝ)) : C(spectrum ℝ H, ℝ)) =
            cfcHom hH (f : C(spectrum ℝ H, ℝ)) + cfcHom hH (g : C(spectrum ℝ H, ℝ)) := by
          rw [← map_add]; rfl
        rw [this, ContinuousLinearMap.add_apply, inner_add_right, Complex.add_re]
      map_smul' := fun c f => by
        have : cfcHom hH ((c • f : C_c(spectrum ℝ H, ℝ)) : C(spectrum ℝ H, ℝ)) =
            c • cfcHom hH (f : C(spectrum ℝ H, ℝ)) := by
          rw [← map_smul]; rfl
        rw [this, ContinuousLinearMap.smul_apply, RingHom.id_apply]
        rw [← Complex.coe_smul, inner_smul_right, Complex.re_ofReal_mul, smul_eq_mul] }
    (fun f hf => by
      have h1 : 0 ≤ cfcHom hH (f : C(spectrum ℝ H, ℝ)) := (cfcHom_nonneg_iff hH).2 (fun x => hf x)
      have h2 := (ContinuousLinearMap.nonneg_iff_isPositive _).1 h1
      exact h2.re_inner_nonneg_right v)

theorem exists_spectral {H : E →L[ℂ] E} (hH : IsSelfAdjoint H) (v : E) :
    ∃ μ : Measure ℝ, IsFiniteMeasure μ ∧ ∀ g : ℝ → ℝ, Continuous g →
      Integrable g μ ∧ ∫ x, g x ∂μ = (⟪v, cfc g H v⟫_ℂ).re := by
  haveI : CompactSpace (spectrum ℝ H) := spectral_compact
  set ν := RealRMK.rieszMeasure (stateAverage hH v) with hν
  refine ⟨ν.map Subtype.val, inferInstance, fun g hg => ?_⟩
  have hgc : Continuous (fun x : spectrum ℝ H => g x) := hg.comp continuous_subtype_val
  have h1 : Integrable (fun x : spectrum ℝ H => g x) ν := by
    refine hgc.integrable_of_hasCompactSupport ?_
    exact HasCompactSupport.of_compactSpace _
  constructor
  · rw [integrable_map_measure hg.aestronglyMeasurable measurable_subtype_coe.aemeasurable]
    exact h1
  · rw [integral_map measurable_subtype_coe.aemeasurable hg.aestronglyMeasurable]
    set f : C_c(spectrum ℝ H, ℝ) := ⟨⟨fun x => g x, hgc⟩, HasCompactSupport.of_compactSpace _⟩
    have := RealRMK.integral_rieszMeasure (stateAverage hH v) f
    rw [show ∫ x : spectrum ℝ H, g x ∂ν = ∫ x, f x ∂ν from rfl, this]
    rw [cfc_apply g H hH hg.continuousOn]
    rfl

theorem cfc_resolvent {H : E →L[ℂ] E} (hH : IsSelfAdjoint H) (v : E) {z : ℂ} (hz : z.im ≠ 0) :
    (⟪v, cfc (fun x : ℝ => (1 / (z - x)).re) H v⟫_ℂ).re = (green H v z).re ∧
      (⟪v, cfc (fun x : ℝ => (1 / (z - x)).im) H v⟫_ℂ).re = (green H v z).im := by
  have hd : ∀ x : ℝ, z - x ≠ 0 := fun x q => by
    have := congrArg Complex.im q
    simp at this
    exact hz this
  have hc : Continuous (fun x : ℝ => 1 / (z - x)) := by
    refine continuous_const.div (by fun_prop) hd
  set a : ℝ → ℝ := fun x => (1 / (z - x)).re with ha
  set b : ℝ → ℝ := fun x => (1 / (z - x)).im with hb
  have hac : Continuous a := Complex.continuous_re.comp hc
  have hbc : Continuous b := Complex.continuous_im.comp hc
  have key : ∀ x : ℝ, (z.re - x) * a x - z.im * b x = 1 ∧ (z.re - x) * b x + z.im * a x = 0 := by
    intro x
    have h : (z - x) * (1 / (z - x)) = 1 := mul_one_div_cancel (hd x)
    have h1 := congrArg Complex.re h
    have h2 := congrArg Complex.im h
    rw [Complex.mul_re] at h1
    rw [Complex.mul_im] at h2
    simp only [Complex.sub_re, Complex.sub_im, Complex.ofReal_re, Complex.ofReal_im, sub_zero, Complex.one_re,
      Complex.one_im] at h1 h2
    exact ⟨h1, h2⟩
  set A := cfc a H
  set B := cfc b H
  have hHr : ∀ f : ℝ → ℝ, Continuous f → H * cfc f H = cfc (fun x => x * f x) H := by
    intro f hf
    have := cfc_mul (fun x : ℝ => x) f H (by fun_prop) hf.continuousOn
    rw [this, cfc_id' ℝ H hH]
  have e1 : (z.re : ℂ) • A - H * A - (z.im : ℂ) • B = 1 := by
    rw [hHr a hac, Complex.coe_smul, Complex.coe_smul, ← cfc_smul z.re a H hac.continuousOn,
      ← cfc_smul z.im b H hbc.continuousOn, ← cfc_sub _ _ H (by fun_prop) (by fun_prop), ← cfc_sub _ _ H (by fun_prop) (by fun_prop)]
    rw [← cfc_one ℝ H hH]
    congr 1
    funext x
    have := (key x).1
    simp only [smul_eq_mul, Pi.one_apply]
    linarith
  have e2 : (z.re : ℂ) • B - H * B + (z.im : ℂ) • A = 0 := by
    rw [hHr b hbc, Complex.coe_smul, Complex.coe_smul, ← cfc_smul z.re b H hbc.continuousOn,
      ← cfc_smul z.im a H hac.continuousOn, ← cfc_sub _ _ H (by fun_prop) (by fun_prop), ← cfc_add H _ _ (by fun_prop) (by fun_prop)]
    rw [← cfc_zero ℝ H]
    congr 1
    funext x
    have := (key x).2
    simp only [smul_eq_mul, Pi.zero_apply]
    linarith
  have hsol : z • (A v + I • B v) - H (A v + I • B v) = v := by
    have h1 := congrArg (fun X : E →L[ℂ] E => X v) e1
    have h2 := congrArg (fun X : E →L[ℂ] E => X v) e2
    simp only [ContinuousLinearMap.sub_apply, ContinuousLinearMap.add_apply, ContinuousLinearMap.smul_apply,
      ContinuousLinearMap.mul_apply, ContinuousLinearMap.one_apply, ContinuousLinearMap.zero_apply] at h1 h2
    rw [map_add, map_smul]
    conv_rhs => rw [← add_zero v, ← h1, ← smul_zero I, ← h2]
    conv_lhs => rw [show z = z.re + z.im * I from (Complex.re_add_im z).symm]
    simp only [smul_add, smul_sub, add_smul, smul_smul, add_mul]
    have : (z.im * I * I : ℂ) = -z.im := by rw [mul_assoc, Complex.I_mul_I]; ring
    rw [this, neg_smul, mul_comm I (z.re : ℂ), mul_comm I (z.im : ℂ)]
    abel
  have hr := resolvent_unique (mem_resolventSet_of_im hH hz) hsol
  have hg : green H v z = ⟪v, A v⟫_ℂ + I * ⟪v, B v⟫_ℂ := by
    unfold green
    rw [← hr, inner_add_right, inner_smul_right]
  have iA : (⟪v, A v⟫_ℂ).im = 0 := inner_real (cfc_predicate a H) v
  have iB : (⟪v, B v⟫_ℂ).im = 0 := inner_real (cfc_predicate b H) v
  rw [hg]
  simp [iA, iB]

/-- The spectral measure: its moments are the averages of the powers of the operator, and its Stieltjes transform is the
matrix element of the resolvent. -/
theorem spectral_measure {H : E →L[ℂ] E} (hH : IsSelfAdjoint H) {v : E} (hv : ‖v‖ = 1) :
    ∃ μ : Measure ℝ, IsProbabilityMeasure μ ∧
      (∀ j : ℕ, Integrable (fun x : ℝ => x ^ j) μ ∧ ((∫ x, x ^ j ∂μ : ℝ) : ℂ) = ⟪v, (H ^ j) v⟫_ℂ) ∧
      ∀ z : ℂ, z.im ≠ 0 → ∫ x : ℝ, 1 / (z - x) ∂μ = green H v z := by
  obtain ⟨μ, hf, h⟩ := exists_spectral hH v
  have hmom : ∀ j : ℕ, Integrable (fun x : ℝ => x ^ j) μ ∧ ((∫ x, x ^ j ∂μ : ℝ) : ℂ) = ⟪v, (H ^ j) v⟫_ℂ := by
    intro j
    obtain ⟨h1, h2⟩ := h (fun x => x ^ j) (by fun_prop)
    refine ⟨h1, ?_⟩
    rw [h2, cfc_pow_id H j hH]
    apply Complex.ext
    · simp
    · simp only [Complex.ofReal_im]
      exact (inner_real (hH.pow j) v).symm
  refine ⟨μ, ⟨?_⟩, hmom, fun z hz => ?_⟩
  · have h0 := (hmom 0).2
    simp only [pow_zero, integral_const, smul_eq_mul, mul_one, ContinuousLinearMap.one_apply] at h0
    rw [inner_self_eq_norm_sq_to_K, hv] at h0
    have h1 : μ.real Set.univ = 1 := by
      have := congrArg Complex.re h0
      simpa using this
    rwa [Measure.real, ENNReal.toReal_eq_one_iff] at h1
  · have hd : ∀ x : ℝ, z - x ≠ 0 := fun x q => by
      have := congrArg Complex.im q
      simp at this
      exact hz this
    have hc : Continuous (fun x : ℝ => 1 / (z - x)) := continuous_const.div (by fun_prop) hd
    obtain ⟨a1, a2⟩ := h (fun x : ℝ => (1 / (z - x)).re) (Complex.continuous_re.comp hc)
    obtain ⟨b1, b2⟩ := h (fun x : ℝ => (1 / (z - x)).im) (Complex.continuous_im.comp hc)
    obtain ⟨c1, c2⟩ := cfc_resolvent hH v hz
    have hi : Integrable (fun x : ℝ => 1 / (z - x)) μ := by
      have e : (fun x : ℝ => 1 / (z - x)) = fun x : ℝ => (((1 / (z - x)).re : ℝ) : ℂ) + (((1 / (z - x)).im : ℝ) : ℂ) * I := by
        funext x; exact (Complex.re_add_im _).symm
      rw [e]
      exact a1.ofReal.add (b1.ofReal.mul_const I)
    apply Complex.ext
    · rw [← c1, ← a2]; exact (integral_re hi).symm
    · rw [← c2, ← b2]; exact (integral_im hi).symm

end GGCE
