import Verif.Proofs.Hilbert
import Mathlib.Analysis.Complex.CauchyIntegral
import Mathlib.MeasureTheory.Integral.IntegralEqImproper
import Mathlib.Analysis.SpecialFunctions.ImproperIntegrals

/-! Integrals of the Green's function along a line above the real axis. -/

namespace GGCE
open Complex ComplexConjugate Filter Topology MeasureTheory
open scoped InnerProductSpace

/-- a function analytic above the real axis and decaying like `1/z²` integrates to zero -/
theorem line_tendsto {φ : ℂ → ℂ} {eta C : ℝ} (heta : 0 < eta) (hd : ∀ z : ℂ, eta ≤ z.im → DifferentiableAt ℂ φ z)
    (hC : ∀ z : ℂ, eta ≤ z.im → ‖φ z‖ * ‖z‖ ^ 2 ≤ C) :
    Tendsto (fun L : ℝ => ∫ x in (-L)..L, φ (x + eta * I)) atTop (𝓝 0) := by
  have hC0 : 0 ≤ C := le_trans (by positivity) (hC (eta * I) (by simp))
  have hb : ∀ L : ℝ, 0 < L → ∀ z : ℂ, eta ≤ z.im → L ≤ ‖z‖ → ‖φ z‖ ≤ C / L ^ 2 := by
    intro L hL z hz hLz
    rw [le_div_iff₀ (by positivity)]
    refine le_trans ?_ (hC z hz)
    exact mul_le_mul_of_nonneg_left (pow_le_pow_left₀ hL.le hLz 2) (norm_nonneg _)
  have key : ∀ L : ℝ, 0 < L → ‖∫ x in (-L)..L, φ (x + eta * I)‖ ≤ 4 * C / L := by
    intro L hL
    have hrect := Complex.integral_boundary_rect_eq_zero_of_differentiableOn φ (-L + eta * I) (L + (eta + L) * I) (by
      intro z hz
      refine (hd z ?_).differentiableWithinAt
      have h2 := hz.2
      simp only [add_im, neg_im, ofReal_im, neg_zero, mul_im, ofReal_re, I_im, mul_one, I_re, mul_zero, add_zero,
        zero_add, add_re, Set.mem_preimage] at h2
      rw [Set.uIcc_of_le (by linarith)] at h2
      exact h2.1)
    simp only [add_re, neg_re, ofReal_re, mul_re, I_re, mul_zero, ofReal_im, I_im, mul_one, sub_self, add_zero,
      add_im, neg_im, neg_zero, mul_im, zero_add] at hrect
    have h1 : ∫ x in (-L)..L, φ (x + eta * I) = (∫ x in (-L)..L, φ (x + (eta + L : ℝ) * I)) -
        I • (∫ y in eta..(eta + L), φ ((L : ℝ) + y * I)) + I • (∫ y in eta..(eta + L), φ ((-L : ℝ) + y * I)) := by
      linear_combination hrect
    have e1 : ‖∫ x in (-L)..L, φ (x + (eta + L : ℝ) * I)‖ ≤ C / L ^ 2 * |L - -L| := by
      refine intervalIntegral.norm_integral_le_of_norm_le_const (fun x _ => hb L hL _ ?_ ?_)
      · simp [hL.le]
      · refine le_trans ?_ (Complex.abs_im_le_norm _)
        simp only [add_im, ofReal_im, mul_im, ofReal_re, I_im, mul_one, I_re, mul_zero, add_zero, zero_add]
        rw [abs_of_pos (by linarith)]; linarith
    have e2 : ‖∫ y in eta..(eta + L), φ ((L : ℝ) + y * I)‖ ≤ C / L ^ 2 * |eta + L - eta| := by
      refine intervalIntegral.norm_integral_le_of_norm_le_const (fun y hy => hb L hL _ ?_ ?_)
      · rw [Set.uIoc_of_le (by linarith)] at hy
        simpa using hy.1.le
      · refine le_trans ?_ (Complex.abs_re_le_norm _)
        simp [abs_of_pos hL]
    have e3 : ‖∫ y in eta..(eta + L), φ ((-L : ℝ) + y * I)‖ ≤ C / L ^ 2 * |eta + L - eta| := by
      refine intervalIntegral.norm_integral_le_of_norm_le_const (fun y hy => hb L hL _ ?_ ?_)
      · rw [Set.uIoc_of_le (by linarith)] at hy
        simpa using hy.1.le
      · refine le_trans ?_ (Complex.abs_re_le_norm _)
        simp [abs_of_pos hL]
    have a1 : |L - -L| = 2 * L := by rw [abs_of_pos (by linarith)]; ring
    have a2 : |eta + L - eta| = L := by rw [abs_of_pos (by linarith)]; ring
    rw [a1] at e1
    rw [a2] at e2 e3
    rw [h1]
    refine (norm_add_le _ _).trans ?_
    refine (add_le_add (norm_sub_le _ _) le_rfl).trans ?_
    rw [norm_smul, norm_smul, Complex.norm_I, one_mul, one_mul]
    have : C / L ^ 2 * (2 * L) + C / L ^ 2 * L + C / L ^ 2 * L = 4 * C / L := by field_simp; ring
    linarith
  rw [tendsto_zero_iff_norm_tendsto_zero]
  refine squeeze_zero' (Eventually.of_forall (fun _ => norm_nonneg _))
    ((eventually_gt_atTop 0).mono key) ?_
  exact tendsto_const_nhds.div_atTop tendsto_id

theorem line_integrable {φ : ℂ → ℂ} {eta C : ℝ} (heta : 0 < eta) (hd : ∀ z : ℂ, eta ≤ z.im → DifferentiableAt ℂ φ z)
    (hC : ∀ z : ℂ, eta ≤ z.im → ‖φ z‖ * ‖z‖ ^ 2 ≤ C) :
    Integrable (fun x : ℝ => φ (x + eta * I)) := by
  have hC0 : 0 ≤ C := le_trans (by positivity) (hC (eta * I) (by simp))
  have hcont : Continuous (fun x : ℝ => φ (x + eta * I)) := by
    rw [continuous_iff_continuousAt]
    intro x
    exact ContinuousAt.comp (f := fun x : ℝ => (x : ℂ) + eta * I) (g := φ)
      (hd _ (by simp)).continuousAt (by fun_prop)
  have hmaj : Integrable (fun x : ℝ => C / eta ^ 2 * (1 + (x / eta) ^ 2)⁻¹) :=
    (integrable_inv_one_add_sq.comp_div heta.ne').const_mul _
  refine hmaj.mono' hcont.aestronglyMeasurable (Eventually.of_forall (fun x => ?_))
  have h1 := hC (x + eta * I) (by simp)
  have h2 : ‖(x : ℂ) + eta * I‖ ^ 2 = eta ^ 2 * (1 + (x / eta) ^ 2) := by
    rw [Complex.sq_norm, Complex.normSq_add_mul_I]
    field_simp
    ring
  rw [h2] at h1
  have h3 : 0 < eta ^ 2 * (1 + (x / eta) ^ 2) := by positivity
  have h4 : C / eta ^ 2 * (1 + (x / eta) ^ 2)⁻¹ = C / (eta ^ 2 * (1 + (x / eta) ^ 2)) := by field_simp
  rw [h4, le_div_iff₀ h3]
  exact h1

theorem line_integral {φ : ℂ → ℂ} {eta C : ℝ} (heta : 0 < eta) (hd : ∀ z : ℂ, eta ≤ z.im → DifferentiableAt ℂ φ z)
    (hC : ∀ z : ℂ, eta ≤ z.im → ‖φ z‖ * ‖z‖ ^ 2 ≤ C) : ∫ x : ℝ, φ (x + eta * I) = 0 := by
  have h1 := intervalIntegral_tendsto_integral (line_integrable heta hd hC) tendsto_neg_atTop_atBot tendsto_id
  exact tendsto_nhds_unique h1 (line_tendsto heta hd hC)

/-! ### the free pole -/

theorem pole_im (x eta : ℝ) : (1 / ((x : ℂ) + eta * I)).im = -(eta / (x ^ 2 + eta ^ 2)) := by
  rw [one_div, Complex.inv_im, Complex.normSq_add_mul_I]
  simp
  ring

theorem pole_re (x eta : ℝ) : (1 / ((x : ℂ) + eta * I)).re = x / (x ^ 2 + eta ^ 2) := by
  rw [one_div, Complex.inv_re, Complex.normSq_add_mul_I]
  simp

theorem pole_eq {eta : ℝ} (heta : 0 < eta) (x : ℝ) : eta / (x ^ 2 + eta ^ 2) = eta⁻¹ * (1 + (x / eta) ^ 2)⁻¹ := by
  have : 0 < x ^ 2 + eta ^ 2 := by positivity
  field_simp
  ring

theorem pole_integrable {eta : ℝ} (heta : 0 < eta) : Integrable (fun x : ℝ => (1 / ((x : ℂ) + eta * I)).im) := by
  simp only [pole_im, pole_eq heta]
  exact ((integrable_inv_one_add_sq.comp_div heta.ne').const_mul _).neg

theorem pole_integral {eta : ℝ} (heta : 0 < eta) : ∫ x : ℝ, (1 / ((x : ℂ) + eta * I)).im = -Real.pi := by
  simp only [pole_im, pole_eq heta]
  rw [integral_neg, integral_const_mul, Measure.integral_comp_div (fun y : ℝ => (1 + y ^ 2)⁻¹) eta,
    integral_univ_inv_one_add_sq, abs_of_pos heta, smul_eq_mul]
  field_simp

theorem pole_odd (L eta : ℝ) : ∫ x in (-L)..L, (1 / ((x : ℂ) + eta * I)).re = 0 := by
  simp only [pole_re]
  have h1 := intervalIntegral.integral_comp_neg (a := -L) (b := L) (fun x : ℝ => x / (x ^ 2 + eta ^ 2))
  have h2 : ∫ x in (-L)..L, -x / ((-x) ^ 2 + eta ^ 2) = -∫ x in (-L)..L, x / (x ^ 2 + eta ^ 2) := by
    rw [← intervalIntegral.integral_neg]
    congr 1
    funext x
    rw [neg_sq, neg_div]
  rw [h2, neg_neg] at h1
  linarith

/-! ### moments -/

variable {E : Type*} [NormedAddCommGroup E] [InnerProductSpace ℂ E] [CompleteSpace E]

theorem ne_zero_of_im {z : ℂ} (hz : 0 < z.im) : z ≠ 0 := by
  rintro rfl; simp at hz

theorem remainder_diff {H : E →L[ℂ] E} (hH : IsSelfAdjoint H) (v : E) (z : ℂ) (hz : 0 < z.im) :
    DifferentiableAt ℂ (fun z => green H v z - 1 / z) z :=
  (green_differentiable hH v hz.ne').sub ((differentiableAt_const _).div differentiableAt_id (ne_zero_of_im hz))

theorem remainder_bound {H : E →L[ℂ] E} (hH : IsSelfAdjoint H) {v : E} (hv : ‖v‖ = 1) {eta : ℝ} (heta : 0 < eta) (z : ℂ)
    (hz : eta ≤ z.im) : ‖green H v z - 1 / z‖ * ‖z‖ ^ 2 ≤ ‖⟪v, H v⟫_ℂ‖ + ‖H (H v)‖ * ‖v‖ / eta := by
  have hz0 : 0 < z.im := heta.trans_le hz
  have hne := ne_zero_of_im hz0
  rw [← norm_pow, ← norm_mul]
  have : (green H v z - 1 / z) * z ^ 2 = z * (z * green H v z - 1) := by field_simp
  rw [this, green_first hH hv hz0.ne']
  refine (norm_add_le _ _).trans (add_le_add le_rfl ?_)
  refine (norm_inner_resolvent hH _ _ hz0.ne').trans ?_
  rw [abs_of_pos hz0]
  exact div_le_div_of_nonneg_left (by positivity) heta hz

/-- the imaginary part of the Green's function along a line is minus `π` in total -/
theorem green_weight {H : E →L[ℂ] E} (hH : IsSelfAdjoint H) {v : E} (hv : ‖v‖ = 1) {eta : ℝ} (heta : 0 < eta) :
    Integrable (fun x : ℝ => (green H v (x + eta * I)).im) ∧ ∫ x : ℝ, (green H v (x + eta * I)).im = -Real.pi := by
  have h1 := line_integrable heta (fun z hz => remainder_diff hH v z (heta.trans_le hz)) (remainder_bound hH hv heta)
  have h2 := line_integral heta (fun z hz => remainder_diff hH v z (heta.trans_le hz)) (remainder_bound hH hv heta)
  have h3 : Integrable (fun x : ℝ => (green H v (x + eta * I) - 1 / ((x : ℂ) + eta * I)).im) := h1.im
  have h4 : ∫ x : ℝ, (green H v (x + eta * I) - 1 / ((x : ℂ) + eta * I)).im = 0 := by
    have := integral_im h1
    rw [h2] at this
    exact this
  have e : (fun x : ℝ => (green H v (x + eta * I)).im) =
      fun x : ℝ => (green H v (x + eta * I) - 1 / ((x : ℂ) + eta * I)).im + (1 / ((x : ℂ) + eta * I)).im := by
    funext x; rw [Complex.sub_im]; ring
  rw [e]
  refine ⟨h3.add (pole_integrable heta), ?_⟩
  rw [integral_add h3 (pole_integrable heta), h4, pole_integral heta, zero_add]

theorem first_diff {H : E →L[ℂ] E} (hH : IsSelfAdjoint H) (v : E) (ε : ℂ) (z : ℂ) (hz : 0 < z.im) :
    DifferentiableAt ℂ (fun z => z * green H v z - 1 - ε * (1 / z)) z :=
  ((differentiableAt_id.mul (green_differentiable hH v hz.ne')).sub_const 1).sub
    (((differentiableAt_const _).div differentiableAt_id (ne_zero_of_im hz)).const_mul ε)

theorem first_bound {H : E →L[ℂ] E} (hH : IsSelfAdjoint H) {v : E} (hv : ‖v‖ = 1) {eta : ℝ} (heta : 0 < eta) (z : ℂ)
    (hz : eta ≤ z.im) : ‖z * green H v z - 1 - ⟪v, H v⟫_ℂ * (1 / z)‖ * ‖z‖ ^ 2 ≤
      ‖⟪H (H v), v⟫_ℂ‖ + ‖H (H (H v))‖ * ‖v‖ / eta := by
  have hz0 : 0 < z.im := heta.trans_le hz
  have hne := ne_zero_of_im hz0
  rw [← norm_pow, ← norm_mul]
  have : (z * green H v z - 1 - ⟪v, H v⟫_ℂ * (1 / z)) * z ^ 2 = z * (z * (z * green H v z - 1) - ⟪v, H v⟫_ℂ) := by
    field_simp
  rw [this, green_second hH hv hz0.ne']
  refine (norm_add_le _ _).trans (add_le_add le_rfl ?_)
  refine (norm_inner_resolvent hH _ _ hz0.ne').trans ?_
  rw [abs_of_pos hz0]
  exact div_le_div_of_nonneg_left (by positivity) heta hz

/-- the first moment along a line is the mean energy -/
theorem green_moment {H : E →L[ℂ] E} (hH : IsSelfAdjoint H) {v : E} (hv : ‖v‖ = 1) {eta ε : ℝ} (heta : 0 < eta)
    (hε : ⟪v, H v⟫_ℂ = ε) :
    Tendsto (fun L : ℝ => ∫ x in (-L)..L, x * (green H v (x + eta * I)).im) atTop (𝓝 (-(Real.pi * ε))) := by
  have a1 := line_integrable heta (fun z hz => remainder_diff hH v z (heta.trans_le hz)) (remainder_bound hH hv heta)
  have a2 := line_tendsto heta (fun z hz => remainder_diff hH v z (heta.trans_le hz)) (remainder_bound hH hv heta)
  have b1 := line_integrable heta (fun z hz => first_diff hH v ⟪v, H v⟫_ℂ z (heta.trans_le hz)) (first_bound hH hv heta)
  have b2 := line_tendsto heta (fun z hz => first_diff hH v ⟪v, H v⟫_ℂ z (heta.trans_le hz)) (first_bound hH hv heta)
  have c1 := intervalIntegral_tendsto_integral (pole_integrable heta) tendsto_neg_atTop_atBot tendsto_id
  rw [pole_integral heta] at c1
  have a3 : Tendsto (fun L : ℝ => ∫ x in (-L)..L, (green H v (x + eta * I) - 1 / ((x : ℂ) + eta * I)).re) atTop (𝓝 0) := by
    have := (Complex.continuous_re.tendsto 0).comp a2
    rw [Complex.zero_re] at this
    refine this.congr (fun L => ?_)
    exact (Complex.reCLM.intervalIntegral_comp_comm a1.intervalIntegrable).symm
  have b3 : Tendsto (fun L : ℝ => ∫ x in (-L)..L, (((x : ℂ) + eta * I) * green H v (x + eta * I) - 1 -
      ⟪v, H v⟫_ℂ * (1 / ((x : ℂ) + eta * I))).im) atTop (𝓝 0) := by
    have := (Complex.continuous_im.tendsto 0).comp b2
    rw [Complex.zero_im] at this
    refine this.congr (fun L => ?_)
    exact (Complex.imCLM.intervalIntegral_comp_comm b1.intervalIntegrable).symm
  have hlim := ((b3.add (c1.const_mul ε)).sub (a3.const_mul eta))
  rw [show (0 : ℝ) + ε * -Real.pi - eta * 0 = -(Real.pi * ε) by ring] at hlim
  refine hlim.congr (fun L => ?_)
  simp only [id]
  have hc : ∀ {f : ℝ → ℂ}, Continuous f → IntervalIntegrable (fun x => (f x).re) volume (-L) L ∧
      IntervalIntegrable (fun x => (f x).im) volume (-L) L := fun hf =>
    ⟨(Complex.continuous_re.comp hf).intervalIntegrable _ _, (Complex.continuous_im.comp hf).intervalIntegrable _ _⟩
  have hline : Continuous (fun x : ℝ => (x : ℂ) + eta * I) := by fun_prop
  have himp : ∀ x : ℝ, 0 < ((x : ℂ) + eta * I).im := fun x => by simpa using heta
  have hG : Continuous (fun x : ℝ => green H v (x + eta * I)) := by
    rw [continuous_iff_continuousAt]
    exact fun x => ContinuousAt.comp (f := fun x : ℝ => (x : ℂ) + eta * I) (g := green H v)
      (green_differentiable hH v (himp x).ne').continuousAt hline.continuousAt
  have hP : Continuous (fun x : ℝ => 1 / ((x : ℂ) + eta * I)) :=
    continuous_const.div hline (fun x => ne_zero_of_im (himp x))
  have i1 : IntervalIntegrable (fun x : ℝ => (((x : ℂ) + eta * I) * green H v (x + eta * I) - 1 -
      ⟪v, H v⟫_ℂ * (1 / ((x : ℂ) + eta * I))).im) volume (-L) L :=
    (hc (((hline.mul hG).sub continuous_const).sub (continuous_const.mul hP))).2
  have i2 := (hc hP).2.const_mul ε
  have i3 : IntervalIntegrable (fun x : ℝ => eta * (green H v (x + eta * I) - 1 / ((x : ℂ) + eta * I)).re)
    volume (-L) L := (hc (hG.sub hP)).1.const_mul eta
  have i4 := (hc hP).1.const_mul eta
  rw [← intervalIntegral.integral_const_mul, ← intervalIntegral.integral_const_mul,
    ← intervalIntegral.integral_add i1 i2, ← intervalIntegral.integral_sub (i1.add i2) i3]
  have h0 : ∫ x in (-L)..L, eta * (1 / ((x : ℂ) + eta * I)).re = 0 := by
    rw [intervalIntegral.integral_const_mul, pole_odd, mul_zero]
  rw [← sub_zero (∫ x in (-L)..L, _), ← h0, ← intervalIntegral.integral_sub ((i1.add i2).sub i3) i4]
  congr 1
  funext x
  rw [hε]
  simp only [Complex.sub_im, Complex.mul_im, Complex.sub_re, Complex.add_re, Complex.add_im, Complex.ofReal_re,
    Complex.ofReal_im, Complex.mul_re, Complex.I_re, Complex.I_im, Complex.one_im]
  ring

end GGCE
