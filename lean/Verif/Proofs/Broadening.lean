import Verif.Proofs.Moments

/-! The Green's function at a larger distance from the real axis is a Lorentzian average. -/

namespace GGCE
open Complex ComplexConjugate Filter Topology MeasureTheory
open scoped InnerProductSpace

variable {E : Type*} [NormedAddCommGroup E] [InnerProductSpace ℂ E] [CompleteSpace E]

theorem cross_differentiable {H : E →L[ℂ] E} (hH : IsSelfAdjoint H) (v f : E) {z : ℂ} (hz : z.im ≠ 0) :
    DifferentiableAt ℂ (fun z => ⟪v, resolvent H z f⟫_ℂ) z := by
  have h1 := spectrum.hasDerivAt_resolvent_const_left (mem_resolventSet_of_im hH hz)
  exact (((innerSL ℂ v).comp (ContinuousLinearMap.apply ℂ E f)).hasFDerivAt.comp_hasDerivAt z h1).differentiableAt

theorem green_norm_le {H : E →L[ℂ] E} (hH : IsSelfAdjoint H) {v : E} (hv : ‖v‖ = 1) {z : ℂ} (hz : z.im ≠ 0) :
    ‖green H v z‖ ≤ 1 / |z.im| := by
  have := norm_inner_resolvent hH v v hz
  rwa [hv, mul_one] at this

theorem lorentz_integrable {delta : ℝ} (hd : 0 < delta) (w : ℝ) :
    Integrable (fun x : ℝ => delta / ((x - w) ^ 2 + delta ^ 2)) := by
  simp only [pole_eq hd]
  exact ((integrable_inv_one_add_sq.comp_div hd.ne').const_mul delta⁻¹).comp_sub_right w

theorem lorentz_integral {delta : ℝ} (hd : 0 < delta) (w : ℝ) :
    ∫ x : ℝ, delta / ((x - w) ^ 2 + delta ^ 2) = Real.pi := by
  rw [integral_sub_right_eq_self (fun x : ℝ => delta / (x ^ 2 + delta ^ 2)) w]
  have h := pole_integral hd
  simp only [pole_im] at h
  rw [integral_neg] at h
  linarith

/-- the average -/
theorem green_lorentz {H : E →L[ℂ] E} (hH : IsSelfAdjoint H) {v : E} (hv : ‖v‖ = 1) {eta delta : ℝ} (heta : 0 < eta)
    (hd : 0 < delta) (w : ℝ) :
    Integrable (fun x : ℝ => ((delta / ((x - w) ^ 2 + delta ^ 2) : ℝ) : ℂ) * green H v (x + eta * I)) ∧
      ∫ x : ℝ, ((delta / ((x - w) ^ 2 + delta ^ 2) : ℝ) : ℂ) * green H v (x + eta * I) =
        Real.pi * green H v (w + (eta + delta : ℝ) * I) := by
  set z0 : ℂ := w + (eta + delta : ℝ) * I with hz0
  set zs : ℂ := w + (eta - delta : ℝ) * I with hzs
  have i0 : z0.im = eta + delta := by simp [hz0]
  have is : zs.im = eta - delta := by simp [hzs]
  have hz0' : z0.im ≠ 0 := by rw [i0]; positivity
  set F : ℂ → ℂ := fun z => ⟪v, resolvent H z (resolvent H z0 v)⟫_ℂ with hF
  set φ : ℂ → ℂ := fun z => F z * (delta / (z - zs)) with hφ
  have hFd : ∀ z : ℂ, eta ≤ z.im → green H v z - green H v z0 = (z0 - z) * F z := by
    intro z hz
    have hz' : z.im ≠ 0 := (heta.trans_le hz).ne'
    unfold green
    rw [← inner_sub_right, resolvent_diff hH hz' hz0', inner_smul_right]
  have hsz : ∀ z : ℂ, eta ≤ z.im → delta ≤ ‖z - zs‖ := by
    intro z hz
    refine le_trans ?_ (Complex.abs_im_le_norm _)
    rw [Complex.sub_im, is, abs_of_pos (by linarith)]
    linarith
  have hsne : ∀ z : ℂ, eta ≤ z.im → z - zs ≠ 0 := fun z hz q => by
    have := hsz z hz
    rw [q, norm_zero] at this
    linarith
  have hdiff : ∀ z : ℂ, eta ≤ z.im → DifferentiableAt ℂ φ z := by
    intro z hz
    exact (cross_differentiable hH v _ (heta.trans_le hz).ne').mul
      ((differentiableAt_const _).div (differentiableAt_id.sub_const _) (hsne z hz))
  have hbound : ∀ z : ℂ, eta ≤ z.im → ‖φ z‖ * ‖z‖ ^ 2 ≤ 12 / eta * delta + 2 * (1 / eta * (1 / eta)) * ‖z0‖ ^ 2 := by
    intro z hz
    have hzi : 0 < z.im := heta.trans_le hz
    have n1 : ‖F z‖ ≤ 1 / eta * (1 / eta) := by
      refine (norm_inner_resolvent hH v _ hzi.ne').trans ?_
      rw [hv, one_mul, abs_of_pos hzi]
      have h1 : ‖resolvent H z0 v‖ ≤ 1 / eta := by
        refine (resolvent_norm_le hH hz0' v).trans ?_
        rw [hv, i0, abs_of_pos (by positivity)]
        exact one_div_le_one_div_of_le heta (by linarith)
      calc ‖resolvent H z0 v‖ / z.im ≤ (1 / eta) / eta := div_le_div₀ (by positivity) h1 heta hz
        _ = 1 / eta * (1 / eta) := by ring
    have n2 : ‖F z‖ * ‖z - z0‖ ≤ 2 / eta := by
      rw [mul_comm, ← norm_mul, ← norm_neg, ← neg_mul, neg_sub, ← hFd z hz]
      refine (norm_sub_le _ _).trans ?_
      have a1 := green_norm_le hH hv (z := z) hzi.ne'
      have a2 := green_norm_le hH hv hz0'
      rw [abs_of_pos hzi] at a1
      rw [i0, abs_of_pos (by positivity)] at a2
      have a3 : 1 / z.im ≤ 1 / eta := one_div_le_one_div_of_le heta hz
      have a4 : 1 / (eta + delta) ≤ 1 / eta := one_div_le_one_div_of_le heta (by linarith)
      calc _ ≤ 1 / eta + 1 / eta := by linarith
        _ = 2 / eta := by ring
    have hs := hsz z hz
    have hspos : 0 < ‖z - zs‖ := hd.trans_le hs
    have n3 : ‖z - z0‖ ≤ 3 * ‖z - zs‖ := by
      have e1 : z - z0 = (z - zs) + (zs - z0) := by ring
      have e2 : ‖zs - z0‖ = 2 * delta := by
        have : zs - z0 = ((-(2 * delta) : ℝ) : ℂ) * I := by rw [hzs, hz0]; push_cast; ring
        rw [this, norm_mul, Complex.norm_I, mul_one, Complex.norm_real, Real.norm_eq_abs, abs_neg,
          abs_of_pos (by positivity)]
      rw [e1]
      refine (norm_add_le _ _).trans ?_
      linarith
    have n4 : ‖z‖ ^ 2 ≤ 2 * ‖z - z0‖ ^ 2 + 2 * ‖z0‖ ^ 2 := by
      have : ‖z‖ ≤ ‖z - z0‖ + ‖z0‖ := by
        have := norm_add_le (z - z0) z0
        rwa [sub_add_cancel] at this
      nlinarith [norm_nonneg z, norm_nonneg (z - z0), norm_nonneg z0, sq_nonneg (‖z - z0‖ - ‖z0‖)]
    have nφ : ‖φ z‖ = ‖F z‖ * (delta / ‖z - zs‖) := by
      rw [hφ]
      simp only
      rw [norm_mul, norm_div, Complex.norm_real, Real.norm_eq_abs, abs_of_pos hd]
    have hq : 0 ≤ delta / ‖z - zs‖ := by positivity
    have hq1 : delta / ‖z - zs‖ ≤ 1 := (div_le_one hspos).2 hs
    have p1 : ‖φ z‖ * ‖z - z0‖ ^ 2 ≤ 6 / eta * delta := by
      have : ‖φ z‖ * ‖z - z0‖ ^ 2 = (‖F z‖ * ‖z - z0‖) * (‖z - z0‖ * (delta / ‖z - zs‖)) := by rw [nφ]; ring
      rw [this]
      have b1 : ‖z - z0‖ * (delta / ‖z - zs‖) ≤ 3 * delta := by
        rw [mul_div_assoc', div_le_iff₀ hspos]
        nlinarith
      calc _ ≤ 2 / eta * (3 * delta) := mul_le_mul n2 b1 (by positivity) (by positivity)
        _ = 6 / eta * delta := by ring
    have p2 : ‖φ z‖ ≤ 1 / eta * (1 / eta) := by
      rw [nφ]
      calc _ ≤ 1 / eta * (1 / eta) * 1 := mul_le_mul n1 hq1 hq (by positivity)
        _ = _ := mul_one _
    have p3 : ‖φ z‖ * ‖z0‖ ^ 2 ≤ 1 / eta * (1 / eta) * ‖z0‖ ^ 2 := mul_le_mul_of_nonneg_right p2 (by positivity)
    calc ‖φ z‖ * ‖z‖ ^ 2 ≤ ‖φ z‖ * (2 * ‖z - z0‖ ^ 2 + 2 * ‖z0‖ ^ 2) := mul_le_mul_of_nonneg_left n4 (norm_nonneg _)
      _ = 2 * (‖φ z‖ * ‖z - z0‖ ^ 2) + 2 * (‖φ z‖ * ‖z0‖ ^ 2) := by ring
      _ ≤ 2 * (6 / eta * delta) + 2 * (1 / eta * (1 / eta) * ‖z0‖ ^ 2) := by linarith
      _ = _ := by ring
  have h1 := line_integrable heta hdiff hbound
  have h2 := line_integral heta hdiff hbound
  have hline : ∀ x : ℝ, ((delta / ((x - w) ^ 2 + delta ^ 2) : ℝ) : ℂ) * green H v (x + eta * I) =
      ((delta / ((x - w) ^ 2 + delta ^ 2) : ℝ) : ℂ) * green H v z0 - φ (x + eta * I) := by
    intro x
    have hx : eta ≤ ((x : ℂ) + eta * I).im := by simp
    have e1 := hFd _ hx
    have e2 := hsne _ hx
    have e3 : (x : ℂ) + eta * I - zs = (x - w) + delta * I := by rw [hzs]; push_cast; ring
    have e4 : z0 - ((x : ℂ) + eta * I) = -((x - w) - delta * I) := by rw [hz0]; push_cast; ring
    have hpos : (0 : ℝ) < (x - w) ^ 2 + delta ^ 2 := by positivity
    have e5 : (((x - w) ^ 2 + delta ^ 2 : ℝ) : ℂ) = ((x - w) + delta * I) * ((x - w) - delta * I) := by
      push_cast
      linear_combination (delta : ℂ) ^ 2 * Complex.I_sq
    rw [e3] at e2
    have e6 : ((x : ℂ) - w) - delta * I ≠ 0 := by
      intro q
      rw [q, mul_zero] at e5
      exact hpos.ne' (by exact_mod_cast e5)
    rw [eq_sub_iff_add_eq, hφ]
    simp only
    rw [e3, Complex.ofReal_div, e5]
    rw [e4] at e1
    have e7 : green H v (x + eta * I) = green H v z0 + -((x - w) - delta * I) * F (x + eta * I) := by
      linear_combination e1
    rw [e7]
    field_simp
    ring
  have hL : Integrable (fun x : ℝ => ((delta / ((x - w) ^ 2 + delta ^ 2) : ℝ) : ℂ) * green H v z0) :=
    (lorentz_integrable hd w).ofReal.mul_const _
  simp only [hline]
  refine ⟨hL.sub h1, ?_⟩
  rw [integral_sub hL h1, h2, sub_zero, integral_mul_const]
  congr 1
  have := integral_ofReal (𝕜 := ℂ) (f := fun x : ℝ => delta / ((x - w) ^ 2 + delta ^ 2)) (μ := volume)
  rw [lorentz_integral hd w] at this
  exact this

/-- nothing below the line: a pole at distance `delta` below gives no integral -/
theorem green_below {H : E →L[ℂ] E} (hH : IsSelfAdjoint H) {v : E} (hv : ‖v‖ = 1) {eta delta : ℝ} (heta : 0 < eta)
    (hd : 0 < delta) (w : ℝ) :
    Integrable (fun x : ℝ => green H v (x + eta * I) / ((x - w : ℂ) + delta * I)) ∧
      ∫ x : ℝ, green H v (x + eta * I) / ((x - w : ℂ) + delta * I) = 0 := by
  set zs : ℂ := w + (eta - delta : ℝ) * I with hzs
  have is : zs.im = eta - delta := by simp [hzs]
  have hsz : ∀ z : ℂ, eta ≤ z.im → delta ≤ ‖z - zs‖ := by
    intro z hz
    refine le_trans ?_ (Complex.abs_im_le_norm _)
    rw [Complex.sub_im, is, abs_of_pos (by linarith)]
    linarith
  have hsne : ∀ z : ℂ, eta ≤ z.im → z - zs ≠ 0 := fun z hz q => by
    have := hsz z hz
    rw [q, norm_zero] at this
    linarith
  have hdiff : ∀ z : ℂ, eta ≤ z.im → DifferentiableAt ℂ (fun z => green H v z / (z - zs)) z := fun z hz =>
    (green_differentiable hH v (heta.trans_le hz).ne').div (differentiableAt_id.sub_const _) (hsne z hz)
  have hbound : ∀ z : ℂ, eta ≤ z.im → ‖green H v z / (z - zs)‖ * ‖z‖ ^ 2 ≤
      (1 + ‖H v‖ / eta) * (1 + ‖zs‖ / delta) := by
    intro z hz
    have hzi : 0 < z.im := heta.trans_le hz
    have hs := hsz z hz
    have hspos : 0 < ‖z - zs‖ := hd.trans_le hs
    have n1 : ‖z * green H v z‖ ≤ 1 + ‖H v‖ / eta := by
      unfold green
      rw [smul_green' hH v v hzi.ne']
      refine (norm_add_le _ _).trans (add_le_add ?_ ?_)
      · rw [inner_self_eq_norm_sq_to_K, hv]; simp
      · refine (norm_inner_resolvent hH _ _ hzi.ne').trans ?_
        rw [hv, mul_one, abs_of_pos hzi]
        exact div_le_div_of_nonneg_left (norm_nonneg _) heta hz
    have n2 : ‖z‖ / ‖z - zs‖ ≤ 1 + ‖zs‖ / delta := by
      rw [div_le_iff₀ hspos, add_mul, one_mul]
      have a1 : ‖z‖ ≤ ‖z - zs‖ + ‖zs‖ := by
        have := norm_add_le (z - zs) zs
        rwa [sub_add_cancel] at this
      have a2 : ‖zs‖ ≤ ‖zs‖ / delta * ‖z - zs‖ := by
        rw [div_mul_eq_mul_div, le_div_iff₀ hd]
        exact mul_le_mul_of_nonneg_left hs (norm_nonneg _)
      linarith
    calc ‖green H v z / (z - zs)‖ * ‖z‖ ^ 2 = ‖z * green H v z‖ * (‖z‖ / ‖z - zs‖) := by
          rw [norm_div, norm_mul]; ring
      _ ≤ _ := mul_le_mul n1 n2 (by positivity) (by positivity)
  have h1 := line_integrable heta hdiff hbound
  have h2 := line_integral heta hdiff hbound
  have e3 : ∀ x : ℝ, (x : ℂ) + eta * I - zs = (x - w) + delta * I := fun x => by rw [hzs]; push_cast; ring
  simp only [e3] at h1 h2
  exact ⟨h1, h2⟩

theorem split_poles {p q d : ℂ} (hp : p ≠ 0) (hq : q ≠ 0) (h : p - q = 2 * I * d) (g g' : ℂ) :
    (g - g') / (2 * I) / q = d / (p * q) * g + (1 / (2 * I) * (g / p) - 1 / (2 * I) * (g' / q)) := by
  have hI := Complex.I_ne_zero
  field_simp
  linear_combination g * h

/-- the spectral representation -/
theorem green_spectral {H : E →L[ℂ] E} (hH : IsSelfAdjoint H) {v : E} (hv : ‖v‖ = 1) {eta delta : ℝ} (heta : 0 < eta)
    (hd : 0 < delta) (w : ℝ) :
    Integrable (fun x : ℝ => ((green H v (x + eta * I)).im : ℂ) / ((x - w : ℂ) - delta * I)) ∧
      ∫ x : ℝ, ((green H v (x + eta * I)).im : ℂ) / ((x - w : ℂ) - delta * I) =
        Real.pi * green H v (w + (eta + delta : ℝ) * I) := by
  obtain ⟨a1, a2⟩ := green_lorentz hH hv heta hd w
  obtain ⟨b1, b2⟩ := green_below hH hv heta hd w
  have c1 : Integrable (fun x : ℝ => conj (green H v (x + eta * I) / ((x - w : ℂ) + delta * I))) :=
    (Complex.conjLIE.integrable_comp_iff).2 b1
  have c2 : ∫ x : ℝ, conj (green H v (x + eta * I) / ((x - w : ℂ) + delta * I)) = 0 := by
    rw [integral_conj, b2, map_zero]
  have e : ∀ x : ℝ, ((green H v (x + eta * I)).im : ℂ) / ((x - w : ℂ) - delta * I) =
      ((delta / ((x - w) ^ 2 + delta ^ 2) : ℝ) : ℂ) * green H v (x + eta * I) +
        (1 / (2 * I) * (green H v (x + eta * I) / ((x - w : ℂ) + delta * I)) -
          1 / (2 * I) * conj (green H v (x + eta * I) / ((x - w : ℂ) + delta * I))) := by
    intro x
    have hpos : (0 : ℝ) < (x - w) ^ 2 + delta ^ 2 := by positivity
    have e5 : (((x - w) ^ 2 + delta ^ 2 : ℝ) : ℂ) = ((x - w) + delta * I) * ((x - w) - delta * I) := by
      push_cast
      linear_combination (delta : ℂ) ^ 2 * Complex.I_sq
    have e6 : ((x : ℂ) - w) - delta * I ≠ 0 := by
      intro q
      rw [q, mul_zero] at e5
      exact hpos.ne' (by exact_mod_cast e5)
    have e7 : ((x : ℂ) - w) + delta * I ≠ 0 := by
      intro q
      rw [q, zero_mul] at e5
      exact hpos.ne' (by exact_mod_cast e5)
    have e8 : conj (((x : ℂ) - w) + delta * I) = (x - w) - delta * I := by
      simp only [map_add, map_sub, map_mul, Complex.conj_ofReal, Complex.conj_I]
      ring
    rw [map_div₀, e8, Complex.im_eq_sub_conj, Complex.ofReal_div, e5]
    exact split_poles e7 e6 (by ring) _ _
  simp only [e]
  have b3 := b1.const_mul (1 / (2 * I))
  have c3 := c1.const_mul (1 / (2 * I))
  have d3 : Integrable (fun x : ℝ => 1 / (2 * I) * (green H v (x + eta * I) / ((x - w : ℂ) + delta * I)) -
      1 / (2 * I) * conj (green H v (x + eta * I) / ((x - w : ℂ) + delta * I))) := b3.sub c3
  refine ⟨a1.add d3, ?_⟩
  rw [integral_add a1 d3, integral_sub b3 c3, integral_const_mul, integral_const_mul, b2, c2, a2]
  ring

end GGCE
