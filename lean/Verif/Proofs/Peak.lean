import Verif.Proofs.SpectralMeasure
import Verif.Proofs.HopsMeasure
import Mathlib.Analysis.InnerProductSpace.Adjoint
import Mathlib.Analysis.InnerProductSpace.Projection.Basic

/-! The resolvent near an eigenvalue. -/

set_option linter.unusedSectionVars false

namespace GGCE
open Complex Filter Topology MeasureTheory
open scoped InnerProductSpace

variable {V : Type*} [NormedAddCommGroup V] [InnerProductSpace ℂ V] [CompleteSpace V]

/-- the eigenspace of a real number -/
noncomputable def eigenKer (H : V →L[ℂ] V) (E : ℝ) : Submodule ℂ V :=
  (H - (E : ℂ) • ContinuousLinearMap.id ℂ V).ker

theorem mem_eigenKer {H : V →L[ℂ] V} {E : ℝ} {f : V} : f ∈ eigenKer H E ↔ H f = (E : ℂ) • f := by
  unfold eigenKer
  rw [LinearMap.mem_ker]
  simp [sub_eq_zero]

theorem eigenKer_closed (H : V →L[ℂ] V) (E : ℝ) : IsClosed (eigenKer H E : Set V) :=
  ContinuousLinearMap.isClosed_ker _

instance (H : V →L[ℂ] V) (E : ℝ) : (eigenKer H E).HasOrthogonalProjection := by
  have : CompleteSpace (eigenKer H E) := (eigenKer_closed H E).completeSpace_coe
  infer_instance

theorem shifted_selfAdjoint {H : V →L[ℂ] V} (hH : IsSelfAdjoint H) (E : ℝ) :
    IsSelfAdjoint (H - (E : ℂ) • ContinuousLinearMap.id ℂ V) := by
  refine hH.sub ?_
  rw [isSelfAdjoint_iff, star_smul]
  have h1 : star (ContinuousLinearMap.id ℂ V) = ContinuousLinearMap.id ℂ V := star_one (V →L[ℂ] V)
  rw [h1]
  simp

/-- on an eigenvector -/
theorem resolvent_eigen {H : V →L[ℂ] V} (hH : IsSelfAdjoint H) {E : ℝ} {f : V} (hf : H f = (E : ℂ) • f) {z : ℂ}
    (hz : z.im ≠ 0) : resolvent H z f = (z - E)⁻¹ • f := by
  have hne : z - E ≠ 0 := by
    intro h
    have := congrArg Complex.im h
    simp at this
    exact hz this
  symm
  refine resolvent_unique (mem_resolventSet_of_im hH hz) ?_
  rw [map_smul, hf, smul_smul, smul_smul, ← sub_smul, mul_comm, ← mul_sub, inv_mul_cancel₀ hne, one_smul]

/-- the point `E + eta ζ` -/
theorem near_im {E eta : ℝ} {ζ : ℂ} : ((E : ℂ) + eta * ζ).im = eta * ζ.im := by simp

/-- on a vector orthogonal to the eigenspace -/
theorem resolvent_orthogonal {H : V →L[ℂ] V} (hH : IsSelfAdjoint H) {E : ℝ} {f : V} (hf : f ∈ (eigenKer H E)ᗮ) {ζ : ℂ}
    (hζ : 0 < ζ.im) :
    Tendsto (fun eta : ℝ => (eta : ℂ) • resolvent H ((E : ℂ) + eta * ζ) f) (𝓝[>] 0) (𝓝 0) := by
  set T := H - (E : ℂ) • ContinuousLinearMap.id ℂ V with hT
  have hsa : IsSelfAdjoint T := shifted_selfAdjoint hH E
  have hcl : f ∈ T.range.topologicalClosure := by
    have := T.orthogonal_ker
    rw [hsa.adjoint_eq] at this
    rw [← this]
    exact hf
  rw [Metric.tendsto_nhds]
  intro ε hε
  obtain ⟨g', hg', hd⟩ := Metric.mem_closure_iff.1 (show f ∈ closure (T.range : Set V) from hcl) (ε * ζ.im / 2)
    (by positivity)
  obtain ⟨g, rfl⟩ := hg'
  -- the remaining part
  have hbound : ∀ eta : ℝ, 0 < eta → ‖(eta : ℂ) • resolvent H ((E : ℂ) + eta * ζ) f‖ ≤
      dist f (T g) / ζ.im + eta * (‖g‖ + ‖ζ‖ * ‖g‖ / ζ.im) := by
    intro eta heta
    have him : ((E : ℂ) + eta * ζ).im ≠ 0 := by rw [near_im]; positivity
    have habs : |((E : ℂ) + eta * ζ).im| = eta * ζ.im := by rw [near_im, abs_of_pos (by positivity)]
    have hr := resolvent_apply (mem_resolventSet_of_im hH him) g
    have h1 : resolvent H ((E : ℂ) + eta * ζ) (T g) = (eta * ζ) • resolvent H ((E : ℂ) + eta * ζ) g - g := by
      symm
      refine resolvent_unique (mem_resolventSet_of_im hH him) ?_
      set z : ℂ := (E : ℂ) + eta * ζ with hz
      have hTg : T g = H g - (E : ℂ) • g := by simp [hT]
      rw [hTg, map_sub, map_smul, smul_sub, smul_smul, mul_comm z, ← smul_smul]
      have : (eta * ζ : ℂ) • z • resolvent H z g - z • g - ((eta * ζ : ℂ) • H (resolvent H z g) - H g) =
        (eta * ζ : ℂ) • (z • resolvent H z g - H (resolvent H z g)) - z • g + H g := by
        rw [smul_sub]; abel
      rw [this, hr, hz, add_smul]
      abel
    have h2 : resolvent H ((E : ℂ) + eta * ζ) f = resolvent H ((E : ℂ) + eta * ζ) (f - T g) +
        resolvent H ((E : ℂ) + eta * ζ) (T g) := by rw [map_sub]; abel
    have h3 := resolvent_norm_le hH him (f - T g)
    have h4 := resolvent_norm_le hH him g
    rw [habs] at h3 h4
    have hn : ‖(eta : ℂ)‖ = eta := by rw [Complex.norm_real, Real.norm_eq_abs, abs_of_pos heta]
    rw [h2, smul_add, h1]
    refine (norm_add_le _ _).trans (add_le_add ?_ ?_)
    · rw [norm_smul, hn, dist_eq_norm]
      refine (mul_le_mul_of_nonneg_left h3 heta.le).trans (le_of_eq ?_)
      field_simp
    · rw [norm_smul, hn]
      refine mul_le_mul_of_nonneg_left ?_ heta.le
      refine (norm_sub_le _ _).trans ?_
      rw [add_comm]
      refine add_le_add le_rfl ?_
      rw [norm_smul, norm_mul, hn]
      refine (mul_le_mul_of_nonneg_left h4 (by positivity)).trans (le_of_eq ?_)
      field_simp
  have hsmall : ∀ᶠ eta : ℝ in 𝓝[>] 0, eta * (‖g‖ + ‖ζ‖ * ‖g‖ / ζ.im) < ε / 2 := by
    have : Tendsto (fun eta : ℝ => eta * (‖g‖ + ‖ζ‖ * ‖g‖ / ζ.im)) (𝓝[>] 0) (𝓝 (0 * (‖g‖ + ‖ζ‖ * ‖g‖ / ζ.im))) :=
      (tendsto_id.mono_left nhdsWithin_le_nhds).mul_const _
    rw [zero_mul] at this
    exact this.eventually_lt_const (by positivity)
  filter_upwards [hsmall, self_mem_nhdsWithin] with eta h1 h2
  rw [dist_zero_right]
  refine (hbound eta h2).trans_lt ?_
  have : dist f (T g) / ζ.im < ε / 2 := by
    rw [div_lt_iff₀ hζ]
    calc dist f (T g) < ε * ζ.im / 2 := hd
      _ = ε / 2 * ζ.im := by ring
  linarith

/-- the matrix element of the resolvent near a real energy -/
theorem green_near {H : V →L[ℂ] V} (hH : IsSelfAdjoint H) (E : ℝ) (v : V) {ζ : ℂ} (hζ : 0 < ζ.im) :
    Tendsto (fun eta : ℝ => (eta : ℂ) * green H v ((E : ℂ) + eta * ζ)) (𝓝[>] 0)
      (𝓝 (ζ⁻¹ * (‖(eigenKer H E).starProjection v‖ ^ 2 : ℝ))) := by
  set p := (eigenKer H E).starProjection v with hp
  have hpm : p ∈ eigenKer H E := Submodule.starProjection_apply_mem _ _
  have hq : v - p ∈ (eigenKer H E)ᗮ := Submodule.sub_starProjection_mem_orthogonal _
  have hvp : ⟪v, p⟫_ℂ = ((‖p‖ ^ 2 : ℝ) : ℂ) := by
    have h1 : ⟪v, p⟫_ℂ = ⟪p, p⟫_ℂ := by
      have h0 : ⟪v - p, p⟫_ℂ = 0 := (Submodule.mem_orthogonal' _ _).1 hq p hpm
      rw [inner_sub_left, sub_eq_zero] at h0
      exact h0
    rw [h1, inner_self_eq_norm_sq_to_K]
    push_cast; rfl
  have h3 : Tendsto (fun eta : ℝ => ⟪v, (eta : ℂ) • resolvent H ((E : ℂ) + eta * ζ) (v - p)⟫_ℂ) (𝓝[>] 0) (𝓝 0) := by
    have := (tendsto_const_nhds (x := v)).inner (resolvent_orthogonal hH hq hζ) (𝕜 := ℂ)
    rwa [inner_zero_right] at this
  have h4 : Tendsto (fun eta : ℝ => ζ⁻¹ * ((‖p‖ ^ 2 : ℝ) : ℂ) +
      ⟪v, (eta : ℂ) • resolvent H ((E : ℂ) + eta * ζ) (v - p)⟫_ℂ) (𝓝[>] 0) (𝓝 (ζ⁻¹ * (‖p‖ ^ 2 : ℝ) + 0)) :=
    tendsto_const_nhds.add h3
  rw [add_zero] at h4
  refine h4.congr' ?_
  filter_upwards [self_mem_nhdsWithin] with eta heta
  have heta : 0 < eta := heta
  have him : ((E : ℂ) + eta * ζ).im ≠ 0 := by rw [near_im]; positivity
  unfold green
  have h5 : resolvent H ((E : ℂ) + eta * ζ) v = resolvent H ((E : ℂ) + eta * ζ) (v - p) +
      resolvent H ((E : ℂ) + eta * ζ) p := by rw [map_sub]; abel
  have hne : (eta : ℂ) ≠ 0 := by exact_mod_cast heta.ne'
  have hζ0 : ζ ≠ 0 := by rintro rfl; simp at hζ
  rw [h5, inner_add_right, resolvent_eigen hH (mem_eigenKer.1 hpm) him, inner_smul_right, inner_smul_right, hvp,
    add_sub_cancel_left]
  field_simp
  ring

/-- `eta` times the spectral function grows with `eta` -/
theorem green_im_mono {H : V →L[ℂ] V} (hH : IsSelfAdjoint H) (w : ℝ) {v : V} (hv : ‖v‖ = 1) :
    MonotoneOn (fun eta : ℝ => -(eta * (green H v ((w : ℂ) + eta * I)).im)) (Set.Ioi 0) := by
  obtain ⟨μ, hμ, -, h⟩ := spectral_measure hH hv
  have hform : ∀ eta : ℝ, 0 < eta → -(eta * (green H v ((w : ℂ) + eta * I)).im) =
      ∫ x : ℝ, eta ^ 2 / ((w - x) ^ 2 + eta ^ 2) ∂μ := by
    intro eta heta
    have h1 := h ((w : ℂ) + eta * I) (by simp; exact heta.ne')
    have h2 := stieltjes_im (ρ := μ) (w := w) heta
    rw [show Spec.stieltjes μ ((w : ℂ) + eta * I) = green H v ((w : ℂ) + eta * I) from h1] at h2
    have hpi := Real.pi_ne_zero
    have h3 : -(green H v ((w : ℂ) + eta * I)).im = Real.pi * Spec.broadened μ w eta := by
      rw [← h2]; field_simp
    rw [← mul_neg, h3, ← mul_assoc]
    unfold Spec.broadened
    rw [← integral_const_mul]
    congr 1
    funext x
    field_simp
  have hint : ∀ eta : ℝ, 0 < eta → Integrable (fun x : ℝ => eta ^ 2 / ((w - x) ^ 2 + eta ^ 2)) μ := by
    intro eta heta
    refine Integrable.of_bound (C := 1) ?_ (Eventually.of_forall fun x => ?_)
    · refine Continuous.aestronglyMeasurable ?_
      refine continuous_const.div (by fun_prop) (fun x => by positivity)
    · rw [Real.norm_eq_abs, abs_of_nonneg (by positivity), div_le_one (by positivity)]
      nlinarith [sq_nonneg (w - x)]
  intro a ha b hb hab
  have ha : 0 < a := ha
  have hb : 0 < b := hb
  simp only
  rw [hform a ha, hform b hb]
  refine integral_mono (hint a ha) (hint b hb) (fun x => ?_)
  simp only
  rw [div_le_div_iff₀ (by positivity) (by positivity)]
  have : a ^ 2 ≤ b ^ 2 := by nlinarith
  nlinarith [sq_nonneg (w - x), mul_nonneg (sq_nonneg (w - x)) (sub_nonneg.2 this)]

end GGCE
