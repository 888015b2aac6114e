import Mathlib.Analysis.CStarAlgebra.Spectrum
import Mathlib.Analysis.InnerProductSpace.StarOrder
import Mathlib.Analysis.Normed.Algebra.GelfandFormula

/-! Matrix elements of the resolvent of a bounded self-adjoint operator. -/

namespace GGCE
open Complex ComplexConjugate
open scoped InnerProductSpace

variable {E : Type*} [NormedAddCommGroup E] [InnerProductSpace ℂ E] [CompleteSpace E]

theorem mem_resolventSet_of_im {H : E →L[ℂ] E} (hH : IsSelfAdjoint H) {z : ℂ} (hz : z.im ≠ 0) :
    z ∈ resolventSet ℂ H := by
  by_contra hc
  exact hz (hH.im_eq_zero_of_mem_spectrum (show z ∈ spectrum ℂ H from hc))

omit [CompleteSpace E] in
theorem resolvent_apply {H : E →L[ℂ] E} {z : ℂ} (hz : z ∈ resolventSet ℂ H) (f : E) :
    z • resolvent H z f - H (resolvent H z f) = f := by
  have h1 : (algebraMap ℂ (E →L[ℂ] E) z - H) * resolvent H z = 1 := by
    unfold resolvent
    exact Ring.mul_inverse_cancel _ hz
  exact congrArg (fun A : E →L[ℂ] E => A f) h1

omit [CompleteSpace E] in
theorem resolvent_unique {H : E →L[ℂ] E} {z : ℂ} (hz : z ∈ resolventSet ℂ H) {f u : E} (h : z • u - H u = f) :
    u = resolvent H z f := by
  have h1 : resolvent H z * (algebraMap ℂ (E →L[ℂ] E) z - H) = 1 := by
    unfold resolvent
    exact Ring.inverse_mul_cancel _ hz
  have h2 : resolvent H z (z • u - H u) = u := congrArg (fun A : E →L[ℂ] E => A u) h1
  rw [← h2, h]

theorem inner_real {H : E →L[ℂ] E} (hH : IsSelfAdjoint H) (u : E) : (⟪u, H u⟫_ℂ).im = 0 := by
  have h1 : conj ⟪u, H u⟫_ℂ = ⟪u, H u⟫_ℂ := by
    rw [inner_conj_symm]
    exact (ContinuousLinearMap.isSelfAdjoint_iff_isSymmetric.1 hH) u u
  have := congrArg Complex.im h1
  rw [Complex.conj_im] at this
  linarith

/-- the energy estimate -/
theorem norm_le_of_eq {H : E →L[ℂ] E} (hH : IsSelfAdjoint H) {z : ℂ} {u f : E} (h : z • u - H u = f) :
    |z.im| * ‖u‖ ≤ ‖f‖ := by
  have h1 : (⟪u, f⟫_ℂ).im = z.im * ‖u‖ ^ 2 := by
    have e : ⟪u, u⟫_ℂ = ((‖u‖ ^ 2 : ℝ) : ℂ) := by rw [inner_self_eq_norm_sq_to_K]; push_cast; rfl
    rw [← h, inner_sub_right, inner_smul_right, Complex.sub_im, inner_real hH, sub_zero, e, Complex.mul_im,
      Complex.ofReal_re, Complex.ofReal_im, mul_zero, zero_add]
  by_cases hu : ‖u‖ = 0
  · rw [hu, mul_zero]; exact norm_nonneg _
  · have hpos : 0 < ‖u‖ := lt_of_le_of_ne (norm_nonneg _) (Ne.symm hu)
    have h2 : |z.im| * ‖u‖ ^ 2 ≤ ‖u‖ * ‖f‖ := by
      calc |z.im| * ‖u‖ ^ 2 = |(⟪u, f⟫_ℂ).im| := by rw [h1, abs_mul, abs_of_nonneg (by positivity : (0 : ℝ) ≤ ‖u‖ ^ 2)]
        _ ≤ ‖⟪u, f⟫_ℂ‖ := Complex.abs_im_le_norm _
        _ ≤ ‖u‖ * ‖f‖ := norm_inner_le_norm _ _
    nlinarith

theorem resolvent_norm_le {H : E →L[ℂ] E} (hH : IsSelfAdjoint H) {z : ℂ} (hz : z.im ≠ 0) (f : E) :
    ‖resolvent H z f‖ ≤ ‖f‖ / |z.im| := by
  rw [le_div_iff₀ (abs_pos.2 hz), mul_comm]
  exact norm_le_of_eq hH (resolvent_apply (mem_resolventSet_of_im hH hz) f)

/-- the matrix element of the resolvent in the state `v` -/
noncomputable def green (H : E →L[ℂ] E) (v : E) (z : ℂ) : ℂ := ⟪v, resolvent H z v⟫_ℂ

theorem resolvent_diff {H : E →L[ℂ] E} (hH : IsSelfAdjoint H) {z z' : ℂ} (hz : z.im ≠ 0) (hz' : z'.im ≠ 0) (f : E) :
    resolvent H z f - resolvent H z' f = (z' - z) • resolvent H z (resolvent H z' f) := by
  have r := mem_resolventSet_of_im hH hz
  have r' := mem_resolventSet_of_im hH hz'
  have h1 : z • (resolvent H z f - resolvent H z' f) - H (resolvent H z f - resolvent H z' f) =
      (z' - z) • resolvent H z' f := by
    rw [map_sub, smul_sub, sub_smul]
    have e1 := resolvent_apply r f
    have e2 := resolvent_apply r' f
    have : z • resolvent H z f - z • resolvent H z' f - (H (resolvent H z f) - H (resolvent H z' f)) =
      (z • resolvent H z f - H (resolvent H z f)) - (z' • resolvent H z' f - H (resolvent H z' f)) +
      (z' • resolvent H z' f - z • resolvent H z' f) := by abel
    rw [this, e1, e2, sub_self, zero_add]
  rw [resolvent_unique r h1, map_smul]

/-- Lipschitz dependence on the energy -/
theorem green_lipschitz {H : E →L[ℂ] E} (hH : IsSelfAdjoint H) {v : E} (hv : ‖v‖ = 1) {z z' : ℂ} (hz : z.im ≠ 0)
    (hz' : z'.im ≠ 0) : ‖green H v z - green H v z'‖ ≤ ‖z - z'‖ / (|z.im| * |z'.im|) := by
  unfold green
  rw [← inner_sub_right, resolvent_diff hH hz hz', inner_smul_right, norm_mul, norm_sub_rev z' z, div_eq_mul_inv]
  refine mul_le_mul_of_nonneg_left ?_ (norm_nonneg _)
  refine (norm_inner_le_norm _ _).trans ?_
  rw [hv, one_mul]
  refine (resolvent_norm_le hH hz _).trans ?_
  rw [div_le_iff₀ (abs_pos.2 hz)]
  refine (resolvent_norm_le hH hz' _).trans ?_
  rw [hv, mul_inv]
  have := abs_pos.2 hz
  have := abs_pos.2 hz'
  apply le_of_eq
  field_simp

theorem green_differentiable {H : E →L[ℂ] E} (hH : IsSelfAdjoint H) (v : E) {z : ℂ} (hz : z.im ≠ 0) :
    DifferentiableAt ℂ (green H v) z := by
  have h1 := spectrum.hasDerivAt_resolvent_const_left (mem_resolventSet_of_im hH hz)
  have h2 := (((innerSL ℂ v).comp (ContinuousLinearMap.apply ℂ E v)).hasFDerivAt.comp_hasDerivAt z h1).differentiableAt
  exact h2

/-- the real axis as a mirror -/
theorem green_conj {H : E →L[ℂ] E} (hH : IsSelfAdjoint H) (v : E) {z : ℂ} (hz : z.im ≠ 0) :
    green H v (conj z) = conj (green H v z) := by
  have hz' : (conj z).im ≠ 0 := by rw [Complex.conj_im]; exact neg_ne_zero.2 hz
  have r := resolvent_apply (mem_resolventSet_of_im hH hz) v
  have r' := resolvent_apply (mem_resolventSet_of_im hH hz') v
  unfold green
  set u := resolvent H z v
  set u' := resolvent H (conj z) v
  have h1 : ⟪v, u'⟫_ℂ = ⟪u, v⟫_ℂ := by
    have a1 : ⟪v, u'⟫_ℂ = ⟪z • u - H u, u'⟫_ℂ := by rw [r]
    have a2 : ⟪u, v⟫_ℂ = ⟪u, (conj z) • u' - H u'⟫_ℂ := by rw [r']
    rw [a1, a2, inner_sub_left, inner_sub_right, inner_smul_left, inner_smul_right]
    congr 1
    exact (ContinuousLinearMap.isSelfAdjoint_iff_isSymmetric.1 hH) u u'
  rw [h1, inner_conj_symm]

/-! ### behaviour at high energies -/

theorem smul_green {H : E →L[ℂ] E} (hH : IsSelfAdjoint H) (v f : E) {z : ℂ} (hz : z.im ≠ 0) :
    z * ⟪f, resolvent H z v⟫_ℂ = ⟪f, v⟫_ℂ + ⟪f, H (resolvent H z v)⟫_ℂ := by
  have r := resolvent_apply (mem_resolventSet_of_im hH hz) v
  rw [← inner_smul_right, ← inner_add_right]
  congr 1
  exact (sub_eq_iff_eq_add.1 r)

theorem smul_green' {H : E →L[ℂ] E} (hH : IsSelfAdjoint H) (v f : E) {z : ℂ} (hz : z.im ≠ 0) :
    z * ⟪f, resolvent H z v⟫_ℂ = ⟪f, v⟫_ℂ + ⟪H f, resolvent H z v⟫_ℂ := by
  rw [smul_green hH v f hz]
  congr 1
  exact ((ContinuousLinearMap.isSelfAdjoint_iff_isSymmetric.1 hH) f _).symm

theorem norm_inner_resolvent {H : E →L[ℂ] E} (hH : IsSelfAdjoint H) (f v : E) {z : ℂ} (hz : z.im ≠ 0) :
    ‖⟪f, resolvent H z v⟫_ℂ‖ ≤ ‖f‖ * ‖v‖ / |z.im| := by
  refine (norm_inner_le_norm _ _).trans ?_
  rw [mul_div_assoc]
  exact mul_le_mul_of_nonneg_left (resolvent_norm_le hH hz v) (norm_nonneg _)

/-- `z (z G - 1)` is bounded above the real axis: spectral weight one -/
theorem green_first {H : E →L[ℂ] E} (hH : IsSelfAdjoint H) {v : E} (hv : ‖v‖ = 1) {z : ℂ} (hz : z.im ≠ 0) :
    z * (z * green H v z - 1) = ⟪v, H v⟫_ℂ + ⟪H (H v), resolvent H z v⟫_ℂ := by
  have h1 := smul_green' hH v v hz
  have h2 := smul_green' hH v (H v) hz
  have h3 : ⟪v, v⟫_ℂ = 1 := by rw [inner_self_eq_norm_sq_to_K, hv]; simp
  have h4 : ⟪H v, v⟫_ℂ = ⟪v, H v⟫_ℂ := (ContinuousLinearMap.isSelfAdjoint_iff_isSymmetric.1 hH) v v
  unfold green
  rw [h1, h3, add_sub_cancel_left, h2, h4]

/-- `z (z (z G - 1) - ⟨H⟩)` is bounded above the real axis: the first moment -/
theorem green_second {H : E →L[ℂ] E} (hH : IsSelfAdjoint H) {v : E} (hv : ‖v‖ = 1) {z : ℂ} (hz : z.im ≠ 0) :
    z * (z * (z * green H v z - 1) - ⟪v, H v⟫_ℂ) = ⟪H (H v), v⟫_ℂ + ⟪H (H (H v)), resolvent H z v⟫_ℂ := by
  rw [green_first hH hv hz, add_sub_cancel_left, smul_green' hH v _ hz]

end GGCE
