import Verif.Proofs.Floor

/-! The self-energy of a state of a Hilbert space. -/

namespace GGCE
open Spec Complex ComplexConjugate
open scoped InnerProductSpace

section
variable {E : Type} [NormedAddCommGroup E] [InnerProductSpace ℂ E] [CompleteSpace E]

/-- The inverse of a diagonal element of the resolvent: a self-energy with non-positive imaginary part, bounded by the
part of `H v` orthogonal to `v`. -/
theorem self_energy {H : E →L[ℂ] E} (hH : IsSelfAdjoint H) {v : E} (hv : ‖v‖ = 1) {a : ℝ} (ha : ⟪v, H v⟫_ℂ = a)
    {z : ℂ} (hz : 0 < z.im) :
    green H v z ≠ 0 ∧ (z - a - 1 / green H v z).im ≤ 0 ∧
      ‖z - a - 1 / green H v z‖ ≤ (‖H v‖ ^ 2 - a ^ 2) / z.im := by
  have r := resolvent_apply (mem_resolventSet_of_im hH hz.ne') v
  have hg : green H v z = ⟪v, resolvent H z v⟫_ℂ := rfl
  have him := green_im hH v hz.ne'
  have hu0 : resolvent H z v ≠ 0 := by
    intro h
    rw [h, map_zero, smul_zero, sub_zero] at r
    rw [← r, norm_zero] at hv
    exact zero_ne_one hv
  have hG : green H v z ≠ 0 := by
    intro h
    rw [h, Complex.zero_im] at him
    have := mul_pos hz (pow_pos (norm_pos_iff.2 hu0) 2)
    linarith
  refine ⟨hG, ?_⟩
  set G := green H v z with hGd
  set u := resolvent H z v with hu
  have hvv : ⟪v, v⟫_ℂ = 1 := by rw [inner_self_eq_norm_sq_to_K, hv]; norm_num
  set x := G⁻¹ • u - v with hx
  set q := H v - (a : ℂ) • v with hq
  have hvx : ⟪v, x⟫_ℂ = 0 := by
    rw [hx, inner_sub_right, inner_smul_right, ← hg, inv_mul_cancel₀ hG, hvv, sub_self]
  have hxv : ⟪x, v⟫_ℂ = 0 := by rw [← inner_conj_symm, hvx, map_zero]
  have hvq : ⟪v, q⟫_ℂ = 0 := by rw [hq, inner_sub_right, inner_smul_right, ha, hvv, mul_one, sub_self]
  -- the equation of the normalised response
  have hr : z • x - H x = G⁻¹ • v - z • v + H v := by
    rw [hx, map_sub, map_smul, smul_sub, smul_comm z, show z • u = v + H u by rw [← r]; abel, smul_add]
    abel
  clear_value x q
  have hsym : ∀ y : E, ⟪H v, y⟫_ℂ = ⟪v, H y⟫_ℂ := fun y => hH.isSymmetric v y
  have hS : z - a - 1 / G = ⟪q, x⟫_ℂ := by
    have h1 : ⟪v, z • x - H x⟫_ℂ = ⟪v, G⁻¹ • v - z • v + H v⟫_ℂ := by rw [hr]
    rw [inner_sub_right, inner_smul_right, hvx, mul_zero, zero_sub, inner_add_right, inner_sub_right, inner_smul_right,
      inner_smul_right, hvv, ha, mul_one, mul_one, ← hsym] at h1
    rw [hq, inner_sub_left, inner_smul_left, hvx, mul_zero, sub_zero, one_div]
    linear_combination h1
  have hxx : ⟪x, x⟫_ℂ = ((‖x‖ ^ 2 : ℝ) : ℂ) := by rw [inner_self_eq_norm_sq_to_K]; push_cast; rfl
  have hI : (⟪x, q⟫_ℂ).im = z.im * ‖x‖ ^ 2 := by
    have h1 : ⟪x, z • x - H x⟫_ℂ = ⟪x, G⁻¹ • v - z • v + H v⟫_ℂ := by rw [hr]
    rw [inner_sub_right, inner_smul_right, inner_add_right, inner_sub_right, inner_smul_right, inner_smul_right, hxv, mul_zero,
      mul_zero, sub_zero, zero_add, hxx] at h1
    rw [hq, inner_sub_right, inner_smul_right, hxv, mul_zero, sub_zero, ← h1, Complex.sub_im, inner_real hH, sub_zero,
      Complex.mul_im, Complex.ofReal_re, Complex.ofReal_im, mul_zero, zero_add]
  have hqn : ‖q‖ ^ 2 = ‖H v‖ ^ 2 - a ^ 2 := by
    have h1 : H v = q + (a : ℂ) • v := by rw [hq]; abel
    have h2 : ⟪q, (a : ℂ) • v⟫_ℂ = 0 := by rw [inner_smul_right, ← inner_conj_symm, hvq, map_zero, mul_zero]
    rw [h1, @norm_add_sq ℂ, h2, norm_smul, hv, Complex.norm_real, Real.norm_eq_abs, mul_one, sq_abs]
    simp
  have hxn : z.im * ‖x‖ ≤ ‖q‖ := by
    rcases (norm_nonneg x).eq_or_lt with h0 | h0
    · rw [← h0, mul_zero]; exact norm_nonneg _
    · refine le_of_mul_le_mul_left ?_ h0
      have h1 : (⟪x, q⟫_ℂ).im ≤ ‖x‖ * ‖q‖ := (Complex.im_le_norm _).trans (norm_inner_le_norm _ _)
      rw [hI] at h1
      linarith [show ‖x‖ * (z.im * ‖x‖) = z.im * ‖x‖ ^ 2 by ring]
  rw [hS]
  constructor
  · rw [← inner_conj_symm, Complex.conj_im, hI]
    have := mul_nonneg hz.le (sq_nonneg ‖x‖)
    linarith
  · rw [le_div_iff₀ hz, ← hqn]
    calc ‖⟪q, x⟫_ℂ‖ * z.im ≤ ‖q‖ * ‖x‖ * z.im := mul_le_mul_of_nonneg_right (norm_inner_le_norm _ _) hz.le
      _ = ‖q‖ * (z.im * ‖x‖) := by ring
      _ ≤ ‖q‖ * ‖q‖ := mul_le_mul_of_nonneg_left hxn (norm_nonneg _)
      _ = ‖q‖ ^ 2 := by ring

end
end GGCE
