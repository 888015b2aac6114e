import Verif.Model.RealPhys
import Mathlib.Analysis.SpecialFunctions.Complex.LogBounds
import Mathlib.Analysis.SpecificLimits.Normed
import Mathlib.Tactic.LinearCombination
import Mathlib.Tactic.Linarith
import Mathlib.Tactic.FieldSimp
import Mathlib.Topology.Algebra.InfiniteSum.NatInt

/-! The root `y` of `y + 1/y = -2x` chosen by `g0_delta_omega`, and geometric sums. -/

namespace GGCE

open Complex

theorem csqrt_sq (z : ℂ) : Complex.sqrt z ^ 2 = z := by
  unfold Complex.sqrt
  have := Complex.cpow_nat_inv_pow z (n := 2) two_ne_zero
  push_cast at this
  exact this

theorem csqrt_re_nonneg (z : ℂ) : 0 ≤ (Complex.sqrt z).re := by
  unfold Complex.sqrt
  rw [Complex.cpow_inv_two_re]
  exact Real.sqrt_nonneg _

theorem csqrt_re_pos {z : ℂ} (h : 0 < z.re ∨ z.im ≠ 0) : 0 < (Complex.sqrt z).re := by
  unfold Complex.sqrt
  rw [Complex.cpow_inv_two_re]
  apply Real.sqrt_pos.2
  have h1 : |z.re| ≤ ‖z‖ := Complex.abs_re_le_norm z
  rcases h with h | h
  · have := norm_nonneg z; linarith
  · have h2 : |z.re| < ‖z‖ := by
      refine lt_of_le_of_ne h1 ?_
      intro hc
      exact h (Complex.abs_re_eq_norm.1 hc)
    have := neg_abs_le z.re
    linarith

/-- `√(B² z) = B √z` for positive `B` -/
theorem csqrt_mul {B : ℝ} (hB : 0 < B) {z : ℂ} (h : 0 < z.re ∨ z.im ≠ 0) :
    Complex.sqrt ((B : ℂ) ^ 2 * z) = B * Complex.sqrt z := by
  have h1 : Complex.sqrt ((B : ℂ) ^ 2 * z) ^ 2 = ((B : ℂ) * Complex.sqrt z) ^ 2 := by
    rw [csqrt_sq, mul_pow, csqrt_sq]
  rcases sq_eq_sq_iff_eq_or_eq_neg.1 h1 with h2 | h2
  · exact h2
  · exfalso
    have h3 := csqrt_re_nonneg ((B : ℂ) ^ 2 * z)
    rw [h2] at h3
    simp only [neg_re, re_ofReal_mul] at h3
    have := mul_pos hB (csqrt_re_pos h)
    linarith

/-- the base of the power in `g0_delta_omega` -/
noncomputable def yRoot (x : ℂ) : ℂ := -x + I * Complex.sqrt (1 - x ^ 2)

theorem sq_region {x : ℂ} (hx : 0 < x.im) : 0 < (1 - x ^ 2).re ∨ (1 - x ^ 2).im ≠ 0 := by
  by_cases h : x.re = 0
  · left
    simp only [sub_re, one_re, sq, mul_re, h]
    nlinarith
  · right
    simp only [sub_im, one_im, sq, mul_im]
    intro hc
    have : x.re * x.im = 0 := by linarith
    rcases mul_eq_zero.1 this with h1 | h1
    · exact h h1
    · exact hx.ne' h1

theorem yRoot_mul (x : ℂ) : yRoot x * (-x - I * Complex.sqrt (1 - x ^ 2)) = 1 := by
  unfold yRoot
  have h := csqrt_sq (1 - x ^ 2)
  linear_combination h - Complex.sqrt (1 - x ^ 2) ^ 2 * Complex.I_sq

theorem yRoot_ne_zero (x : ℂ) : yRoot x ≠ 0 := by
  intro h
  have := yRoot_mul x
  rw [h, zero_mul] at this
  exact zero_ne_one this

theorem yRoot_add_inv (x : ℂ) : yRoot x + (yRoot x)⁻¹ = -2 * x := by
  rw [inv_eq_of_mul_eq_one_right (yRoot_mul x)]
  unfold yRoot
  ring

theorem norm_yRoot_lt {x : ℂ} (hx : 0 < x.im) : ‖yRoot x‖ < 1 := by
  set s := Complex.sqrt (1 - x ^ 2) with hs
  have hs2 : s ^ 2 = 1 - x ^ 2 := csqrt_sq _
  have hre : 0 < s.re := csqrt_re_pos (sq_region hx)
  have him : s.re * s.im = -(x.re * x.im) := by
    have := congrArg Complex.im hs2
    simp only [sq, mul_im, sub_im, one_im] at this
    linarith
  have h1 : normSq (yRoot x) * normSq (-x - I * s) = 1 := by
    rw [← normSq_mul, hs, yRoot_mul, normSq_one]
  have h2 : normSq (yRoot x) < normSq (-x - I * s) := by
    have e1 : yRoot x = -x + I * s := rfl
    rw [e1, normSq_apply, normSq_apply]
    simp only [add_re, neg_re, mul_re, I_re, I_im, add_im, neg_im, mul_im, sub_re, sub_im]
    have : 0 < (x.im * s.re - x.re * s.im) * s.re := by
      have : (x.im * s.re - x.re * s.im) * s.re = x.im * s.re ^ 2 + x.re ^ 2 * x.im := by
        linear_combination -x.re * him
      rw [this]
      have := mul_pos hx (pow_pos hre 2)
      have := mul_nonneg (sq_nonneg x.re) hx.le
      linarith
    have := (mul_pos_iff_of_pos_right hre).1 this
    nlinarith
  have h3 : normSq (yRoot x) < 1 := by
    by_contra hc
    push Not at hc
    have := lt_of_le_of_lt hc h2
    nlinarith
  rw [normSq_eq_norm_sq] at h3
  have := norm_nonneg (yRoot x)
  nlinarith

/-- the complex frequency in units of twice the hopping -/
noncomputable def xOf (omega eta t : ℝ) : ℂ := ((omega : ℂ) + eta * I) / ((2 * |t| : ℝ) : ℂ)

theorem xOf_im {omega eta t : ℝ} (he : 0 < eta) (ht : t ≠ 0) : 0 < (xOf omega eta t).im := by
  unfold xOf
  rw [Complex.div_ofReal_im]
  simp only [add_im, ofReal_im, mul_im, ofReal_re, I_im, I_re]
  have := abs_pos.2 ht
  have : 0 < eta / (2 * |t|) := by positivity
  simpa using this

/-- `g0_delta_omega` for non-zero hopping, with its square roots simplified -/
theorem g0R_eq (delta omega a : ℝ) {eta t : ℝ} (he : 0 < eta) (ht : t ≠ 0) :
    g0R delta omega a eta t = yRoot (xOf omega eta t) ^ ((|delta * a| : ℝ) : ℂ) *
      (-I / (((2 * |t| : ℝ) : ℂ) * Complex.sqrt (1 - xOf omega eta t ^ 2))) := by
  unfold g0R
  rw [if_neg ht]
  simp only
  have hB : 0 < 2 * |t| := by have := abs_pos.2 ht; linarith
  have hBc : ((2 * |t| : ℝ) : ℂ) ≠ 0 := by exact_mod_cast hB.ne'
  have h1 : (((2 * |t| : ℝ) : ℂ)) ^ 2 - ((omega : ℂ) + eta * I) ^ 2 =
      ((2 * |t| : ℝ) : ℂ) ^ 2 * (1 - xOf omega eta t ^ 2) := by
    unfold xOf
    field_simp
  rw [h1, csqrt_mul hB (sq_region (xOf_im he ht))]
  rfl

/-- for integer distance and unit lattice constant the power is an ordinary one -/
theorem g0R_int (d : ℤ) (omega : ℝ) {eta t : ℝ} (he : 0 < eta) (ht : t ≠ 0) :
    g0R d omega 1 eta t = yRoot (xOf omega eta t) ^ d.natAbs *
      (-I / (((2 * |t| : ℝ) : ℂ) * Complex.sqrt (1 - xOf omega eta t ^ 2))) := by
  rw [g0R_eq _ _ _ he ht]
  congr 1
  have : (|(d : ℝ) * 1| : ℝ) = ((d.natAbs : ℕ) : ℝ) := by
    rw [mul_one, Nat.cast_natAbs, Int.cast_abs]
  rw [this]
  push_cast
  exact Complex.cpow_natCast _ _

theorem sqrt_ne_zero_of_im {x : ℂ} (hx : 0 < x.im) : Complex.sqrt (1 - x ^ 2) ≠ 0 := by
  intro h
  have := csqrt_re_pos (sq_region hx)
  rw [h] at this
  simp at this

/-- bilateral geometric series -/
theorem hasSum_bilateral {y u : ℂ} (hy : ‖y‖ < 1) (hu : ‖u‖ = 1) :
    HasSum (fun d : ℤ => y ^ d.natAbs * u ^ d) ((1 - y * u)⁻¹ + (1 - y * u⁻¹)⁻¹ * (y * u⁻¹)) := by
  have h1 : ‖y * u‖ < 1 := by rw [norm_mul, hu, mul_one]; exact hy
  have h2 : ‖y * u⁻¹‖ < 1 := by rw [norm_mul, norm_inv, hu, inv_one, mul_one]; exact hy
  apply HasSum.of_nat_of_neg_add_one
  · have := hasSum_geometric_of_norm_lt_one h1
    simp only [mul_pow] at this
    simpa using this
  · have h0 : u ≠ 0 := by intro h; rw [h, norm_zero] at hu; exact zero_ne_one hu
    have := (hasSum_geometric_of_norm_lt_one h2).mul_right (y * u⁻¹)
    refine Eq.mp (congrArg (fun f => HasSum f _) (funext ?_)) this
    intro n
    have e1 : (-((n : ℤ) + 1)).natAbs = n + 1 := by omega
    rw [e1, ← pow_succ, mul_pow, zpow_neg, inv_pow]
    norm_cast

end GGCE
