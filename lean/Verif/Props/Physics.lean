import Verif.Proofs.Propagator

/-! Properties C24 and C25: the free propagators, for the functions of `ggce/utils/physics.py` over the
real and complex numbers. -/

namespace GGCE.Props

open Complex

/-- `g` solves the equation of motion of a particle hopping with amplitude `t` on the chain, at complex
energy `z`, with a unit source at site 0: `(z - H) g = δ_0` with `H g (d) = -t (g (d-1) + g (d+1))`. -/
def Propagates (z : ℂ) (t : ℝ) (g : ℤ → ℂ) : Prop :=
  ∀ d : ℤ, z * g d + t * (g (d - 1) + g (d + 1)) = if d = 0 then 1 else 0

/-! ### C25 -/

/-- C25: the denominator of `G0` never vanishes, `G0` is its reciprocal, and the imaginary part is
negative. -/
theorem C25_free_weight (k w a t eta : ℝ) (he : 0 < eta) :
    ((w : ℂ) + I * eta + 2 * t * Real.cos (k * a)) ≠ 0 ∧
    realPhys.G0 k w a eta t * ((w : ℂ) + I * eta + 2 * t * Real.cos (k * a)) = 1 ∧
    (realPhys.G0 k w a eta t).im < 0 := by
  have him : ((w : ℂ) + I * eta + 2 * t * Real.cos (k * a)).im = eta := by
    have : ((2 : ℂ) * t * Real.cos (k * a)).im = 0 := by
      rw [show (2 : ℂ) * t * Real.cos (k * a) = ((2 * t * Real.cos (k * a) : ℝ) : ℂ) by push_cast; rfl]
      exact ofReal_im _
    rw [add_im, add_im, this]
    simp
  have h0 : ((w : ℂ) + I * eta + 2 * t * Real.cos (k * a)) ≠ 0 := by
    intro h
    rw [h] at him
    simp at him
    exact he.ne him
  refine ⟨h0, ?_, ?_⟩
  · show 1 / _ * _ = _
    rw [one_div, inv_mul_cancel₀ h0]
  · show (1 / _ : ℂ).im < 0
    rw [one_div, inv_im, him]
    exact div_neg_of_neg_of_pos (neg_lt_zero.2 he) (normSq_pos.2 h0)

example : (0 : ℝ) < 1 / 10 := by norm_num

/-! ### C24 -/

theorem pref_ne_zero {omega eta t : ℝ} (he : 0 < eta) (ht : t ≠ 0) :
    (-I / (((2 * |t| : ℝ) : ℂ) * Complex.sqrt (1 - xOf omega eta t ^ 2))) ≠ 0 := by
  have hB : ((2 * |t| : ℝ) : ℂ) ≠ 0 := by
    have := abs_pos.2 ht
    exact_mod_cast (by positivity : (2 * |t| : ℝ) ≠ 0)
  exact div_ne_zero (neg_ne_zero.2 I_ne_zero) (mul_ne_zero hB (sqrt_ne_zero_of_im (xOf_im he ht)))

/-- the value at the source is the reciprocal of `z + 2 |t| y` -/
theorem pref_mul {omega eta t : ℝ} (he : 0 < eta) (ht : t ≠ 0) :
    ((omega : ℂ) + eta * I + 2 * |t| * yRoot (xOf omega eta t)) *
      (-I / (((2 * |t| : ℝ) : ℂ) * Complex.sqrt (1 - xOf omega eta t ^ 2))) = 1 := by
  have hB : ((2 * |t| : ℝ) : ℂ) ≠ 0 := by
    have := abs_pos.2 ht
    exact_mod_cast (by positivity : (2 * |t| : ℝ) ≠ 0)
  have hs := sqrt_ne_zero_of_im (xOf_im (omega := omega) he ht)
  have hx : (omega : ℂ) + eta * I = ((2 * |t| : ℝ) : ℂ) * xOf omega eta t := by
    unfold xOf; rw [mul_div_cancel₀ _ hB]
  rw [hx]
  rw [← mul_div_assoc, div_eq_one_iff_eq (mul_ne_zero hB hs)]
  unfold yRoot
  push_cast
  linear_combination -(2 * |t| : ℂ) * Complex.sqrt (1 - xOf omega eta t ^ 2) * Complex.I_sq

/-- C24: for `eta > 0`, positive hopping and unit lattice constant, `g0` propagates, decays
geometrically in the distance, and its lattice Fourier transform is `G0`. -/
theorem C24_propagator (w eta t : ℝ) (he : 0 < eta) (ht : 0 < t) :
    Propagates (w + eta * I) t (fun d => realPhys.g0 d w 1 eta t) ∧
    (∃ r : ℝ, 0 < r ∧ r < 1 ∧ ∀ d : ℤ, ‖realPhys.g0 d w 1 eta t‖ = ‖realPhys.g0 0 w 1 eta t‖ * r ^ d.natAbs) ∧
    ∀ k : ℝ, HasSum (fun d : ℤ => realPhys.g0 d w 1 eta t * realPhys.expI (k * d)) (realPhys.G0 k w 1 eta t) := by
  have ht0 : t ≠ 0 := ht.ne'
  have hg : ∀ d : ℤ, realPhys.g0 d w 1 eta t = yRoot (xOf w eta t) ^ d.natAbs *
      (-I / (((2 * |t| : ℝ) : ℂ) * Complex.sqrt (1 - xOf w eta t ^ 2))) := fun d => g0R_int d w he ht0
  have hc := pref_mul (omega := w) he ht0
  have hc0 := pref_ne_zero (omega := w) he ht0
  have hx : 0 < (xOf w eta t).im := xOf_im he ht0
  have hsum := yRoot_add_inv (xOf w eta t)
  have hy0 := yRoot_ne_zero (xOf w eta t)
  have hB : ((2 * |t| : ℝ) : ℂ) ≠ 0 := by
    exact_mod_cast (by have := abs_pos.2 ht0; positivity : (2 * |t| : ℝ) ≠ 0)
  have hz : (w : ℂ) + eta * I = ((2 * |t| : ℝ) : ℂ) * xOf w eta t := by
    unfold xOf; rw [mul_div_cancel₀ _ hB]
  have hy1 := norm_yRoot_lt hx
  rw [abs_of_pos ht] at *
  set y := yRoot (xOf w eta t)
  set c := (-I / (((2 * t : ℝ) : ℂ) * Complex.sqrt (1 - xOf w eta t ^ 2)))
  have hrel : (w : ℂ) + eta * I + t * (y + y⁻¹) = 0 := by
    rw [hsum, hz]; push_cast; ring
  refine ⟨?_, ⟨‖y‖, norm_pos_iff.2 hy0, hy1, ?_⟩, ?_⟩
  · intro d
    simp only [hg]
    split
    · rename_i h0
      subst h0
      have e1 : (0 - 1 : ℤ).natAbs = 1 := rfl
      have e2 : (0 + 1 : ℤ).natAbs = 1 := rfl
      rw [e1, e2]
      simp only [Int.natAbs_zero, pow_zero, pow_one, one_mul]
      linear_combination hc
    · rename_i h0
      rcases lt_or_gt_of_ne h0 with h | h
      · obtain ⟨n, hn⟩ : ∃ n : ℕ, d = -((n : ℤ) + 1) := ⟨(-d - 1).toNat, by omega⟩
        have e0 : d.natAbs = n + 1 := by omega
        have e1 : (d - 1).natAbs = n + 2 := by omega
        have e2 : (d + 1).natAbs = n := by omega
        rw [e0, e1, e2]
        have hi : y * y⁻¹ = 1 := mul_inv_cancel₀ hy0
        linear_combination y ^ (n + 1) * c * hrel - t * c * y ^ n * hi
      · obtain ⟨n, hn⟩ : ∃ n : ℕ, d = (n : ℤ) + 1 := ⟨(d - 1).toNat, by omega⟩
        have e0 : d.natAbs = n + 1 := by omega
        have e1 : (d - 1).natAbs = n := by omega
        have e2 : (d + 1).natAbs = n + 2 := by omega
        rw [e0, e1, e2]
        have hi : y * y⁻¹ = 1 := mul_inv_cancel₀ hy0
        linear_combination y ^ (n + 1) * c * hrel - t * c * y ^ n * hi
  · intro d
    have h0 := hg 0
    simp only [Int.cast_zero, Int.natAbs_zero, pow_zero, one_mul] at h0
    rw [hg, h0, norm_mul, norm_pow, mul_comm]
  · intro k
    have hu : ‖Complex.exp (I * k)‖ = 1 := by
      rw [mul_comm]; exact Complex.norm_exp_ofReal_mul_I k
    have hs := (hasSum_bilateral hy1 hu).mul_right c
    have hu0 : Complex.exp (I * k) ≠ 0 := Complex.exp_ne_zero _
    have hcos : Complex.exp (I * k) + (Complex.exp (I * k))⁻¹ = 2 * (Real.cos (k * 1) : ℝ) := by
      rw [← Complex.exp_neg, mul_one, Complex.ofReal_cos, Complex.cos]
      rw [show I * (k : ℂ) = k * I by ring, neg_mul]
      ring
    have hval : ((1 - y * Complex.exp (I * k))⁻¹ + (1 - y * (Complex.exp (I * k))⁻¹)⁻¹ *
        (y * (Complex.exp (I * k))⁻¹)) * c = realPhys.G0 k w 1 eta t := by
      set u := Complex.exp (I * k)
      have n1 : 1 - y * u ≠ 0 := by
        intro h
        have h1 : y * u = 1 := (sub_eq_zero.1 h).symm
        have : ‖y * u‖ = 1 := by rw [h1, norm_one]
        rw [norm_mul, hu, mul_one] at this
        linarith
      have n2 : 1 - y * u⁻¹ ≠ 0 := by
        intro h
        have h1 : y * u⁻¹ = 1 := (sub_eq_zero.1 h).symm
        have : ‖y * u⁻¹‖ = 1 := by rw [h1, norm_one]
        rw [norm_mul, norm_inv, hu, inv_one, mul_one] at this
        linarith
      have hG : realPhys.G0 k w 1 eta t = 1 / ((w : ℂ) + I * eta + 2 * t * Real.cos (k * 1)) := rfl
      rw [hG, eq_div_iff (C25_free_weight k w 1 t eta he).1]
      have hden : (w : ℂ) + I * eta + 2 * t * Real.cos (k * 1) = t * (u + u⁻¹) - t * (y + y⁻¹) := by
        rw [hcos]
        linear_combination hrel
      rw [hden]
      have hi : y * y⁻¹ = 1 := mul_inv_cancel₀ hy0
      have hj : u * u⁻¹ = 1 := mul_inv_cancel₀ hu0
      have hcc : t * (y - y⁻¹) * c = 1 := by
        linear_combination hc - c * hrel
      have hA' : (1 - y * u) * (1 - y * u)⁻¹ = 1 := mul_inv_cancel₀ n1
      have hB' : (1 - y * u⁻¹) * (1 - y * u⁻¹)⁻¹ = 1 := mul_inv_cancel₀ n2
      have : (1 - y * u)⁻¹ + (1 - y * u⁻¹)⁻¹ * (y * u⁻¹) =
          (1 - y ^ 2) * ((1 - y * u)⁻¹ * (1 - y * u⁻¹)⁻¹) := by
        linear_combination -(1 - y * u)⁻¹ * hB' - (1 - y * u⁻¹)⁻¹ * (y * u⁻¹) * hA' -
          y ^ 2 * (1 - y * u)⁻¹ * (1 - y * u⁻¹)⁻¹ * hj
      rw [this]
      have hp : (1 - y * u) * (1 - y * u⁻¹) = y * ((y + y⁻¹) - (u + u⁻¹)) := by
        linear_combination (y ^ 2) * hj - hi
      have hm : (1 - y ^ 2) * c * t = - y := by
        linear_combination -y * hcc - t * c * hi
      have key : (1 - y ^ 2) * c * (t * (u + u⁻¹) - t * (y + y⁻¹)) = (1 - y * u) * (1 - y * u⁻¹) := by
        linear_combination (u + u⁻¹ - (y + y⁻¹)) * hm - hp
      calc (1 - y ^ 2) * ((1 - y * u)⁻¹ * (1 - y * u⁻¹)⁻¹) * c * (t * (u + u⁻¹) - t * (y + y⁻¹))
          = ((1 - y ^ 2) * c * (t * (u + u⁻¹) - t * (y + y⁻¹))) * ((1 - y * u)⁻¹ * (1 - y * u⁻¹)⁻¹) := by ring
        _ = 1 := by rw [key]; linear_combination hA' * ((1 - y * u⁻¹) * (1 - y * u⁻¹)⁻¹) + hB'
    rw [hval] at hs
    refine Eq.mp (congrArg (fun f => HasSum f _) (funext ?_)) hs
    intro d
    rw [hg]
    have : realPhys.expI (k * d) = Complex.exp (I * k) ^ d := by
      show Complex.exp (I * ((k * d : ℝ) : ℂ)) = _
      rw [← Complex.exp_int_mul]
      congr 1
      push_cast
      ring
    rw [this]
    ring

/-- Outside those parameters the property fails, for every energy: with `g0_delta_omega` as written
(hopping enters by its absolute value, the exponent is `|delta * a|`), the equation of motion on the
lattice of sites `delta` holds exactly for zero hopping, or positive hopping and `a = 1`. -/
theorem C24_only_unit_lattice (w eta t a : ℝ) (he : 0 < eta) (ha : 0 < a) :
    Propagates (w + eta * I) t (fun d => realPhys.g0 d w a eta t) ↔ t = 0 ∨ (0 < t ∧ a = 1) := by
  constructor
  · intro h
    by_contra hc
    push Not at hc
    obtain ⟨ht0, hc⟩ := hc
    have h0 := h 0
    simp only [zero_sub, zero_add, if_true] at h0
    have g0 : realPhys.g0 ((0 : ℤ) : ℝ) w a eta t =
        (-I / (((2 * |t| : ℝ) : ℂ) * Complex.sqrt (1 - xOf w eta t ^ 2))) := by
      show g0R _ w a eta t = _
      rw [g0R_eq _ _ _ he ht0]
      simp
    have g1 : ∀ d : ℤ, |d| = 1 → realPhys.g0 (d : ℝ) w a eta t = yRoot (xOf w eta t) ^ (a : ℂ) *
        (-I / (((2 * |t| : ℝ) : ℂ) * Complex.sqrt (1 - xOf w eta t ^ 2))) := by
      intro d hd
      show g0R _ w a eta t = _
      rw [g0R_eq _ _ _ he ht0]
      have : |(d : ℝ) * a| = a := by
        rw [abs_mul, ← Int.cast_abs, hd, abs_of_pos ha]; simp
      rw [this]
    rw [g0, g1 (-1) rfl, g1 1 rfl] at h0
    have hp := pref_mul (omega := w) he ht0
    have hc0 := pref_ne_zero (omega := w) he ht0
    set c := (-I / (((2 * |t| : ℝ) : ℂ) * Complex.sqrt (1 - xOf w eta t ^ 2)))
    have hy0 := yRoot_ne_zero (xOf w eta t)
    have hy1 := norm_yRoot_lt (xOf_im (omega := w) he ht0)
    set y := yRoot (xOf w eta t)
    -- t y^a = |t| y
    have heq : (t : ℂ) * y ^ (a : ℂ) = |t| * y := by
      have : ((t : ℂ) * y ^ (a : ℂ)) * c = (|t| * y) * c := by
        linear_combination (h0 - hp) / 2
      exact mul_right_cancel₀ hc0 this
    have hn := congrArg norm heq
    rw [norm_mul, norm_mul, Complex.norm_cpow_of_ne_zero hy0] at hn
    simp only [norm_real, Real.norm_eq_abs, abs_abs, ofReal_re, ofReal_im, mul_zero, Real.exp_zero,
      div_one] at hn
    have hn' : ‖y‖ ^ a = ‖y‖ := mul_left_cancel₀ (abs_pos.2 ht0).ne' hn
    have hypos : 0 < ‖y‖ := norm_pos_iff.2 hy0
    have ha1 : a = 1 := by
      have h1 : ‖y‖ ^ a = ‖y‖ ^ (1 : ℝ) := by rw [hn', Real.rpow_one]
      exact (Real.rpow_right_inj hypos hy1.ne).1 h1
    have hneg : t < 0 := by
      rcases lt_or_gt_of_ne ht0 with h | h
      · exact h
      · exact absurd ha1 (hc h)
    rw [ha1, abs_of_neg hneg] at heq
    simp only [ofReal_one, cpow_one, ofReal_neg] at heq
    have : (t : ℂ) * y = 0 := by linear_combination heq / 2
    rcases mul_eq_zero.1 this with h | h
    · exact ht0 (by exact_mod_cast h)
    · exact hy0 h
  · rintro (rfl | ⟨ht, rfl⟩)
    · intro d
      have hne : (w : ℂ) + eta * I ≠ 0 := by
        intro h
        have := congrArg Complex.im h
        simp at this
        exact he.ne' this
      show (w + eta * I) * g0R d w a eta 0 + _ = _
      unfold g0R
      rw [if_pos rfl]
      by_cases hd : d = 0
      · subst hd
        simp [hne]
      · have : (d : ℝ) ≠ 0 := by exact_mod_cast hd
        simp [hd]
    · exact (C24_propagator w eta t he ht).1

/-- The hypotheses hold for `eta = 1/10`, `t = 1`, and the failing cases are met by `t = -1` or
`a = 2`. -/
example : (0 : ℝ) < 1 / 10 ∧ (0 : ℝ) < 1 ∧ ¬ ((-1 : ℝ) = 0 ∨ ((0 : ℝ) < -1 ∧ (1 : ℝ) = 1)) ∧
    ¬ ((1 : ℝ) = 0 ∨ ((0 : ℝ) < 1 ∧ (2 : ℝ) = 1)) := by norm_num

end GGCE.Props
