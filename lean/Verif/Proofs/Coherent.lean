import Mathlib.Analysis.SpecialFunctions.Trigonometric.Deriv
import Mathlib.Analysis.SpecialFunctions.ExpDeriv
import Mathlib.Analysis.SpecialFunctions.Sqrt
import Mathlib.Analysis.SpecialFunctions.Exponential
import Mathlib.MeasureTheory.Integral.IntegralEqImproper
import Mathlib.Analysis.SpecialFunctions.ImproperIntegrals
import Mathlib.Analysis.Complex.RealDeriv

/-! Coherent states: the time evolution of a displaced oscillator that starts in its vacuum. -/

set_option linter.unusedSectionVars false

namespace GGCE
open Complex

/-- the displacement at time `s` of an oscillator of frequency `w` pushed with strength `c` -/
noncomputable def cohAlpha (w c s : ℝ) : ℂ := -(c / w) * (1 - exp (-(I * w * s)))

/-- the logarithm of the vacuum amplitude -/
noncomputable def cohPhi (w c s : ℝ) : ℂ := I * (c ^ 2 / w) * s - c ^ 2 / w ^ 2 * (1 - exp (-(I * w * s)))

/-- the amplitude of the state with `j` quanta -/
noncomputable def cohAmp (w c : ℝ) (j : ℕ) (s : ℝ) : ℂ := exp (cohPhi w c s) * cohAlpha w c s ^ j / (Real.sqrt j.factorial : ℝ)

theorem hasDerivAt_wave (w s : ℝ) : HasDerivAt (fun s : ℝ => exp (-(I * w * s))) (-(I * w) * exp (-(I * w * s))) s := by
  have h1 : HasDerivAt (fun s : ℝ => -(I * w * (s : ℂ))) (-(I * w)) s := by
    have := ((hasDerivAt_id s).ofReal_comp.const_mul (-(I * w)))
    simpa using this
  refine h1.cexp.congr_deriv ?_
  ring

theorem hasDerivAt_alpha {w : ℝ} (hw : w ≠ 0) (c s : ℝ) :
    HasDerivAt (cohAlpha w c) (-(I * c) - I * w * cohAlpha w c s) s := by
  have h := (((hasDerivAt_wave w s).const_sub 1).const_mul (-(c / w : ℂ)))
  have hw' : (w : ℂ) ≠ 0 := by exact_mod_cast hw
  refine h.congr_deriv ?_
  unfold cohAlpha
  field_simp
  ring

theorem hasDerivAt_phi {w : ℝ} (hw : w ≠ 0) (c s : ℝ) : HasDerivAt (cohPhi w c) (-(I * c * cohAlpha w c s)) s := by
  have h1 : HasDerivAt (fun s : ℝ => I * (c ^ 2 / w) * (s : ℂ)) (I * (c ^ 2 / w)) s := by
    have := ((hasDerivAt_id s).ofReal_comp.const_mul (I * (c ^ 2 / w : ℂ)))
    simpa using this
  have h := h1.sub (((hasDerivAt_wave w s).const_sub 1).const_mul (c ^ 2 / w ^ 2 : ℂ))
  have hw' : (w : ℂ) ≠ 0 := by exact_mod_cast hw
  refine h.congr_deriv ?_
  unfold cohAlpha
  field_simp

theorem cohAmp_succ (w c : ℝ) (j : ℕ) (s : ℝ) :
    (Real.sqrt ((j : ℝ) + 1) : ℂ) * cohAmp w c (j + 1) s = cohAlpha w c s * cohAmp w c j s := by
  unfold cohAmp
  rw [Nat.factorial_succ]
  push_cast
  rw [Real.sqrt_mul (by positivity)]
  push_cast
  have h1 : ((Real.sqrt ((j : ℝ) + 1) : ℝ) : ℂ) ≠ 0 := by
    exact_mod_cast (Real.sqrt_pos.2 (by positivity)).ne'
  have h2 : ((Real.sqrt (j.factorial : ℝ) : ℝ) : ℂ) ≠ 0 := by
    exact_mod_cast (Real.sqrt_pos.2 (by positivity)).ne'
  field_simp
  ring

/-- the equation of motion -/
theorem hasDerivAt_amp {w : ℝ} (hw : w ≠ 0) (c : ℝ) (j : ℕ) (s : ℝ) :
    HasDerivAt (cohAmp w c j) (-I * (w * j * cohAmp w c j s + c * (Real.sqrt ((j : ℝ) + 1) : ℂ) * cohAmp w c (j + 1) s +
      c * (Real.sqrt (j : ℝ) : ℂ) * cohAmp w c (j - 1) s)) s := by
  have h : HasDerivAt (cohAmp w c j) ((exp (cohPhi w c s) * -(I * c * cohAlpha w c s) * cohAlpha w c s ^ j +
      exp (cohPhi w c s) * (j * cohAlpha w c s ^ (j - 1) * (-(I * c) - I * w * cohAlpha w c s))) /
      ((Real.sqrt j.factorial : ℝ) : ℂ)) s :=
    (((hasDerivAt_phi hw c s).cexp.mul ((hasDerivAt_alpha hw c s).pow j)).div_const
      ((Real.sqrt j.factorial : ℝ) : ℂ))
  refine h.congr_deriv ?_
  have h2 : ∀ j : ℕ, ((Real.sqrt (j.factorial : ℝ) : ℝ) : ℂ) ≠ 0 := fun j => by
    exact_mod_cast (Real.sqrt_pos.2 (by positivity)).ne'
  rw [mul_assoc (c : ℂ) _ (cohAmp w c (j + 1) s), cohAmp_succ]
  cases j with
  | zero =>
    simp only [cohAmp, pow_zero, Nat.cast_zero, Real.sqrt_zero, Complex.ofReal_zero]
    ring
  | succ j =>
    have e1 : ((Real.sqrt (((j + 1 : ℕ)) : ℝ) : ℝ) : ℂ) * cohAmp w c (j + 1 - 1) s =
        (j + 1) * (exp (cohPhi w c s) * cohAlpha w c s ^ j) / (Real.sqrt (j + 1).factorial : ℝ) := by
      rw [Nat.add_sub_cancel]
      unfold cohAmp
      rw [Nat.factorial_succ]
      push_cast
      rw [Real.sqrt_mul (by positivity)]
      push_cast
      have h1 : ((Real.sqrt ((j : ℝ) + 1) : ℝ) : ℂ) ≠ 0 := by
        exact_mod_cast (Real.sqrt_pos.2 (by positivity)).ne'
      have h3 : ((Real.sqrt ((j : ℝ) + 1) : ℝ) : ℂ) ^ 2 = j + 1 := by
        rw [← Complex.ofReal_pow, Real.sq_sqrt (by positivity)]; push_cast; rfl
      have := h2 j
      rw [mul_div_assoc', div_eq_div_iff this (mul_ne_zero h1 this)]
      linear_combination exp (cohPhi w c s) * cohAlpha w c s ^ j * ((Real.sqrt (j.factorial : ℝ) : ℝ) : ℂ) * h3
    rw [mul_assoc (c : ℂ) _ (cohAmp w c (j + 1 - 1) s), e1]
    unfold cohAmp
    rw [Nat.add_sub_cancel]
    push_cast
    ring

theorem re_phi_nonpos (w c s : ℝ) : (cohPhi w c s).re ≤ 0 := by
  have h1 : cohPhi w c s = I * ((c ^ 2 / w * s : ℝ) : ℂ) - ((c ^ 2 / w ^ 2 : ℝ) : ℂ) * (1 - exp (((-(w * s) : ℝ) : ℂ) * I)) := by
    unfold cohPhi; push_cast; ring_nf
  rw [h1, Complex.sub_re, Complex.re_ofReal_mul, Complex.sub_re, Complex.exp_ofReal_mul_I_re, Complex.I_mul_re,
    Complex.ofReal_im, Complex.one_re]
  have := Real.cos_le_one (-(w * s))
  have h2 : 0 ≤ c ^ 2 / w ^ 2 := by positivity
  nlinarith

theorem norm_alpha_le (w c s : ℝ) : ‖cohAlpha w c s‖ ≤ 2 * |c / w| := by
  have h1 : cohAlpha w c s = ((-(c / w) : ℝ) : ℂ) * (1 - exp (((-(w * s) : ℝ) : ℂ) * I)) := by
    unfold cohAlpha; push_cast; ring_nf
  rw [h1, norm_mul, Complex.norm_real, Real.norm_eq_abs, abs_neg, mul_comm]
  refine mul_le_mul_of_nonneg_right ?_ (abs_nonneg _)
  refine (norm_sub_le _ _).trans ?_
  rw [Complex.norm_exp_ofReal_mul_I]
  norm_num

theorem norm_amp_le (w c : ℝ) (j : ℕ) (s : ℝ) : ‖cohAmp w c j s‖ ≤ (2 * |c / w|) ^ j / Real.sqrt j.factorial := by
  unfold cohAmp
  rw [norm_div, norm_mul, norm_pow, Complex.norm_real, Real.norm_of_nonneg (Real.sqrt_nonneg _), Complex.norm_exp]
  refine div_le_div_of_nonneg_right ?_ (Real.sqrt_nonneg _)
  calc Real.exp (cohPhi w c s).re * ‖cohAlpha w c s‖ ^ j ≤ 1 * (2 * |c / w|) ^ j :=
        mul_le_mul (Real.exp_le_one_iff.2 (re_phi_nonpos w c s))
          (pow_le_pow_left₀ (norm_nonneg _) (norm_alpha_le w c s) j) (by positivity) zero_le_one
    _ = _ := one_mul _

theorem cohAmp_zero (w c : ℝ) (j : ℕ) : cohAmp w c j 0 = if j = 0 then 1 else 0 := by
  unfold cohAmp cohPhi cohAlpha
  cases j <;> simp

theorem cohAmp_vacuum (w c s : ℝ) : cohAmp w c 0 s = exp (cohPhi w c s) := by
  unfold cohAmp; simp

end GGCE
