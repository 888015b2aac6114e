import Verif.Model.Float
import Verif.Proofs.Propagator

/-! Rounding errors in the evaluation of the free propagator. -/

namespace GGCE

open Complex

/-- Two numbers whose roots have real parts `≥ h` and `≥ 0`. -/
theorem csqrt_sub {z z' : ℂ} {h : ℝ} (hh : 0 < h) (hz : h ≤ (Complex.sqrt z).re) :
    ‖Complex.sqrt z' - Complex.sqrt z‖ ≤ ‖z' - z‖ / h := by
  rw [le_div_iff₀ hh]
  have e : z' - z = (Complex.sqrt z' - Complex.sqrt z) * (Complex.sqrt z' + Complex.sqrt z) := by
    conv_lhs => rw [← csqrt_sq z', ← csqrt_sq z]
    ring
  rw [e, norm_mul]
  refine mul_le_mul_of_nonneg_left ?_ (norm_nonneg _)
  have h1 := Complex.abs_re_le_norm (Complex.sqrt z' + Complex.sqrt z)
  have h2 := csqrt_re_nonneg z'
  rw [add_re, abs_of_nonneg (by linarith)] at h1
  linarith

/-- the root in the prefactor has a real part at least the broadening -/
theorem csqrt_re_ge (B omega : ℝ) {eta : ℝ} (he : 0 < eta) (hB : 0 ≤ B) :
    eta ≤ (Complex.sqrt ((B : ℂ) ^ 2 - ((omega : ℂ) + eta * I) ^ 2)).re := by
  set s := Complex.sqrt ((B : ℂ) ^ 2 - ((omega : ℂ) + eta * I) ^ 2) with hs
  have h0 : 0 ≤ s.re := csqrt_re_nonneg _
  have h2 : s ^ 2 = (B : ℂ) ^ 2 - ((omega : ℂ) + eta * I) ^ 2 := csqrt_sq _
  have hr : s.re ^ 2 - s.im ^ 2 = B ^ 2 - omega ^ 2 + eta ^ 2 := by
    have := congrArg Complex.re h2
    simp [sq] at this
    nlinarith
  have hi : s.re * s.im = - (omega * eta) := by
    have := congrArg Complex.im h2
    simp [sq] at this
    linarith
  by_contra hc
  push Not at hc
  -- (re² − eta²)(re² + omega²) = B² re² ≥ 0
  have h3 : (s.re ^ 2 - eta ^ 2) * (s.re ^ 2 + omega ^ 2) = B ^ 2 * s.re ^ 2 := by
    have : s.re ^ 2 * s.im ^ 2 = omega ^ 2 * eta ^ 2 := by
      rw [← mul_pow, hi]; ring
    linear_combination s.re ^ 2 * hr + this
  have h4 : s.re ^ 2 - eta ^ 2 < 0 := by nlinarith
  have h5 : 0 ≤ B ^ 2 * s.re ^ 2 := by positivity
  have h6 : s.re ^ 2 + omega ^ 2 ≤ 0 := by
    by_contra hp
    push Not at hp
    have := mul_neg_of_neg_of_pos h4 hp
    linarith
  have h7 : s.re = 0 := by nlinarith [sq_nonneg s.re, sq_nonneg omega]
  have h8 : omega = 0 := by nlinarith [sq_nonneg s.re, sq_nonneg omega]
  rw [h7, h8] at hr
  nlinarith [sq_nonneg s.im, sq_nonneg B]

/-- a product of two perturbed numbers -/
theorem mul_sub_le {x x' y y' : ℂ} {a b d e : ℝ} (hx : ‖x' - x‖ ≤ a) (hy : ‖y' - y‖ ≤ b) (h1 : ‖x‖ ≤ d)
    (h2 : ‖y'‖ ≤ e) : ‖x' * y' - x * y‖ ≤ a * e + d * b := by
  have : x' * y' - x * y = (x' - x) * y' + x * (y' - y) := by ring
  rw [this]
  refine (norm_add_le _ _).trans ?_
  rw [norm_mul, norm_mul]
  have := norm_nonneg (x' - x)
  have := norm_nonneg x
  have := norm_nonneg y'
  have := norm_nonneg (y' - y)
  have e1 : ‖x' - x‖ * ‖y'‖ ≤ a * e := mul_le_mul hx h2 (by positivity) (by linarith)
  have e2 : ‖x‖ * ‖y' - y‖ ≤ d * b := mul_le_mul h1 hy (by positivity) (by linarith)
  linarith

/-- `fl` after an inexact argument -/
theorem fl_sub {fl : ℂ → ℂ} {u : ℝ} (hu : 0 ≤ u) (h : ∀ z, ‖fl z - z‖ ≤ u * ‖z‖) {z z' : ℂ} {e c : ℝ} (h1 : ‖z' - z‖ ≤ e)
    (h2 : ‖z‖ ≤ c) : ‖fl z' - z‖ ≤ e + u * (c + e) := by
  have : fl z' - z = (fl z' - z') + (z' - z) := by ring
  rw [this]
  refine (norm_add_le _ _).trans ?_
  have h3 : ‖z'‖ ≤ c + e := by
    have := norm_le_norm_add_norm_sub' z' z
    linarith
  have h4 := (h z').trans (mul_le_mul_of_nonneg_left h3 hu)
  linarith

/-- the same, relative errors -/
theorem fl_rel {fl : ℂ → ℂ} {u : ℝ} (hu : 0 ≤ u) (h : ∀ z, ‖fl z - z‖ ≤ u * ‖z‖) {z z' : ℂ} {r : ℝ}
    (h1 : ‖z' - z‖ ≤ r * ‖z‖) : ‖fl z' - z‖ ≤ (r + u * (1 + r)) * ‖z‖ := by
  have := fl_sub hu h h1 le_rfl
  linarith

theorem sq_sub_le {z z' : ℂ} {r : ℝ} (hr : 0 ≤ r) (h1 : ‖z' - z‖ ≤ r * ‖z‖) : ‖z' ^ 2 - z ^ 2‖ ≤ (2 * r + r ^ 2) * ‖z ^ 2‖ := by
  have e : z' ^ 2 - z ^ 2 = (z' - z) * (z' - z) + 2 * z * (z' - z) := by ring
  rw [e]
  refine (norm_add_le _ _).trans ?_
  rw [norm_mul, norm_mul, norm_mul, norm_pow]
  have h2 : ‖(2 : ℂ)‖ = 2 := by simp
  rw [h2]
  have := norm_nonneg (z' - z)
  have := norm_nonneg z
  nlinarith [mul_le_mul h1 h1 (by positivity) (by positivity)]

/-- the inverse of a perturbed number -/
theorem inv_sub_le {s s' : ℂ} {e h : ℝ} (hh : 0 < h) (hs : h ≤ ‖s‖) (h1 : ‖s' - s‖ ≤ e) (h2 : 2 * e ≤ h) :
    ‖1 / s' - 1 / s‖ ≤ 2 * e / h ^ 2 ∧ ‖(1 : ℂ) / s'‖ ≤ 2 / h := by
  have hs' : h / 2 ≤ ‖s'‖ := by
    have := norm_le_norm_add_norm_sub s' s
    linarith
  have n1 : s ≠ 0 := by rw [← norm_pos_iff]; linarith
  have n2 : s' ≠ 0 := by rw [← norm_pos_iff]; linarith
  constructor
  · have : 1 / s' - 1 / s = -(s' - s) / (s' * s) := by field_simp; ring
    rw [this, norm_div, norm_neg, norm_mul, div_le_div_iff₀ (by positivity) (by positivity)]
    have : h ^ 2 ≤ 2 * (‖s'‖ * ‖s‖) := by nlinarith
    have := norm_nonneg (s' - s)
    have he : 0 ≤ e := by linarith
    calc ‖s' - s‖ * h ^ 2 ≤ e * (2 * (‖s'‖ * ‖s‖)) := by
          apply mul_le_mul h1 (by assumption) (by positivity) he
      _ = _ := by ring
  · rw [norm_div, norm_one, div_le_div_iff₀ (by linarith) hh]
    linarith

/-- powers of a perturbed number -/
theorem pow_sub_le {b b' : ℂ} {e : ℝ} (hb : ‖b‖ ≤ 1) (h : ‖b' - b‖ ≤ e) (n : ℕ) :
    ‖b' ^ n - b ^ n‖ ≤ (1 + e) ^ n - 1 := by
  have he : 0 ≤ e := (norm_nonneg _).trans h
  induction n with
  | zero => simp
  | succ n ih =>
    have h1 : ‖b'‖ ≤ 1 + e := by
      have := norm_le_norm_add_norm_sub' b' b
      linarith
    have h2 : ‖b ^ n‖ ≤ 1 := by rw [norm_pow]; exact pow_le_one₀ (norm_nonneg _) hb
    rw [pow_succ, pow_succ]
    refine (mul_sub_le ih h h2 h1).trans (le_of_eq ?_)
    rw [pow_succ]; ring

theorem one_add_pow_le (n : ℕ) {e : ℝ} (he : 0 ≤ e) (hn : n * e ≤ 1) : (1 + e) ^ n - 1 ≤ 2 * (n * e) := by
  have h1 : (1 + e) ^ n ≤ Real.exp (n * e) := by
    have := Real.add_one_le_exp e
    rw [Real.exp_nat_mul]
    exact pow_le_pow_left₀ (by positivity) (by linarith) n
  have h0 : 0 ≤ n * e := by positivity
  have h2 := Real.abs_exp_sub_one_sub_id_le (x := n * e) (by rw [abs_of_nonneg h0]; exact hn)
  have h3 := le_abs_self (Real.exp (n * e) - 1 - n * e)
  nlinarith

/-- the rounded root of a difference of squares -/
theorem root_sub {f1 f2 : ℂ → ℂ} {u : ℝ} (hu : 0 ≤ u) (hu8 : u ≤ 1 / 8) (k1 : ∀ z, ‖f1 z - z‖ ≤ u * ‖z‖)
    (k2 : ∀ z, ‖f2 z - z‖ ≤ u * ‖z‖) {C Y C' Y' : ℂ} {h q c : ℝ} (hh : 0 < h) (hre : h ≤ (Complex.sqrt (C - Y)).re)
    (hq : ‖C‖ + ‖Y‖ ≤ q) (hc : 0 ≤ c) (hC : ‖C' - C‖ ≤ c * u * ‖C‖) (hY : ‖Y' - Y‖ ≤ c * u * ‖Y‖) :
    ‖f2 (Complex.sqrt (f1 (C' - Y'))) - Complex.sqrt (C - Y)‖ ≤ (5 / 4 * c + 9 / 4 + c / 6) * u * q / h := by
  have hq0 : 0 ≤ q := by have := norm_nonneg C; have := norm_nonneg Y; linarith
  have hcu : 0 ≤ c * u := by positivity
  have e1 : ‖(C' - Y') - (C - Y)‖ ≤ c * u * q := by
    have : (C' - Y') - (C - Y) = (C' - C) - (Y' - Y) := by ring
    rw [this]
    refine (norm_sub_le _ _).trans ?_
    have := mul_le_mul_of_nonneg_left hq hcu
    linarith
  have hS : ‖C - Y‖ ≤ q := (norm_sub_le _ _).trans hq
  have e2 := fl_sub hu k1 e1 hS
  have e3 : ‖f1 (C' - Y') - (C - Y)‖ ≤ (9 / 8 * c + 1) * u * q := by
    refine e2.trans ?_
    have : u * (c * u * q) ≤ 1 / 8 * (c * u * q) := mul_le_mul_of_nonneg_right hu8 (by positivity)
    linarith
  have e4 : ‖Complex.sqrt (f1 (C' - Y')) - Complex.sqrt (C - Y)‖ ≤ (9 / 8 * c + 1) * u * q / h :=
    (csqrt_sub hh hre).trans (by gcongr)
  have hs : ‖Complex.sqrt (C - Y)‖ ≤ q / h := by
    have a1 : h ≤ ‖Complex.sqrt (C - Y)‖ := hre.trans (Complex.re_le_norm _)
    have a2 : ‖Complex.sqrt (C - Y)‖ ^ 2 ≤ q := by rw [← norm_pow, csqrt_sq]; exact hS
    rw [le_div_iff₀ hh]
    have := norm_nonneg (Complex.sqrt (C - Y))
    nlinarith
  refine (fl_sub hu k2 e4 hs).trans ?_
  have hX : 0 ≤ u * q / h := by positivity
  have h8 : u * ((9 / 8 * c + 1) * u * q / h) ≤ 1 / 8 * ((9 / 8 * c + 1) * u * q / h) :=
    mul_le_mul_of_nonneg_right hu8 (by positivity)
  have r1 : (9 / 8 * c + 1) * u * q / h = (9 / 8 * c + 1) * (u * q / h) := by ring
  have r2 : u * (q / h) = u * q / h := by ring
  have r3 : (5 / 4 * c + 9 / 4 + c / 6) * u * q / h = (5 / 4 * c + 9 / 4 + c / 6) * (u * q / h) := by ring
  rw [mul_add, r2, r3]
  rw [r1] at h8 ⊢
  have := mul_nonneg hc hX
  linarith

theorem norm_freq (omega eta : ℝ) (he : 0 < eta) : eta ≤ ‖(omega : ℂ) + eta * I‖ := by
  have h := Complex.abs_im_le_norm ((omega : ℂ) + eta * I)
  simp only [add_im, ofReal_im, mul_im, ofReal_re, I_im, I_re] at h
  rw [show (0 : ℝ) + (eta * 1 + 0 * 0) = eta by ring, abs_of_pos he] at h
  exact h

/-- the exact propagator at an integer number of lattice constants -/
theorem g0R_nat {delta omega a eta t : ℝ} (ht : t ≠ 0) {n : ℕ} (hn : |delta * a| = n) :
    g0R delta omega a eta t = (-(((omega : ℂ) + eta * I) / ((2 * |t| : ℝ) : ℂ)) +
      I * Complex.sqrt (1 - (((omega : ℂ) + eta * I) / ((2 * |t| : ℝ) : ℂ)) ^ 2)) ^ n *
      (-I / Complex.sqrt (((2 * |t| : ℝ) : ℂ) ^ 2 - ((omega : ℂ) + eta * I) ^ 2)) := by
  unfold g0R
  rw [if_neg ht, hn]
  simp only
  rw [show (((n : ℕ) : ℝ) : ℂ) = (n : ℂ) by push_cast; rfl, Complex.cpow_natCast]

set_option maxHeartbeats 1000000 in
/-- the propagator, rounded after every operation -/
theorem g0F_sub {fl : ℕ → ℂ → ℂ} {pw : ℂ → ℝ → ℂ} {u v : ℝ} (hu : 0 ≤ u) (hu8 : u ≤ 1 / 8)
    (hfl : ∀ i z, ‖fl i z - z‖ ≤ u * ‖z‖) (hv1 : v ≤ 1)
    (hpw : ∀ (b : ℂ) (n : ℕ), ‖pw b n - b ^ n‖ ≤ v * ‖b ^ n‖)
    {delta omega a eta t : ℝ} (he : 0 < eta) (ht : t ≠ 0) {n : ℕ} (hn : |delta * a| = n) {q : ℝ}
    (hq : (2 * |t|) ^ 2 + ‖(omega : ℂ) + eta * I‖ ^ 2 ≤ q) (h1 : 16 * u * q ≤ eta ^ 2)
    (h2 : 18 * n * u * q ≤ 2 * |t| * eta) :
    ‖g0F fl pw delta omega a eta t - g0R delta omega a eta t‖ ≤
      (81 * n * u * q / (2 * |t| * eta) + 32 * u * q / eta ^ 2 + 7 * v) / eta := by
  rw [g0R_nat ht hn]
  unfold g0F
  rw [if_neg ht, hn]
  simp only
  have hB : 0 < 2 * |t| := by have := abs_pos.2 ht; linarith
  have hW := norm_freq omega eta he
  have hWre : eta ≤ (Complex.sqrt (((2 * |t| : ℝ) : ℂ) ^ 2 - ((omega : ℂ) + eta * I) ^ 2)).re :=
    csqrt_re_ge (2 * |t|) omega he hB.le
  have hXre : eta / (2 * |t|) ≤ (Complex.sqrt (1 - (((omega : ℂ) + eta * I) / ((2 * |t| : ℝ) : ℂ)) ^ 2)).re := by
    have := csqrt_re_ge 1 (omega / (2 * |t|)) (eta := eta / (2 * |t|)) (by positivity) zero_le_one
    rw [show ((1 : ℝ) : ℂ) ^ 2 - (((omega / (2 * |t|) : ℝ) : ℂ) + ((eta / (2 * |t|) : ℝ) : ℂ) * I) ^ 2 =
      1 - (((omega : ℂ) + eta * I) / ((2 * |t| : ℝ) : ℂ)) ^ 2 by push_cast; ring] at this
    exact this
  have hb1 : ‖-(((omega : ℂ) + eta * I) / ((2 * |t| : ℝ) : ℂ)) +
      I * Complex.sqrt (1 - (((omega : ℂ) + eta * I) / ((2 * |t| : ℝ) : ℂ)) ^ 2)‖ ≤ 1 :=
    (norm_yRoot_lt (xOf_im (omega := omega) he ht)).le
  generalize (omega : ℂ) + eta * I = W at *
  have hXn : ‖W / ((2 * |t| : ℝ) : ℂ)‖ = ‖W‖ / (2 * |t|) := by
    rw [norm_div, Complex.norm_real, Real.norm_eq_abs, abs_of_pos hB]
  generalize 2 * |t| = B at *
  have hq2 : eta ^ 2 ≤ q := by nlinarith [sq_nonneg B]
  have hq0 : 0 < q := lt_of_lt_of_le (by positivity) hq2
  have hw := hfl 0 W
  -- the prefactor
  have hw2 : ‖fl 3 (fl 0 W ^ 2) - W ^ 2‖ ≤ 4 * u * ‖W ^ 2‖ := by
    refine (fl_rel hu (hfl 3) (sq_sub_le hu hw)).trans (mul_le_mul_of_nonneg_right ?_ (norm_nonneg _))
    nlinarith [mul_nonneg hu hu, mul_nonneg hu (mul_nonneg hu hu)]
  have hBn : ‖((B : ℝ) : ℂ) ^ 2‖ = B ^ 2 := by
    rw [norm_pow, Complex.norm_real, Real.norm_eq_abs, sq_abs]
  have hs : ‖fl 5 (Complex.sqrt (fl 4 (fl 2 ((B : ℂ) ^ 2) - fl 3 (fl 0 W ^ 2)))) -
      Complex.sqrt ((B : ℂ) ^ 2 - W ^ 2)‖ ≤ 8 * u * q / eta := by
    refine (root_sub hu hu8 (hfl 4) (hfl 5) (c := 4) (q := q) he hWre (by rw [hBn, norm_pow]; exact hq) (by norm_num)
      ((hfl 2 _).trans (by nlinarith [mul_nonneg hu (norm_nonneg ((B : ℂ) ^ 2))])) hw2).trans ?_
    have h0 : 0 ≤ u * q / eta := by positivity
    have r1 : (5 / 4 * 4 + 9 / 4 + 4 / 6) * u * q / eta = (5 / 4 * 4 + 9 / 4 + 4 / 6) * (u * q / eta) := by ring
    have r2 : 8 * u * q / eta = 8 * (u * q / eta) := by ring
    rw [r1, r2]
    linarith
  have hsn : eta ≤ ‖Complex.sqrt ((B : ℂ) ^ 2 - W ^ 2)‖ := hWre.trans (Complex.re_le_norm _)
  generalize Complex.sqrt ((B : ℂ) ^ 2 - W ^ 2) = s at *
  generalize fl 5 (Complex.sqrt (fl 4 (fl 2 ((B : ℂ) ^ 2) - fl 3 (fl 0 W ^ 2)))) = s' at *
  have hZ : 0 ≤ u * q / eta ^ 3 := by positivity
  have hinv := inv_sub_le he hsn hs (by
    rw [mul_div_assoc', div_le_iff₀ he]
    nlinarith)
  have hP : ‖fl 6 (-I / s') - (-I / s)‖ ≤ 18 * (u * q / eta ^ 3) := by
    have a1 : ‖-I / s' - -I / s‖ ≤ 16 * (u * q / eta ^ 3) := by
      have : -I / s' - -I / s = -I * (1 / s' - 1 / s) := by ring
      rw [this, norm_mul, norm_neg, Complex.norm_I, one_mul]
      refine hinv.1.trans (le_of_eq ?_)
      field_simp
      ring
    have a2 : ‖-I / s'‖ ≤ 2 / eta := by
      have : -I / s' = -I * (1 / s') := by ring
      rw [this, norm_mul, norm_neg, Complex.norm_I, one_mul]
      exact hinv.2
    have a3 : u * (2 / eta) ≤ 2 * (u * q / eta ^ 3) := by
      rw [mul_div_assoc', mul_div_assoc', div_le_div_iff₀ he (by positivity)]
      have := mul_le_mul_of_nonneg_left hq2 (by positivity : 0 ≤ u * eta)
      nlinarith
    have a4 : fl 6 (-I / s') - (-I / s) = (fl 6 (-I / s') - (-I / s')) + (-I / s' - -I / s) := by ring
    rw [a4]
    refine (norm_add_le _ _).trans ?_
    have a5 := (hfl 6 (-I / s')).trans (mul_le_mul_of_nonneg_left a2 hu)
    linarith
  have hPn : ‖-I / s‖ ≤ 1 / eta := by
    rw [norm_div, norm_neg, Complex.norm_I]
    exact one_div_le_one_div_of_le he hsn
  generalize -I / s = P at *
  generalize fl 6 (-I / s') = P' at *
  have hZe : u * q / eta ^ 3 ≤ 1 / 16 * (1 / eta) := by
    rw [div_le_iff₀ (by positivity)]
    have : 1 / 16 * (1 / eta) * eta ^ 3 = eta ^ 2 / 16 := by field_simp
    rw [this]
    linarith
  have hP' : ‖P'‖ ≤ 9 / 4 * (1 / eta) := by
    have := norm_le_norm_add_norm_sub' P' P
    have := one_div_pos.2 he
    linarith
  -- the base
  have hx : ‖fl 1 (fl 0 W / (B : ℂ)) - W / (B : ℂ)‖ ≤ 9 / 4 * u * ‖W / (B : ℂ)‖ := by
    have a1 : ‖fl 0 W / (B : ℂ) - W / (B : ℂ)‖ ≤ u * ‖W / (B : ℂ)‖ := by
      rw [← sub_div, norm_div, norm_div, mul_div_assoc']
      gcongr
    refine (fl_rel hu (hfl 1) a1).trans (mul_le_mul_of_nonneg_right ?_ (norm_nonneg _))
    nlinarith
  have hx2 : ‖fl 7 (fl 1 (fl 0 W / (B : ℂ)) ^ 2) - (W / (B : ℂ)) ^ 2‖ ≤ 7 * u * ‖(W / (B : ℂ)) ^ 2‖ := by
    refine (fl_rel hu (hfl 7) (sq_sub_le (by positivity) hx)).trans (mul_le_mul_of_nonneg_right ?_ (norm_nonneg _))
    nlinarith [mul_nonneg hu hu, mul_nonneg hu (mul_nonneg hu hu)]
  have hXq : 1 + ‖W / (B : ℂ)‖ ^ 2 ≤ q / B ^ 2 := by
    rw [hXn, le_div_iff₀ (by positivity)]
    refine le_trans (le_of_eq ?_) hq
    field_simp
  have hXe : eta / B ≤ ‖W / (B : ℂ)‖ := by rw [hXn]; gcongr
  have hY : 0 ≤ u * q / (B * eta) := by positivity
  have hr : u * (q / B ^ 2) / (eta / B) = u * q / (B * eta) := by field_simp
  have hy : ‖fl 9 (Complex.sqrt (fl 8 (1 - fl 7 (fl 1 (fl 0 W / (B : ℂ)) ^ 2)))) -
      Complex.sqrt (1 - (W / (B : ℂ)) ^ 2)‖ ≤ 73 / 6 * (u * q / (B * eta)) := by
    refine (root_sub hu hu8 (hfl 8) (hfl 9) (c := 7) (q := q / B ^ 2) (div_pos he hB) hXre
      (by rw [norm_one, norm_pow]; exact hXq) (by norm_num) (by rw [sub_self, norm_zero]; positivity) hx2).trans
      (le_of_eq ?_)
    rw [← hr]; ring
  generalize fl 9 (Complex.sqrt (fl 8 (1 - fl 7 (fl 1 (fl 0 W / (B : ℂ)) ^ 2)))) = y' at *
  generalize Complex.sqrt (1 - (W / (B : ℂ)) ^ 2) = y at *
  generalize fl 1 (fl 0 W / (B : ℂ)) = x' at *
  generalize W / (B : ℂ) = x at *
  have hxb : u * ‖x‖ ≤ u * q / (B * eta) ∧ u ≤ u * q / (B * eta) := by
    have hxp : 0 < eta / B := div_pos he hB
    have a1 : ‖x‖ ≤ q / B ^ 2 / (eta / B) := by
      rw [le_div_iff₀ hxp]
      nlinarith
    have a2 : 1 ≤ q / B ^ 2 / (eta / B) := by
      rw [le_div_iff₀ hxp]
      nlinarith [sq_nonneg (‖x‖ - 1)]
    rw [← hr, mul_div_assoc]
    exact ⟨mul_le_mul_of_nonneg_left a1 hu, by nlinarith⟩
  have hbase : ‖fl 10 (-x' + I * y') - (-x + I * y)‖ ≤ 18 * (u * q / (B * eta)) := by
    have a1 : ‖(-x' + I * y') - (-x + I * y)‖ ≤ (9 / 4 + 73 / 6) * (u * q / (B * eta)) := by
      have : (-x' + I * y') - (-x + I * y) = -(x' - x) + I * (y' - y) := by ring
      rw [this]
      refine (norm_add_le _ _).trans ?_
      rw [norm_neg, norm_mul, Complex.norm_I, one_mul]
      linarith
    refine (fl_sub hu (hfl 10) a1 hb1).trans ?_
    have : u * ((9 / 4 + 73 / 6) * (u * q / (B * eta))) ≤ 1 / 8 * ((9 / 4 + 73 / 6) * (u * q / (B * eta))) :=
      mul_le_mul_of_nonneg_right hu8 (by positivity)
    linarith
  generalize fl 10 (-x' + I * y') = b' at *
  generalize -x + I * y = b at *
  -- the power
  have hne : (n : ℝ) * (18 * (u * q / (B * eta))) ≤ 1 := by
    rw [show (n : ℝ) * (18 * (u * q / (B * eta))) = 18 * n * u * q / (B * eta) by ring,
      div_le_one (by positivity)]
    exact h2
  have hpow := (pow_sub_le hb1 hbase n).trans (one_add_pow_le n (by positivity) hne)
  have hbn : ‖b ^ n‖ ≤ 1 := by rw [norm_pow]; exact pow_le_one₀ (norm_nonneg _) hb1
  have hb'n : ‖b' ^ n‖ ≤ 3 := by
    have := norm_le_norm_add_norm_sub' (b' ^ n) (b ^ n)
    linarith
  have hv0 : 0 ≤ v := by
    have := hpw 1 0
    simp only [one_pow, norm_one, mul_one] at this
    exact (norm_nonneg _).trans this
  have hN : ‖pw b' n - b ^ n‖ ≤ 2 * (n * (18 * (u * q / (B * eta)))) + 3 * v := by
    have : pw b' n - b ^ n = (pw b' n - b' ^ n) + (b' ^ n - b ^ n) := by ring
    rw [this]
    refine (norm_add_le _ _).trans ?_
    have := (hpw b' n).trans (mul_le_mul_of_nonneg_left hb'n hv0)
    linarith
  have hpn : ‖pw b' n‖ ≤ 6 := by
    have := norm_le_norm_add_norm_sub' (pw b' n) (b ^ n)
    linarith
  generalize pw b' n = p' at *
  generalize b ^ n = p at *
  have hprod := mul_sub_le hN hP hbn hP'
  have hpp : ‖p' * P'‖ ≤ 6 * (9 / 4 * (1 / eta)) := by
    rw [norm_mul]
    exact mul_le_mul hpn hP' (norm_nonneg _) (by norm_num)
  have hue : u * (1 / eta) ≤ u * q / eta ^ 3 := by
    rw [mul_one_div, div_le_div_iff₀ he (by positivity)]
    have := mul_le_mul_of_nonneg_left hq2 (by positivity : 0 ≤ u * eta)
    nlinarith
  have hf : fl 11 (p' * P') - p * P = (fl 11 (p' * P') - p' * P') + (p' * P' - p * P) := by ring
  rw [hf]
  refine (norm_add_le _ _).trans ?_
  have h11 := (hfl 11 (p' * P')).trans (mul_le_mul_of_nonneg_left hpp hu)
  have hE : (81 * n * u * q / (B * eta) + 32 * u * q / eta ^ 2 + 7 * v) / eta =
      9 / 4 * (2 * (n * (18 * (u * q / (B * eta))))) * (1 / eta) + 32 * (u * q / eta ^ 3) + 7 * v * (1 / eta) := by
    field_simp
    ring
  rw [hE]
  have := mul_nonneg hv0 (one_div_pos.2 he).le
  linarith

/-- the propagator without hopping -/
theorem g0F_sub_zero {fl : ℕ → ℂ → ℂ} {pw : ℂ → ℝ → ℂ} {u : ℝ} (hu : 0 ≤ u) (hu8 : u ≤ 1 / 8)
    (hfl : ∀ i z, ‖fl i z - z‖ ≤ u * ‖z‖) {delta omega a eta : ℝ} (he : 0 < eta) :
    ‖g0F fl pw delta omega a eta 0 - g0R delta omega a eta 0‖ ≤ 3 * u / eta := by
  unfold g0F g0R
  rw [if_pos rfl, if_pos rfl]
  split
  · rw [sub_self, norm_zero]; positivity
  have hW := norm_freq omega eta he
  generalize (omega : ℂ) + eta * I = W at *
  have hw := hfl 0 W
  have hW0 : 0 < ‖W‖ := lt_of_lt_of_le he hW
  have hW1 : 7 / 8 * ‖W‖ ≤ ‖fl 0 W‖ := by
    have := norm_le_norm_add_norm_sub (fl 0 W) W
    nlinarith
  generalize fl 0 W = w at *
  have n1 : W ≠ 0 := by rw [← norm_pos_iff]; exact hW0
  have n2 : w ≠ 0 := by rw [← norm_pos_iff]; linarith
  have a1 : ‖1 / w - 1 / W‖ ≤ 8 / 7 * u / eta := by
    have : 1 / w - 1 / W = -(w - W) / (w * W) := by field_simp; ring
    rw [this, norm_div, norm_neg, norm_mul, div_le_div_iff₀ (by positivity) he]
    have b1 : ‖w - W‖ * eta ≤ u * ‖W‖ * eta := mul_le_mul_of_nonneg_right hw he.le
    have b2 : u * ‖W‖ * eta ≤ u * ‖W‖ * (8 / 7 * ‖w‖) := mul_le_mul_of_nonneg_left (by linarith) (by positivity)
    linarith
  have a2 : ‖(1 : ℂ) / w‖ ≤ 8 / 7 / eta := by
    rw [norm_div, norm_one, div_le_div_iff₀ (by linarith) he]
    linarith
  have a3 : fl 1 (1 / w) - 1 / W = (fl 1 (1 / w) - 1 / w) + (1 / w - 1 / W) := by ring
  rw [a3]
  refine (norm_add_le _ _).trans ?_
  have a4 := (hfl 1 (1 / w)).trans (mul_le_mul_of_nonneg_left a2 hu)
  have a5 : u * (8 / 7 / eta) = 8 / 7 * (u / eta) := by ring
  have a6 : 8 / 7 * u / eta = 8 / 7 * (u / eta) := by ring
  have a7 : 3 * u / eta = 3 * (u / eta) := by ring
  have : 0 ≤ u / eta := by positivity
  rw [a7]
  linarith

/-- the momentum-space propagator -/
theorem G0F_sub {fl : ℕ → ℂ → ℂ} {cs : ℝ → ℝ} {u v : ℝ} (hu : 0 ≤ u) (hu8 : u ≤ 1 / 8)
    (hfl : ∀ i z, ‖fl i z - z‖ ≤ u * ‖z‖) (hcs : ∀ x, |cs x - Real.cos x| ≤ v)
    {k omega a eta t : ℝ} (he : 0 < eta) {r : ℝ} (hr : ‖(omega : ℂ) + eta * I‖ + 2 * |t| ≤ r)
    (h1 : 2 * ((9 / 4 * u + 2 * v) * r) ≤ eta) :
    ‖G0F fl cs k omega a eta t - G0R k omega a eta t‖ ≤ ((7 * u + 4 * v) * r / eta) / eta := by
  unfold G0F G0R
  have e0 : (omega : ℂ) + I * eta = (omega : ℂ) + eta * I := by ring
  rw [e0]
  have hW := norm_freq omega eta he
  have hD : eta ≤ ‖(omega : ℂ) + eta * I + 2 * t * Real.cos (k * a)‖ := by
    have := norm_freq (omega + 2 * t * Real.cos (k * a)) eta he
    rw [show (((omega + 2 * t * Real.cos (k * a) : ℝ)) : ℂ) + eta * I =
      (omega : ℂ) + eta * I + 2 * t * Real.cos (k * a) by push_cast; ring] at this
    exact this
  generalize (omega : ℂ) + eta * I = W at *
  have hB : 0 ≤ 2 * |t| := by positivity
  have hv : 0 ≤ v := (abs_nonneg _).trans (hcs 0)
  have n2 : ∀ x : ℝ, ‖2 * (t : ℂ) * (x : ℂ)‖ = 2 * |t| * |x| := by
    intro x
    rw [norm_mul, norm_mul, Complex.norm_real, Complex.norm_real, Real.norm_eq_abs, Real.norm_eq_abs]
    simp
  have c1 : ‖2 * (t : ℂ) * (cs (k * a) : ℂ) - 2 * t * Real.cos (k * a)‖ ≤ 2 * |t| * v := by
    rw [← mul_sub, ← Complex.ofReal_sub, n2]
    exact mul_le_mul_of_nonneg_left (hcs _) hB
  have c2 : ‖2 * (t : ℂ) * Real.cos (k * a)‖ ≤ 2 * |t| := by
    rw [n2]
    exact mul_le_of_le_one_right hB (Real.abs_cos_le_one _)
  have c3 := fl_sub hu (hfl 1) c1 c2
  have w1 := hfl 0 W
  have hr0 : 0 ≤ r := by linarith
  generalize 2 * (t : ℂ) * (Real.cos (k * a) : ℂ) = c at *
  generalize fl 1 (2 * (t : ℂ) * (cs (k * a) : ℂ)) = c' at *
  generalize fl 0 W = w at *
  generalize 2 * |t| = B at *
  have s1 : ‖(w + c') - (W + c)‖ ≤ (u + 9 / 8 * v) * r := by
    have : (w + c') - (W + c) = (w - W) + (c' - c) := by ring
    rw [this]
    refine (norm_add_le _ _).trans ?_
    have b1 : u * (B * v) ≤ 1 / 8 * (B * v) := mul_le_mul_of_nonneg_right hu8 (by positivity)
    have b2 : u * (‖W‖ + B) ≤ u * r := mul_le_mul_of_nonneg_left hr hu
    have b3 : B * v ≤ r * v := mul_le_mul_of_nonneg_right (by linarith) hv
    linarith
  have s2 : ‖W + c‖ ≤ r := (norm_add_le _ _).trans (by linarith)
  have s3 : ‖fl 2 (w + c') - (W + c)‖ ≤ (9 / 4 * u + 2 * v) * r := by
    refine (fl_sub hu (hfl 2) s1 s2).trans ?_
    have b1 : u * ((u + 9 / 8 * v) * r) ≤ 1 / 8 * ((u + 9 / 8 * v) * r) := mul_le_mul_of_nonneg_right hu8 (by positivity)
    have b2 : 0 ≤ u * r := by positivity
    have b3 : 0 ≤ v * r := by positivity
    linarith
  generalize fl 2 (w + c') = d at *
  obtain ⟨i1, i2⟩ := inv_sub_le he hD s3 h1
  have a3 : fl 3 (1 / d) - 1 / (W + c) = (fl 3 (1 / d) - 1 / d) + (1 / d - 1 / (W + c)) := by ring
  rw [a3]
  refine (norm_add_le _ _).trans ?_
  have a4 := (hfl 3 (1 / d)).trans (mul_le_mul_of_nonneg_left i2 hu)
  have hre : eta ≤ r := by linarith
  have a5 : u * (2 / eta) ≤ 2 * u * r / eta ^ 2 := by
    rw [mul_div_assoc', div_le_div_iff₀ he (by positivity)]
    have := mul_le_mul_of_nonneg_left hre (by positivity : 0 ≤ u * eta)
    nlinarith
  have a6 : (7 * u + 4 * v) * r / eta / eta = 2 * ((9 / 4 * u + 2 * v) * r) / eta ^ 2 + 2 * u * r / eta ^ 2 +
      1 / 2 * (u * r / eta ^ 2) := by
    field_simp
    ring
  have : 0 ≤ u * r / eta ^ 2 := by positivity
  rw [a6]
  linarith

end GGCE
