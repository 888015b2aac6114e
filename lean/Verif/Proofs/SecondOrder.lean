import Verif.Spec.SecondOrder
import Verif.Proofs.MomentumAverage
import Verif.Proofs.OneBoson

/-! The self-energy of one phonon, for the four couplings of the code. -/

set_option linter.unusedSectionVars false

namespace GGCE
open Spec Arr Complex MeasureTheory

/-! ### the propagator as a Fourier integral -/

theorem integral_phase (d : ℤ) (hd : d ≠ 0) :
    ∫ q in (-Real.pi)..Real.pi, Complex.exp (I * (q * d)) = 0 := by
  have hc : I * (d : ℂ) ≠ 0 := mul_ne_zero I_ne_zero (by exact_mod_cast hd)
  have e : ∀ q : ℝ, Complex.exp (I * (q * d)) = Complex.exp (I * d * q) := by
    intro q; congr 1; ring
  simp only [e]
  rw [integral_exp_mul_complex hc]
  have e2 : Complex.exp (I * d * ((Real.pi : ℝ) : ℂ)) = Complex.exp (I * d * ((-Real.pi : ℝ) : ℂ)) := by
    rw [Complex.exp_eq_exp_iff_exists_int]
    exact ⟨d, by push_cast; ring⟩
  rw [e2, sub_self, zero_div]

theorem fourier_continuous {z : ℂ} (hz : 0 < z.im) (t : ℝ) (d : ℤ) :
    Continuous (fun q : ℝ => Complex.exp (I * (q * d)) / (z + 2 * t * Real.cos q)) := by
  refine Continuous.div (by fun_prop) ?_ (cos_denom_ne hz t)
  exact continuous_const.add (continuous_const.mul (Complex.continuous_ofReal.comp Real.continuous_cos))

theorem fourier_g0 {w a eta t : ℝ} (he : 0 < eta) (h : t = 0 ∨ (0 < t ∧ a = 1)) (d : ℤ) :
    realPhys.g0 d w a eta t = 1 / (2 * Real.pi) *
      ∫ q in (-Real.pi)..Real.pi, Complex.exp (I * (q * d)) / ((w : ℂ) + eta * I + 2 * t * Real.cos q) := by
  have hpi := Real.pi_pos
  have hpi' : (Real.pi : ℂ) ≠ 0 := by exact_mod_cast hpi.ne'
  rcases h with rfl | ⟨ht, rfl⟩
  · show g0R _ _ _ _ _ = _
    unfold g0R
    rw [if_pos rfl]
    by_cases hd : d = 0
    · subst hd
      rw [if_neg (by simp)]
      simp only [Complex.ofReal_zero, mul_zero, zero_mul, add_zero, Int.cast_zero, Complex.exp_zero,
        intervalIntegral.integral_const, sub_neg_eq_add, Complex.real_smul]
      push_cast
      field_simp
      ring
    · rw [if_pos (by exact_mod_cast hd)]
      simp only [Complex.ofReal_zero, mul_zero, zero_mul, add_zero]
      rw [intervalIntegral.integral_div, integral_phase d hd]
      simp
  · obtain ⟨-, hsum⟩ := g0_good (w := w) (a := 1) he (Or.inr ⟨ht, rfl⟩)
    obtain ⟨-, -, hF⟩ := Props.C24_propagator w eta t he ht
    have h1 : HasSum (fun x : ℤ => ∫ q in (-Real.pi)..Real.pi, realPhys.g0 x w 1 eta t * realPhys.expI (q * x) *
          Complex.exp (I * (q * (d : ℤ))))
        (∫ q in (-Real.pi)..Real.pi, realPhys.G0 q w 1 eta t * Complex.exp (I * (q * (d : ℤ)))) := by
      refine intervalIntegral.hasSum_integral_of_dominated_convergence (fun x _ => ‖realPhys.g0 x w 1 eta t‖) ?_ ?_ ?_ ?_ ?_
      · intro x
        refine Continuous.aestronglyMeasurable (Continuous.mul (continuous_const.mul ?_) (by fun_prop))
        show Continuous (fun q : ℝ => Complex.exp _)
        fun_prop
      · intro x
        refine Filter.Eventually.of_forall (fun q _ => ?_)
        rw [norm_mul, norm_mul]
        have h2 := norm_phase (q * x)
        have h3 := norm_phase (q * d)
        have e3 : ‖Complex.exp (I * (q * (d : ℤ)))‖ = 1 := by
          rw [← h3]; congr 2; push_cast; ring
        have e2 : ‖realPhys.expI (q * x)‖ = 1 := h2
        rw [e2, e3, mul_one, mul_one]
      · exact Filter.Eventually.of_forall (fun q _ => hsum)
      · exact intervalIntegrable_const
      · exact Filter.Eventually.of_forall (fun q _ => (hF q).mul_right _)
    have h2 : ∀ x : ℤ, x ≠ -d → ∫ q in (-Real.pi)..Real.pi, realPhys.g0 x w 1 eta t * realPhys.expI (q * x) *
          Complex.exp (I * (q * (d : ℤ))) = 0 := by
      intro x hx
      have e : ∀ q : ℝ, realPhys.g0 x w 1 eta t * realPhys.expI (q * x) * Complex.exp (I * (q * (d : ℤ))) =
          realPhys.g0 x w 1 eta t * Complex.exp (I * (q * (x + d : ℤ))) := by
        intro q
        rw [mul_assoc]
        congr 1
        show Complex.exp _ * _ = _
        rw [← Complex.exp_add]
        congr 1
        push_cast; ring
      simp only [e]
      rw [intervalIntegral.integral_const_mul, integral_phase _ (by omega), mul_zero]
    have h3 := h1.unique (hasSum_single (-d) h2)
    have h4 : ∫ q in (-Real.pi)..Real.pi, realPhys.g0 ((-d : ℤ) : ℝ) w 1 eta t * realPhys.expI (q * ((-d : ℤ) : ℝ)) *
          Complex.exp (I * (q * (d : ℤ))) = 2 * Real.pi * realPhys.g0 d w 1 eta t := by
      have e : ∀ q : ℝ, realPhys.expI (q * ((-d : ℤ) : ℝ)) * Complex.exp (I * (q * (d : ℤ))) = 1 := by
        intro q
        show Complex.exp _ * _ = 1
        rw [← Complex.exp_add, ← Complex.exp_zero]
        congr 1
        push_cast; ring
      have e' : realPhys.g0 ((-d : ℤ) : ℝ) w 1 eta t = realPhys.g0 (d : ℝ) w 1 eta t := by
        show g0R _ _ _ _ _ = g0R _ _ _ _ _
        unfold g0R
        simp [ht.ne']
      simp only [mul_assoc, e, e', mul_one, intervalIntegral.integral_const, Complex.real_smul]
      push_cast; ring
    rw [h4] at h3
    have h5 : (∫ q in (-Real.pi)..Real.pi, realPhys.G0 q w 1 eta t * Complex.exp (I * (q * (d : ℤ)))) =
        ∫ q in (-Real.pi)..Real.pi, Complex.exp (I * (q * d)) / ((w : ℂ) + eta * I + 2 * t * Real.cos q) := by
      refine intervalIntegral.integral_congr (fun q _ => ?_)
      show (1 : ℂ) / ((w : ℂ) + I * eta + 2 * t * Real.cos (q * 1)) * _ = _
      rw [mul_one, mul_comm I (eta : ℂ), div_mul_eq_mul_div, one_mul]
    rw [← h5, h3]
    field_simp

/-- a combination of propagators is one integral -/
theorem fourier_sum {w a eta t : ℝ} (he : 0 < eta) (h : t = 0 ∨ (0 < t ∧ a = 1)) (cs : List (ℂ × ℤ)) :
    (cs.map (fun c => c.1 * realPhys.g0 c.2 w a eta t)).sum = 1 / (2 * Real.pi) *
      ∫ q in (-Real.pi)..Real.pi, (cs.map (fun c => c.1 * Complex.exp (I * (q * c.2)))).sum /
        ((w : ℂ) + eta * I + 2 * t * Real.cos q) := by
  have hz : 0 < ((w : ℂ) + eta * I).im := by simpa using he
  suffices hs : Continuous (fun q : ℝ => (cs.map (fun c => c.1 * Complex.exp (I * (q * c.2)))).sum /
        ((w : ℂ) + eta * I + 2 * t * Real.cos q)) ∧ (cs.map (fun c => c.1 * realPhys.g0 c.2 w a eta t)).sum =
      1 / (2 * Real.pi) * ∫ q in (-Real.pi)..Real.pi, (cs.map (fun c => c.1 * Complex.exp (I * (q * c.2)))).sum /
        ((w : ℂ) + eta * I + 2 * t * Real.cos q) from hs.2
  induction cs with
  | nil => simp [continuous_const]
  | cons c cs ih =>
    have e : (fun q : ℝ => ((c :: cs).map (fun c => c.1 * Complex.exp (I * (q * c.2)))).sum /
        ((w : ℂ) + eta * I + 2 * t * Real.cos q)) = (fun q : ℝ => c.1 * (Complex.exp (I * (q * c.2)) /
          ((w : ℂ) + eta * I + 2 * t * Real.cos q)) + (cs.map (fun c => c.1 * Complex.exp (I * (q * c.2)))).sum /
        ((w : ℂ) + eta * I + 2 * t * Real.cos q)) := by
      funext q
      rw [List.map_cons, List.sum_cons, add_div, mul_div_assoc]
    have hc : Continuous (fun q : ℝ => c.1 * (Complex.exp (I * (q * c.2)) /
        ((w : ℂ) + eta * I + 2 * t * Real.cos q))) := continuous_const.mul (fourier_continuous hz t c.2)
    rw [e]
    refine ⟨hc.add ih.1, ?_⟩
    rw [List.map_cons, List.sum_cons, ih.2, intervalIntegral.integral_add (hc.intervalIntegrable _ _)
      (ih.1.intervalIntegrable _ _), intervalIntegral.integral_const_mul, fourier_g0 he h]
    ring

/-! ### the four couplings -/

theorem energy_single_one {m : Model ℝ} {f : ℝ} (h1 : m.nTypes = 1) (hf : m.ham.freqs = [f]) :
    energy m (single m.nTypes 0) = f := by
  rw [h1]
  unfold energy
  simp [hf, single, typeTotal, Arr.zeros]

theorem oneSelf_holstein {m : Model ℝ} {g f : ℝ} (h1 : m.nTypes = 1) (hf : m.ham.freqs = [f])
    (ht : m.ham.terms = termsOf "Holstein" g 0 f) (p : Point ℝ) :
    oneSelf m p = (([((g : ℂ) ^ 2, (0 : ℤ))] : List (ℂ × ℤ)).map (fun c => c.1 * realPhys.g0 c.2 (p.w - f) m.latticeConstant p.eta
      m.ham.hopping)).sum := by
  have h0 := ph_zero m p
  unfold oneSelf oneBack
  rw [energy_single_one h1 hf, ht]
  simp [termsOf, termShapes, Num.int, h0]
  ring

theorem oneSelf_bond {m : Model ℝ} {g f : ℝ} (h1 : m.nTypes = 1) (hf : m.ham.freqs = [f])
    (ht : m.ham.terms = termsOf "BondPeierls" g 0 f) (p : Point ℝ) :
    oneSelf m p = (([((g : ℂ) ^ 2 * ph m p 2, (1 : ℤ)), (2 * g ^ 2, 0), (g ^ 2 * ph m p (-2), -1)] : List (ℂ × ℤ)).map
      (fun c => c.1 * realPhys.g0 c.2 (p.w - f) m.latticeConstant p.eta m.ham.hopping)).sum := by
  have h0 := ph_zero m p
  have e1 : ph m p 1 * ph m p (-1) = 1 := by rw [← ph_add]; exact h0
  have e2 : ph m p 2 = ph m p 1 * ph m p 1 := by rw [← ph_add]; rfl
  have e3 : ph m p (-2) = ph m p (-1) * ph m p (-1) := by rw [← ph_add]; rfl
  unfold oneSelf oneBack
  rw [energy_single_one h1 hf, ht, e2, e3]
  simp [termsOf, termShapes, Num.int]
  norm_num
  linear_combination 2 * g ^ 2 * realPhys.g0 0 (p.w - f) m.latticeConstant p.eta m.ham.hopping * e1

theorem oneSelf_edwards {m : Model ℝ} {g f : ℝ} (h1 : m.nTypes = 1) (hf : m.ham.freqs = [f])
    (ht : m.ham.terms = termsOf "EdwardsFermionBoson" g 0 f) (p : Point ℝ) :
    oneSelf m p = (([((g : ℂ) ^ 2, (2 : ℤ)), (2 * g ^ 2, 0), (g ^ 2, -2)] : List (ℂ × ℤ)).map
      (fun c => c.1 * realPhys.g0 c.2 (p.w - f) m.latticeConstant p.eta m.ham.hopping)).sum := by
  have h0 := ph_zero m p
  unfold oneSelf oneBack
  rw [energy_single_one h1 hf, ht]
  simp [termsOf, termShapes, Num.int, h0]
  ring

theorem oneSelf_peierls {m : Model ℝ} {g f : ℝ} (h1 : m.nTypes = 1) (hf : m.ham.freqs = [f])
    (ht : m.ham.terms = termsOf "Peierls" g 0 f) (p : Point ℝ) :
    oneSelf m p = (([((g : ℂ) ^ 2 * (2 - ph m p 4 - ph m p (-4)), (0 : ℤ)),
        (2 * g ^ 2 * (ph m p 2 - ph m p (-2)), 1), (2 * g ^ 2 * (ph m p (-2) - ph m p 2), -1),
        (2 * g ^ 2, 0), (-g ^ 2, 2), (-g ^ 2, -2)] : List (ℂ × ℤ)).map
      (fun c => c.1 * realPhys.g0 c.2 (p.w - f) m.latticeConstant p.eta m.ham.hopping)).sum := by
  have h0 := ph_zero m p
  have e1 : ph m p 2 * ph m p (-2) = 1 := by rw [← ph_add]; exact h0
  have e2 : ph m p 4 = ph m p 2 * ph m p 2 := by rw [← ph_add]; rfl
  have e3 : ph m p (-4) = ph m p (-2) * ph m p (-2) := by rw [← ph_add]; rfl
  unfold oneSelf oneBack
  rw [energy_single_one h1 hf, ht, e2, e3]
  simp [termsOf, termShapes, Num.int, h0]
  linear_combination 2 * g ^ 2 * realPhys.g0 0 (p.w - f) m.latticeConstant p.eta m.ham.hopping * e1

/-! ### the vertices -/

theorem ph_even (m : Model ℝ) (p : Point ℝ) (s : ℤ) :
    ph m p (2 * s) = Complex.exp (I * ((p.k * m.latticeConstant : ℝ) * s)) := by
  show Complex.exp _ = _
  congr 1
  push_cast; ring

theorem exp_pair (x : ℝ) : ∃ Q Q' : ℂ, Q * Q' = 1 ∧ Complex.exp (I * (x * (1 : ℤ))) = Q ∧
    Complex.exp (I * (x * (-1 : ℤ))) = Q' ∧ Complex.exp (I * (x * (2 : ℤ))) = Q ^ 2 ∧
    Complex.exp (I * (x * (-2 : ℤ))) = Q' ^ 2 ∧ Complex.cos x = (Q + Q') / 2 ∧ Complex.sin x = (Q' - Q) * I / 2 := by
  refine ⟨Complex.exp (I * x), Complex.exp (-(I * x)), ?_, ?_, ?_, ?_, ?_, ?_, ?_⟩
  · rw [← Complex.exp_add, add_neg_cancel, Complex.exp_zero]
  · congr 1; push_cast; ring
  · congr 1; push_cast; ring
  · rw [← Complex.exp_nat_mul]; congr 1; push_cast; ring
  · rw [← Complex.exp_nat_mul]; congr 1; push_cast; ring
  · rw [Complex.cos]; congr 3
    · ring
    · ring
  · rw [Complex.sin]; congr 3
    congr 1
    · ring
    · congr 1; ring

/-- the self-energy of one phonon is that of second-order perturbation theory -/
theorem oneSelf_eq {m : Model ℝ} {ct : String} {g f : ℝ} (h1 : m.nTypes = 1) (hf : m.ham.freqs = [f])
    (ht : m.ham.terms = termsOf ct g 0 f)
    (hct : ct = "Holstein" ∨ ct = "EdwardsFermionBoson" ∨ ct = "Peierls" ∨ ct = "BondPeierls")
    (hl : m.ham.hopping = 0 ∨ (0 < m.ham.hopping ∧ m.latticeConstant = 1)) (p : Point ℝ) (he : 0 < p.eta) :
    oneSelf m p = secondOrderSelf ct g m.ham.hopping f (p.k * m.latticeConstant) (p.w + p.eta * I) := by
  have key : ∀ cs : List (ℂ × ℤ), (∀ q : ℝ, (cs.map (fun c => c.1 * Complex.exp (I * (q * c.2)))).sum =
      ((vertex ct g (p.k * m.latticeConstant) q ^ 2 : ℝ) : ℂ)) →
      (cs.map (fun c => c.1 * realPhys.g0 c.2 (p.w - f) m.latticeConstant p.eta m.ham.hopping)).sum =
      secondOrderSelf ct g m.ham.hopping f (p.k * m.latticeConstant) (p.w + p.eta * I) := by
    intro cs h
    rw [fourier_sum he hl]
    unfold secondOrderSelf
    congr 1
    refine intervalIntegral.integral_congr (fun q _ => ?_)
    simp only [h]
    congr 2
    push_cast; ring
  obtain ⟨E, E', hE, x1, x2, x3, x4, x5, x6⟩ := exp_pair (p.k * m.latticeConstant)
  have p2 : ph m p 2 = E := by rw [show (2 : ℤ) = 2 * 1 by norm_num, ph_even, x1]
  have p2' : ph m p (-2) = E' := by rw [show (-2 : ℤ) = 2 * (-1) by norm_num, ph_even, x2]
  have p4 : ph m p 4 = E ^ 2 := by rw [show (4 : ℤ) = 2 * 2 by norm_num, ph_even, x3]
  have p4' : ph m p (-4) = E' ^ 2 := by rw [show (-4 : ℤ) = 2 * (-2) by norm_num, ph_even, x4]
  set κ : ℝ := p.k * m.latticeConstant with hκ
  rcases hct with rfl | rfl | rfl | rfl
  · rw [oneSelf_holstein h1 hf ht]
    refine key _ (fun q => ?_)
    simp [vertex]
  · rw [oneSelf_edwards h1 hf ht]
    refine key _ (fun q => ?_)
    obtain ⟨Q, Q', hQ, -, -, y3, y4, y5, -⟩ := exp_pair q
    simp only [List.map_cons, List.map_nil, List.sum_cons, List.sum_nil]
    rw [y3, y4]
    simp [vertex, y5]
    linear_combination -2 * (g : ℂ) ^ 2 * hQ
  · rw [oneSelf_peierls h1 hf ht, p4, p4', p2, p2']
    refine key _ (fun q => ?_)
    obtain ⟨Q, Q', hQ, y1, y2, y3, y4, -, y6⟩ := exp_pair q
    simp only [List.map_cons, List.map_nil, List.sum_cons, List.sum_nil]
    rw [y1, y2, y3, y4]
    simp only [Int.cast_zero, mul_zero, Complex.exp_zero]
    have hv : ((vertex "Peierls" g κ q ^ 2 : ℝ) : ℂ) = (2 * g * (Complex.sin κ - Complex.sin q)) ^ 2 := by
      simp [vertex]
    rw [hv, x6, y6]
    linear_combination -2 * (g : ℂ) ^ 2 * hE - 2 * (g : ℂ) ^ 2 * hQ -
      (g : ℂ) ^ 2 * (E' - E - Q' + Q) ^ 2 * Complex.I_sq
  · rw [oneSelf_bond h1 hf ht, p2, p2']
    refine key _ (fun q => ?_)
    obtain ⟨Q, Q', hQ, y1, y2, -, -, y5, y6⟩ := exp_pair q
    simp only [List.map_cons, List.map_nil, List.sum_cons, List.sum_nil]
    rw [y1, y2]
    simp only [Int.cast_zero, mul_zero, Complex.exp_zero]
    have hv : ((vertex "BondPeierls" g κ q ^ 2 : ℝ) : ℂ) = 2 * g ^ 2 * (1 + Complex.cos (κ + q)) := by
      have h := Real.cos_sq ((κ + q) / 2)
      have e : vertex "BondPeierls" g κ q ^ 2 = 2 * g ^ 2 * (1 + Real.cos (κ + q)) := by
        simp only [vertex]
        rw [show (2 : ℝ) * ((κ + q) / 2) = κ + q by ring] at h
        simp only [if_neg (show ¬ "BondPeierls" = "Holstein" by decide), if_true]
        rw [mul_pow, h]; ring
      rw [e]; push_cast; ring
    rw [hv, Complex.cos_add, x5, x6, y5, y6]
    linear_combination ((g : ℂ) ^ 2 * (E' - E) * (Q' - Q) / 2) * Complex.I_sq

end GGCE
