import Verif.Model.Fits
import Mathlib.Tactic.FieldSimp
import Mathlib.Tactic.Positivity
import Mathlib.Tactic.Linarith
import Mathlib.Tactic.LinearCombination

/-! Property C44: the fits of a Lorentzian peak are exact. -/

namespace GGCE.Props

/-- C44: from the values at one frequency `w` of a Lorentzian at `loc` with weight `Z`, for two
different broadenings, `peak_location_and_weight` returns the weight, and the location if `w` is right of
it. Left of the peak it returns the mirror image `2 w - loc`. -/
theorem C44_two_broadenings (w loc Z eta eta' A A' : ℝ) (hw : w ≠ loc) (hZ : Z ≠ 0) (he : 0 < eta)
    (he' : 0 < eta') (hne : eta ≠ eta') (hA : lorentzian w loc Z eta = some A)
    (hA' : lorentzian w loc Z eta' = some A') :
    peakLocationAndWeight w A A' eta eta' = some (w - |w - loc|, Z) := by
  have hpi := Real.pi_pos
  set d := w - loc with hd
  have hd0 : d ≠ 0 := sub_ne_zero.2 hw
  have hq : 0 < d ^ 2 + eta ^ 2 := by positivity
  have hq' : 0 < d ^ 2 + eta' ^ 2 := by positivity
  have eA : A = Z * (eta / Real.pi) / (d ^ 2 + eta ^ 2) := by
    unfold lorentzian divN at hA
    rw [if_neg hq.ne'] at hA
    exact (Option.some.inj hA).symm
  have eA' : A' = Z * (eta' / Real.pi) / (d ^ 2 + eta' ^ 2) := by
    unfold lorentzian divN at hA'
    rw [if_neg hq'.ne'] at hA'
    exact (Option.some.inj hA').symm
  set c := Z / Real.pi * (eta ^ 2 - eta' ^ 2) / ((d ^ 2 + eta ^ 2) * (d ^ 2 + eta' ^ 2)) with hc
  have hsq : eta ^ 2 - eta' ^ 2 ≠ 0 := by
    intro h
    have : (eta - eta') * (eta + eta') = 0 := by linear_combination h
    rcases mul_eq_zero.1 this with h | h
    · exact hne (sub_eq_zero.1 h)
    · linarith
  have hc0 : c ≠ 0 := by
    rw [hc]
    exact div_ne_zero (mul_ne_zero (div_ne_zero hZ hpi.ne') hsq) (mul_pos hq hq').ne'
  have e2 : A * eta - A' * eta' = c * d ^ 2 := by
    rw [eA, eA', hc]; field_simp; ring
  have e1 : A' * eta - A * eta' = c * (eta * eta') := by
    rw [eA, eA', hc]; field_simp; ring
  have hden : (A' * eta - A * eta') * (A * eta - A' * eta') = (c * d) ^ 2 * (eta * eta') := by
    rw [e1, e2]; ring
  have hpos : 0 ≤ (c * d) ^ 2 * (eta * eta') := by positivity
  have hs : Real.sqrt ((c * d) ^ 2 * (eta * eta')) = |c * d| * Real.sqrt (eta * eta') := by
    rw [Real.sqrt_mul (by positivity), Real.sqrt_sq_eq_abs]
  have hse : Real.sqrt (eta * eta') ≠ 0 := (Real.sqrt_pos.2 (by positivity)).ne'
  have habs : |Real.sqrt (eta * eta') * (c * d ^ 2) / (|c * d| * Real.sqrt (eta * eta'))| = |d| := by
    rw [abs_div, abs_mul, abs_mul, abs_mul, abs_abs, abs_mul, abs_of_nonneg (Real.sqrt_nonneg _), abs_pow]
    have h1 : |c| ≠ 0 := abs_ne_zero.2 hc0
    have h2 : |d| ≠ 0 := abs_ne_zero.2 hd0
    field_simp
  unfold peakLocationAndWeight
  simp only [bind, Option.bind, pure]
  rw [sqrtN, if_neg (by have : 0 < eta * eta' := by positivity
                        linarith)]
  simp only
  rw [hden, sqrtN, if_neg (not_lt.2 hpos)]
  simp only
  rw [hs, divN, if_neg (mul_ne_zero (abs_ne_zero.2 (mul_ne_zero hc0 hd0)) hse)]
  simp only
  rw [e2, habs, divN, if_neg he.ne']
  simp only [Option.some.injEq, Prod.mk.injEq, true_and]
  rw [show (w - (w - |d|)) ^ 2 = d ^ 2 by rw [sub_sub_cancel, sq_abs], eA]
  field_simp

/-- C44, as used: right of the peak, location and weight are recovered. -/
theorem C44_recovers (w loc Z eta eta' A A' : ℝ) (hw : loc < w) (hZ : Z ≠ 0) (he : 0 < eta)
    (he' : 0 < eta') (hne : eta ≠ eta') (hA : lorentzian w loc Z eta = some A)
    (hA' : lorentzian w loc Z eta' = some A') :
    peakLocationAndWeight w A A' eta eta' = some (loc, Z) := by
  rw [C44_two_broadenings w loc Z eta eta' A A' hw.ne' hZ he he' hne hA hA', abs_of_pos (sub_pos.2 hw)]
  simp

/-- On the peak the function divides zero by zero. -/
theorem C44_on_peak_fails (loc Z eta eta' A A' : ℝ) (he : 0 < eta) (he' : 0 < eta')
    (hA : lorentzian loc loc Z eta = some A) (hA' : lorentzian loc loc Z eta' = some A') :
    peakLocationAndWeight loc A A' eta eta' = none := by
  have hpi := Real.pi_pos
  have eA : A * eta = Z / Real.pi := by
    unfold lorentzian divN at hA
    rw [if_neg (by simp; exact he.ne')] at hA
    rw [← Option.some.inj hA]; field_simp; ring
  have eA' : A' * eta' = Z / Real.pi := by
    unfold lorentzian divN at hA'
    rw [if_neg (by simp; exact he'.ne')] at hA'
    rw [← Option.some.inj hA']; field_simp; ring
  unfold peakLocationAndWeight
  rw [eA, eA']
  simp only [sub_self, mul_zero, bind, Option.bind, pure]
  rw [sqrtN, if_neg (by have : 0 < eta * eta' := by positivity
                        linarith)]
  simp only
  rw [sqrtN, if_neg (lt_irrefl _)]
  simp [divN]

/-- C44: whatever `peak_location_and_weight_wstep` returns, the Lorentzian with this location and weight
passes through both points. -/
theorem C44_two_frequencies (w w' A A' eta loc Z : ℝ) (he : 0 < eta)
    (h : peakLocationAndWeightWstep w w' A A' eta = some (loc, Z)) :
    lorentzian w loc Z eta = some A ∧ lorentzian w' loc Z eta = some A' := by
  have hpi := Real.pi_pos
  unfold peakLocationAndWeightWstep at h
  simp only [bind, Option.bind, pure] at h
  by_cases hAA : A - A' = 0
  · simp [divN, hAA] at h
  rw [divN, if_neg (pow_ne_zero 2 hAA)] at h
  simp only at h
  rw [divN, if_neg hAA] at h
  simp only at h
  unfold sqrtN at h
  split_ifs at h with hneg
  set f := A * A' * (w - w') ^ 2 / (A - A') ^ 2 with hf
  set m := (w * A - w' * A') / (A - A') with hm
  set s := Real.sqrt (f - eta ^ 2) with hs
  have hs2 : s ^ 2 = f - eta ^ 2 := Real.sq_sqrt (not_lt.1 hneg)
  -- both candidates satisfy the equation
  have cand : ∀ l : ℝ, (l - m) ^ 2 = s ^ 2 → A * ((w - l) ^ 2 + eta ^ 2) = A' * ((w' - l) ^ 2 + eta ^ 2) := by
    intro l hl
    have h1 : (A - A') * m = w * A - w' * A' := by rw [hm]; field_simp
    have h2 : (A - A') ^ 2 * f = A * A' * (w - w') ^ 2 := by rw [hf]; field_simp
    have h3 : (A - A') ^ 2 * ((l - m) ^ 2) = (A - A') ^ 2 * (f - eta ^ 2) := by rw [hl, hs2]
    have h4 : (A - A') * (A * ((w - l) ^ 2 + eta ^ 2) - A' * ((w' - l) ^ 2 + eta ^ 2)) = 0 := by
      have h5 : (A - A') ^ 2 * ((l - m) ^ 2) = ((A - A') * l - (w * A - w' * A')) ^ 2 := by
        rw [← h1]; ring
      rw [h5] at h3
      linear_combination h3 + h2
    exact sub_eq_zero.1 ((mul_eq_zero.1 h4).resolve_left hAA)
  have fin : ∀ l : ℝ, (l - m) ^ 2 = s ^ 2 →
      lorentzian w l (Real.pi * A * ((w - l) ^ 2 + eta ^ 2) / eta) eta = some A ∧
      lorentzian w' l (Real.pi * A * ((w - l) ^ 2 + eta ^ 2) / eta) eta = some A' := by
    intro l hl
    have hq : 0 < (w - l) ^ 2 + eta ^ 2 := by positivity
    have hq' : 0 < (w' - l) ^ 2 + eta ^ 2 := by positivity
    unfold lorentzian divN
    rw [if_neg hq.ne', if_neg hq'.ne']
    constructor
    · congr 1; field_simp
    · congr 1
      rw [show Real.pi * A * ((w - l) ^ 2 + eta ^ 2) = Real.pi * (A * ((w - l) ^ 2 + eta ^ 2)) by ring,
        cand l hl]
      field_simp
  simp only [divN, if_neg he.ne'] at h
  split_ifs at h
  · simp only [Option.some.injEq, Prod.mk.injEq] at h
    obtain ⟨rfl, rfl⟩ := h
    exact fin _ (by ring)
  · simp only [Option.some.injEq, Prod.mk.injEq] at h
    obtain ⟨rfl, rfl⟩ := h
    exact fin _ (by ring)

/-- C44: on two different values of a Lorentzian the function does return something. -/
theorem C44_two_frequencies_defined (w w' A A' eta loc Z : ℝ) (he : 0 < eta) (hAA : A ≠ A')
    (hA : lorentzian w loc Z eta = some A) (hA' : lorentzian w' loc Z eta = some A') :
    ∃ r, peakLocationAndWeightWstep w w' A A' eta = some r := by
  have hpi := Real.pi_pos
  have hq : 0 < (w - loc) ^ 2 + eta ^ 2 := by positivity
  have hq' : 0 < (w' - loc) ^ 2 + eta ^ 2 := by positivity
  have eA : A * ((w - loc) ^ 2 + eta ^ 2) = Z * (eta / Real.pi) := by
    unfold lorentzian divN at hA
    rw [if_neg hq.ne'] at hA
    rw [← Option.some.inj hA]; field_simp
  have eA' : A' * ((w' - loc) ^ 2 + eta ^ 2) = Z * (eta / Real.pi) := by
    unfold lorentzian divN at hA'
    rw [if_neg hq'.ne'] at hA'
    rw [← Option.some.inj hA']; field_simp
  have h0 : A - A' ≠ 0 := sub_ne_zero.2 hAA
  have hdisc : A * A' * (w - w') ^ 2 / (A - A') ^ 2 - eta ^ 2 =
      (loc - (w * A - w' * A') / (A - A')) ^ 2 := by
    field_simp
    linear_combination (A - A') * (eA' - eA)
  unfold peakLocationAndWeightWstep
  simp only [bind, Option.bind, pure]
  rw [divN, if_neg (pow_ne_zero 2 h0)]
  simp only
  rw [divN, if_neg h0]
  simp only
  rw [hdisc, sqrtN, if_neg (not_lt.2 (sq_nonneg _))]
  simp only [divN, if_neg he.ne']
  split_ifs <;> exact ⟨_, rfl⟩

/-- C44: which of the two Lorentzians through both points is returned. If there is one further left, the
returned one has weight at most 1; if there is one further right, that one has weight above 1. -/
theorem C44_two_frequencies_choice (w w' A A' eta loc Z l z : ℝ) (he : 0 < eta) (hAA : A ≠ A')
    (h : peakLocationAndWeightWstep w w' A A' eta = some (loc, Z))
    (hl : lorentzian w l z eta = some A) (hl' : lorentzian w' l z eta = some A') :
    (l < loc → Z ≤ 1) ∧ (loc < l → 1 < z) ∧ (l = loc → z = Z) := by
  have hpi := Real.pi_pos
  have hq : 0 < (w - l) ^ 2 + eta ^ 2 := by positivity
  have hq' : 0 < (w' - l) ^ 2 + eta ^ 2 := by positivity
  have eA : A * ((w - l) ^ 2 + eta ^ 2) = z * (eta / Real.pi) := by
    unfold lorentzian divN at hl
    rw [if_neg hq.ne'] at hl
    rw [← Option.some.inj hl]; field_simp
  have eA' : A' * ((w' - l) ^ 2 + eta ^ 2) = z * (eta / Real.pi) := by
    unfold lorentzian divN at hl'
    rw [if_neg hq'.ne'] at hl'
    rw [← Option.some.inj hl']; field_simp
  have ez : z = Real.pi * A * ((w - l) ^ 2 + eta ^ 2) / eta := by
    rw [mul_assoc, eA]; field_simp
  have h0 : A - A' ≠ 0 := sub_ne_zero.2 hAA
  have hdisc : A * A' * (w - w') ^ 2 / (A - A') ^ 2 - eta ^ 2 =
      (l - (w * A - w' * A') / (A - A')) ^ 2 := by
    field_simp
    linear_combination (A - A') * (eA' - eA)
  unfold peakLocationAndWeightWstep at h
  simp only [bind, Option.bind, pure] at h
  rw [divN, if_neg (pow_ne_zero 2 h0)] at h
  simp only at h
  rw [divN, if_neg h0] at h
  simp only at h
  rw [hdisc, sqrtN, if_neg (not_lt.2 (sq_nonneg _))] at h
  simp only [divN, if_neg he.ne', Real.sqrt_sq_eq_abs] at h
  set m := (w * A - w' * A') / (A - A') with hm
  have hz : l = m + |l - m| ∨ l = m - |l - m| := by
    rcases abs_choice (l - m) with e | e <;> rw [e]
    · left; ring
    · right; ring
  have habs := abs_nonneg (l - m)
  split_ifs at h with hc
  · simp only [Option.some.injEq, Prod.mk.injEq] at h
    obtain ⟨rfl, rfl⟩ := h
    refine ⟨fun hlt => ?_, fun hlt => ?_, fun e => ?_⟩
    · rcases hz with e | e <;> linarith
    · rcases hz with e | e
      · rw [ez, e]; exact hc
      · linarith
    · rw [ez, ← e]
  · simp only [Option.some.injEq, Prod.mk.injEq] at h
    obtain ⟨rfl, rfl⟩ := h
    refine ⟨fun _ => not_lt.1 hc, fun hlt => ?_, fun e => ?_⟩
    · rcases hz with e | e <;> linarith
    · rw [ez, ← e]

/-- C44: a peak of weight at most 1 is recovered from two frequencies, if no other Lorentzian of weight at most 1
through the two points lies to its right. -/
theorem C44_two_frequencies_recovers (w w' A A' eta loc Z : ℝ) (he : 0 < eta) (hAA : A ≠ A') (hZ : Z ≤ 1)
    (hA : lorentzian w loc Z eta = some A) (hA' : lorentzian w' loc Z eta = some A')
    (hother : ∀ l z, loc < l → lorentzian w l z eta = some A → lorentzian w' l z eta = some A' → 1 < z) :
    peakLocationAndWeightWstep w w' A A' eta = some (loc, Z) := by
  obtain ⟨⟨l, z⟩, hr⟩ := C44_two_frequencies_defined w w' A A' eta loc Z he hAA hA hA'
  obtain ⟨h1, h2⟩ := C44_two_frequencies w w' A A' eta l z he hr
  obtain ⟨c1, c2, c3⟩ := C44_two_frequencies_choice w w' A A' eta l z loc Z he hAA hr hA hA'
  rcases lt_trichotomy loc l with hlt | heq | hgt
  · exact absurd (hother l z hlt h1 h2) (not_lt.2 (c1 hlt))
  · rw [hr, ← heq, c3 heq]
  · exact absurd (c2 hgt) (not_lt.2 hZ)

/-- the hypotheses of `C44_two_frequencies_recovers` can be met: a peak at 0 of weight 1, seen at -1 and -2 -/
example : ∃ A A' : ℝ, A ≠ A' ∧ lorentzian (-1) 0 1 1 = some A ∧ lorentzian (-2) 0 1 1 = some A' ∧
    ∀ l z, 0 < l → lorentzian (-1) l z 1 = some A → lorentzian (-2) l z 1 = some A' → 1 < z := by
  have hpi := Real.pi_pos
  refine ⟨1 * (1 / Real.pi) / ((-1 - 0) ^ 2 + 1 ^ 2), 1 * (1 / Real.pi) / ((-2 - 0) ^ 2 + 1 ^ 2), ?_,
    if_neg (by norm_num), if_neg (by norm_num), ?_⟩
  · norm_num
    intro h
    field_simp at h
    norm_num at h
  · intro l z hl h1 h2
    have hq : 0 < (-1 - l) ^ 2 + (1 : ℝ) ^ 2 := by positivity
    have hq' : 0 < (-2 - l) ^ 2 + (1 : ℝ) ^ 2 := by positivity
    unfold lorentzian divN at h1 h2
    rw [if_neg hq.ne'] at h1
    rw [if_neg hq'.ne'] at h2
    have e1 := Option.some.inj h1
    have e2 := Option.some.inj h2
    field_simp at e1 e2
    nlinarith

/-- **C44**, the other side of the peak: from two frequencies right of the peak the function can return the wrong
Lorentzian. A peak at 0 of weight 1 seen at 1 and 2 is reported at 2/3 with weight 5/9. -/
theorem C44_two_frequencies_wrong_peak : ∃ A A' : ℝ, lorentzian 1 0 1 1 = some A ∧ lorentzian 2 0 1 1 = some A' ∧
    peakLocationAndWeightWstep 1 2 A A' 1 = some (2 / 3, 5 / 9) := by
  have hpi := Real.pi_pos
  have hpi0 := hpi.ne'
  refine ⟨1 / (2 * Real.pi), 1 / (5 * Real.pi), ?_, ?_, ?_⟩
  · unfold lorentzian divN
    rw [if_neg (by norm_num)]
    congr 1; field_simp; norm_num
  · unfold lorentzian divN
    rw [if_neg (by norm_num)]
    congr 1; field_simp; norm_num
  · have hne : (1 / (2 * Real.pi) : ℝ) ≠ 1 / (5 * Real.pi) := by
      intro h
      field_simp at h
      norm_num at h
    refine C44_two_frequencies_recovers 1 2 _ _ 1 _ _ one_pos hne (by norm_num) ?_ ?_ ?_
    · unfold lorentzian divN
      rw [if_neg (by norm_num)]
      congr 1; field_simp; norm_num
    · unfold lorentzian divN
      rw [if_neg (by norm_num)]
      congr 1; field_simp; norm_num
    · intro l z hl h1 h2
      have hq : 0 < (1 - l) ^ 2 + (1 : ℝ) ^ 2 := by positivity
      have hq' : 0 < (2 - l) ^ 2 + (1 : ℝ) ^ 2 := by positivity
      unfold lorentzian divN at h1 h2
      rw [if_neg hq.ne'] at h1
      rw [if_neg hq'.ne'] at h2
      have e1 := Option.some.inj h1
      have e2 := Option.some.inj h2
      field_simp at e1 e2
      nlinarith

/-- the hypotheses can be met: a peak at 0 of weight 1, seen at 1 and 2 -/
example : ∃ A A' A'' : ℝ, lorentzian 1 0 1 1 = some A ∧ lorentzian 1 0 1 2 = some A' ∧
    lorentzian 2 0 1 1 = some A'' ∧ A ≠ A'' := by
  have hpi := Real.pi_pos
  refine ⟨_, _, _, if_neg (by norm_num), if_neg (by norm_num), if_neg (by norm_num), ?_⟩
  norm_num
  intro h
  field_simp at h
  norm_num at h

end GGCE.Props
