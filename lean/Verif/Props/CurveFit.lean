import Verif.Spec.CurveFit
import Verif.Props.Physics
import Mathlib.Tactic.FieldSimp
import Mathlib.Tactic.Positivity
import Mathlib.Tactic.Linarith
import Mathlib.Tactic.LinearCombination

/-! Property C125: the fit of a Lorentzian with scipy. -/

namespace GGCE.Props
open Spec

theorem squares_nonneg {f : ℝ → Option ℝ} : ∀ {l : List (ℝ × ℝ)} {s : ℝ}, squares f l = some s → 0 ≤ s
  | [], s, h => by cases h; exact le_rfl
  | q :: l, s, h => by
    unfold squares at h
    cases hy : f q.1 with
    | none => rw [hy] at h; cases h
    | some y =>
      cases hr : squares f l with
      | none => rw [hy, hr] at h; cases h
      | some r =>
        rw [hy, hr] at h
        cases h
        have := squares_nonneg hr
        positivity

/-- the sum of squares vanishes if the curve passes through all points, and only then -/
theorem squares_zero {f : ℝ → Option ℝ} : ∀ {l : List (ℝ × ℝ)}, squares f l = some 0 ↔ ∀ q ∈ l, f q.1 = some q.2
  | [] => by simp [squares]
  | q :: l => by
    constructor
    · intro h
      unfold squares at h
      cases hy : f q.1 with
      | none => rw [hy] at h; cases h
      | some y =>
        cases hr : squares f l with
        | none => rw [hy, hr] at h; cases h
        | some r =>
          rw [hy, hr] at h
          have h' : (y - q.2) ^ 2 + r = 0 := Option.some.inj h
          have h1 := squares_nonneg hr
          have h2 := sq_nonneg (y - q.2)
          have h3 : r = 0 := by linarith
          have h4 : (y - q.2) ^ 2 = 0 := by linarith
          have h5 : y = q.2 := sub_eq_zero.1 (pow_eq_zero_iff (two_ne_zero)|>.1 h4)
          intro x hx
          rcases List.mem_cons.1 hx with rfl | hx
          · rw [hy, h5]
          · exact squares_zero.1 (by rw [hr, h3]) x hx
    · intro h
      unfold squares
      rw [h q (by simp), squares_zero.2 (fun x hx => h x (List.mem_cons_of_mem _ hx))]
      simp

theorem lorentzian_eq {w loc Z eta : ℝ} (h : eta ≠ 0) : lorentzian w loc Z eta = some (Lorentz loc Z eta w) := by
  unfold lorentzian divN Lorentz
  rw [if_neg (by positivity)]

/-- three values determine a Lorentzian, up to the common sign of weight and width -/
theorem lorentz_unique {E Z eta E' Z' eta' a b c : ℝ} (hZ : Z ≠ 0) (he : eta ≠ 0) (hab : a ≠ b) (hac : a ≠ c)
    (hbc : b ≠ c) (h : ∀ w ∈ [a, b, c], lorentzian w E' Z' eta' = some (Lorentz E Z eta w)) :
    E' = E ∧ Z' * eta' = Z * eta ∧ eta' ^ 2 = eta ^ 2 := by
  have hpi := Real.pi_pos
  have key : ∀ w ∈ [a, b, c], Z' * eta' * ((w - E) ^ 2 + eta ^ 2) = Z * eta * ((w - E') ^ 2 + eta' ^ 2) := by
    intro w hw
    have h1 := h w hw
    unfold lorentzian divN at h1
    split at h1
    · cases h1
    · rename_i hne
      have h2 := Option.some.inj h1
      unfold Lorentz at h2
      have hq : (w - E) ^ 2 + eta ^ 2 ≠ 0 := by positivity
      rw [div_eq_div_iff hne hq] at h2
      field_simp at h2
      linear_combination h2
  have ha := key a (by simp)
  have hb := key b (by simp)
  have hc := key c (by simp)
  have sab : a - b ≠ 0 := sub_ne_zero.2 hab
  have sac : a - c ≠ 0 := sub_ne_zero.2 hac
  have sbc : b - c ≠ 0 := sub_ne_zero.2 hbc
  set s := Z' * eta'
  set r := Z * eta
  have hr : r ≠ 0 := mul_ne_zero hZ he
  have d1 : s * ((a - E) + (b - E)) = r * ((a - E') + (b - E')) := by
    apply mul_left_cancel₀ sab
    linear_combination ha - hb
  have d2 : s * ((a - E) + (c - E)) = r * ((a - E') + (c - E')) := by
    apply mul_left_cancel₀ sac
    linear_combination ha - hc
  have hs : s = r := by
    apply mul_left_cancel₀ sbc
    linear_combination d1 - d2
  have hE : E' = E := by
    rw [hs] at d1
    have := mul_left_cancel₀ hr d1
    linarith
  refine ⟨hE, hs, ?_⟩
  rw [hs, hE] at ha
  have := mul_left_cancel₀ hr ha
  linarith

theorem zip_values (f : ℝ → ℝ) : ∀ ws : List ℝ, ws.zip (ws.map f) = ws.map (fun w => (w, f w))
  | [] => rfl
  | w :: ws => by rw [List.map_cons, List.zip_cons_cons, zip_values f ws, List.map_cons]

/-- **C125**. Values of one Lorentzian, at frequencies of which at least three are different: if `curve_fit` does what its
documentation says, then `peak_location_and_weight_scipy` raises, or returns the location, and the weight and the
width up to a common sign. -/
theorem C125_recovers (cf : CurveFit) (hcf : LeastSquares cf) (ws : List ℝ) (E Z eta eta0 : ℝ) (hZ : Z ≠ 0) (he : eta ≠ 0)
    (hd : ∃ a b c, [a, b, c].Nodup ∧ [a, b, c] ⊆ ws) (p : Peak)
    (h : peakLocationAndWeightScipy cf ws (ws.map (Lorentz E Z eta)) eta0 = .ok p) :
    p.loc = E ∧ (p.scale = Z ∧ p.eta = eta ∨ p.scale = -Z ∧ p.eta = -eta) := by
  unfold peakLocationAndWeightScipy at h
  cases hl : ws.getLast? with
  | none => rw [hl] at h; cases h
  | some w0 =>
    rw [hl] at h
    obtain ⟨-, -, h3⟩ := hcf (fun w p => lorentzian w p.loc p.scale p.eta) ws (ws.map (Lorentz E Z eta)) ⟨w0, 1, eta0⟩
    obtain ⟨s, hs, hmin⟩ := h3 p h
    rw [zip_values] at hs hmin
    have h0 := hmin ⟨E, Z, eta⟩ 0 (squares_zero.2 (fun q hq => by
      obtain ⟨w, -, rfl⟩ := List.mem_map.1 hq
      exact lorentzian_eq he))
    have hs0 : s = 0 := le_antisymm h0 (squares_nonneg hs)
    rw [hs0] at hs
    have hall := squares_zero.1 hs
    obtain ⟨a, b, c, hnd, hsub⟩ := hd
    simp only [List.nodup_cons, List.mem_cons, List.not_mem_nil, or_false, not_or, not_false_eq_true, List.nodup_nil,
      and_true] at hnd
    obtain ⟨e1, e2, e3⟩ := lorentz_unique (E' := p.loc) (Z' := p.scale) (eta' := p.eta) hZ he hnd.1.1 hnd.1.2 hnd.2
      (fun w hw => hall _ (List.mem_map.2 ⟨w, hsub hw, rfl⟩))
    refine ⟨e1, ?_⟩
    rcases sq_eq_sq_iff_eq_or_eq_neg.1 e3 with h | h
    · rw [h] at e2
      exact Or.inl ⟨mul_right_cancel₀ he e2, h⟩
    · rw [h] at e2
      exact Or.inr ⟨mul_right_cancel₀ he (by linear_combination -e2), h⟩

/-- C125, what is computed from the fit: location and the product of weight and width are right, and so are their absolute
values. -/
theorem C125_absolute (cf : CurveFit) (hcf : LeastSquares cf) (ws : List ℝ) (E Z eta eta0 : ℝ) (hZ : 0 < Z) (he : 0 < eta)
    (hd : ∃ a b c, [a, b, c].Nodup ∧ [a, b, c] ⊆ ws) (p : Peak)
    (h : peakLocationAndWeightScipy cf ws (ws.map (Lorentz E Z eta)) eta0 = .ok p) :
    p.loc = E ∧ |p.scale| = Z ∧ |p.eta| = eta := by
  obtain ⟨h1, h2 | h2⟩ := C125_recovers cf hcf ws E Z eta eta0 hZ.ne' he.ne' hd p h
  · rw [h2.1, h2.2]
    exact ⟨h1, abs_of_pos hZ, abs_of_pos he⟩
  · rw [h2.1, h2.2, abs_neg, abs_neg]
    exact ⟨h1, abs_of_pos hZ, abs_of_pos he⟩

/-- C125, the free electron: from its spectral function at three frequencies or more the fit finds the band energy, and the
weight 1 and the broadening up to a common sign. -/
theorem C125_free (cf : CurveFit) (hcf : LeastSquares cf) (ws : List ℝ) (k a t eta : ℝ) (he : 0 < eta)
    (hd : ∃ a b c, [a, b, c].Nodup ∧ [a, b, c] ⊆ ws) (p : Peak)
    (h : peakLocationAndWeightScipy cf ws (ws.map (fun w => -(realPhys.G0 k w a eta t).im / Real.pi)) eta = .ok p) :
    p.loc = -2 * t * Real.cos (k * a) ∧ |p.scale| = 1 ∧ |p.eta| = eta := by
  refine C125_absolute cf hcf ws (-2 * t * Real.cos (k * a)) 1 eta eta one_pos he hd p ?_
  rw [← h]
  congr 2
  funext w
  have hz : ((w : ℂ) + Complex.I * eta + 2 * t * Real.cos (k * a)) =
      ((w + 2 * t * Real.cos (k * a) : ℝ) : ℂ) + (eta : ℝ) * Complex.I := by
    push_cast; ring
  show Lorentz _ _ _ _ = -(1 / ((w : ℂ) + Complex.I * eta + 2 * t * Real.cos (k * a))).im / Real.pi
  rw [hz, one_div, Complex.inv_im, Complex.normSq_add_mul_I]
  unfold Lorentz
  have him : (((w + 2 * t * Real.cos (k * a) : ℝ) : ℂ) + (eta : ℝ) * Complex.I).im = eta := by
    rw [Complex.add_im, Complex.ofReal_im, Complex.mul_I_im, Complex.ofReal_re, zero_add]
  rw [him, show w - -2 * t * Real.cos (k * a) = w + 2 * t * Real.cos (k * a) by ring]
  have hpi := Real.pi_pos
  have hq : (w + 2 * t * Real.cos (k * a)) ^ 2 + eta ^ 2 ≠ 0 := by positivity
  field_simp

/-- C125: with less than three points there is no result. -/
theorem C125_few (cf : CurveFit) (hcf : LeastSquares cf) (ws As : List ℝ) (eta : ℝ) (h : ws.length < 3) :
    ∃ e, peakLocationAndWeightScipy cf ws As eta = .error e := by
  unfold peakLocationAndWeightScipy
  cases hl : ws.getLast? with
  | none => exact ⟨_, rfl⟩
  | some w => exact (hcf _ ws As ⟨w, 1, eta⟩).2.1 h

open Classical in
/-- a `curve_fit` that returns the given parameters where they are a minimum, and fails otherwise -/
noncomputable def stubborn (p : Peak) : CurveFit := fun f xs ys _ =>
  if xs.length = ys.length ∧ 3 ≤ xs.length ∧ Minimises f (xs.zip ys) p then .ok p else .error .runtimeError

theorem stubborn_ok (p : Peak) : LeastSquares (stubborn p) := by
  intro f xs ys p0
  refine ⟨fun h => ⟨_, if_neg (fun hc => h hc.1)⟩, fun h => ⟨_, if_neg (fun hc => by omega)⟩, fun q hq => ?_⟩
  unfold stubborn at hq
  split at hq
  · rename_i hc
    cases hq
    exact hc.2.2
  · cases hq

theorem stubborn_fit {p : Peak} {ws : List ℝ} {E Z eta eta0 : ℝ} (hn : 3 ≤ ws.length)
    (h : ∀ w ∈ ws, lorentzian w p.loc p.scale p.eta = some (Lorentz E Z eta w)) :
    peakLocationAndWeightScipy (stubborn p) ws (ws.map (Lorentz E Z eta)) eta0 = .ok p := by
  unfold peakLocationAndWeightScipy
  cases hl : ws.getLast? with
  | none =>
    rw [List.getLast?_eq_none_iff] at hl
    rw [hl] at hn
    simp at hn
  | some w0 =>
    refine if_pos ⟨by simp, hn, 0, ?_, fun p' s' hs' => squares_nonneg hs'⟩
    rw [zip_values, squares_zero]
    intro q hq
    obtain ⟨w, hw, rfl⟩ := List.mem_map.1 hq
    exact h w hw

/-- C125: the sign is not determined. Least squares may also return a negative weight (and a negative broadening). -/
theorem C125_sign_fails (ws : List ℝ) (hn : 3 ≤ ws.length) (E Z eta eta0 : ℝ) (he : eta ≠ 0) :
    ∃ cf, LeastSquares cf ∧
      peakLocationAndWeightScipy cf ws (ws.map (Lorentz E Z eta)) eta0 = .ok ⟨E, -Z, -eta⟩ := by
  refine ⟨_, stubborn_ok ⟨E, -Z, -eta⟩, stubborn_fit hn (fun w _ => ?_)⟩
  rw [lorentzian_eq (neg_ne_zero.2 he)]
  unfold Lorentz
  rw [neg_sq, neg_div, neg_mul_neg]

/-- C125: three points at two frequencies do not determine the weight, although `curve_fit` accepts them. -/
theorem C125_two_frequencies_fails : ∃ (cf : CurveFit) (ws : List ℝ), LeastSquares cf ∧ ws.length = 3 ∧
    peakLocationAndWeightScipy cf ws (ws.map (Lorentz 0 1 1)) 1 = .ok ⟨0, 5 / 4, 2⟩ := by
  refine ⟨_, [1, 1, -1], stubborn_ok ⟨0, 5 / 4, 2⟩, rfl, stubborn_fit (by simp) (fun w hw => ?_)⟩
  rw [lorentzian_eq (by norm_num)]
  have hpi := Real.pi_pos
  have : w = 1 ∨ w = -1 := by simpa using hw
  rcases this with rfl | rfl <;> (unfold Lorentz; congr 1; field_simp; norm_num)

/-- the hypotheses are met: three frequencies, and a `curve_fit` that finds the peak -/
example : LeastSquares (stubborn ⟨-2, 1 / 2, 1 / 10⟩) ∧
    (∃ a b c : ℝ, [a, b, c].Nodup ∧ [a, b, c] ⊆ [-3, -2, -1]) ∧
    peakLocationAndWeightScipy (stubborn ⟨-2, 1 / 2, 1 / 10⟩) [-3, -2, -1]
      ([-3, -2, -1].map (Lorentz (-2) (1 / 2) (1 / 10))) (1 / 10) = .ok ⟨-2, 1 / 2, 1 / 10⟩ :=
  ⟨stubborn_ok _, ⟨-3, -2, -1, by norm_num, fun _ h => h⟩, stubborn_fit (by simp) (fun w _ => lorentzian_eq (by norm_num))⟩

end GGCE.Props
