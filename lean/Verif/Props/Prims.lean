import Verif.Model.RealPrims
import Verif.Spec.Modes
import Mathlib.Topology.Algebra.Order.Field
import Mathlib.Tactic.Linarith
import Mathlib.Tactic.NormNum
import Mathlib.Tactic.FieldSimp

/-! Properties C41 and C42: thermofield prefactors and the coupling map over the real numbers. -/

namespace GGCE.Props
open Spec Filter Topology

/-! ### C41 -/

/-- Bose occupation at temperature `T` -/
noncomputable def bose (T Omega : ℝ) : ℝ := 1 / (Real.exp (Omega / T) - 1)

theorem tfd_eq (T Omega : ℝ) (hT : 0 < T) (hO : 0 < Omega) :
    tfdR T Omega = (1 / Real.sqrt (1 - Real.exp (-(Omega / T))),
      Real.exp (-(Omega / T) / 2) / Real.sqrt (1 - Real.exp (-(Omega / T)))) := by
  unfold tfdR
  have e1 : -(1 / T) * Omega / 2 = -(Omega / T) / 2 := by ring
  have hq : 0 < Omega / T := div_pos hO hT
  have e2 : Real.exp (-(Omega / T) / 2) ^ 2 = Real.exp (-(Omega / T)) := by
    rw [← Real.exp_nat_mul]; congr 1; push_cast; ring
  have hx : Real.exp (-(Omega / T) / 2) ∈ Set.Ioo (-1 : ℝ) 1 :=
    ⟨by linarith [Real.exp_pos (-(Omega / T) / 2)], Real.exp_zero ▸ Real.exp_lt_exp.2 (by linarith)⟩
  simp only [e1]
  rw [Real.cosh_artanh hx, Real.sinh_artanh hx, e2]

/-- C41: for positive temperature and frequency the prefactors are `√(1 + n_B)` and `√n_B`; their
squares differ by 1. -/
theorem C41_thermofield (m : Model ℝ) (Omega : ℝ) (hT : 0 < m.temperature) (hO : 0 < Omega) :
    m.tfdPrefactors realPrims Omega =
      (Real.sqrt (1 + bose m.temperature Omega), Real.sqrt (bose m.temperature Omega)) ∧
    (m.tfdPrefactors realPrims Omega).1 ^ 2 - (m.tfdPrefactors realPrims Omega).2 ^ 2 = 1 := by
  have key : m.tfdPrefactors realPrims Omega =
      (Real.sqrt (1 + bose m.temperature Omega), Real.sqrt (bose m.temperature Omega)) := by
    have h0 : m.tfdPrefactors realPrims Omega = tfdR m.temperature Omega := by
      unfold Model.tfdPrefactors
      rw [if_pos hT]; rfl
    rw [h0, tfd_eq _ _ hT hO]
    have hq : 0 < Omega / m.temperature := div_pos hO hT
    unfold bose
    set q := Omega / m.temperature
    have h1 : 1 < Real.exp q := Real.one_lt_exp_iff.2 hq
    have h2 : Real.exp (-q) = (Real.exp q)⁻¹ := Real.exp_neg q
    have h3 : Real.exp (-q / 2) ^ 2 = Real.exp (-q) := by
      rw [← Real.exp_nat_mul]; congr 1; push_cast; ring
    have h4 : 0 < 1 - Real.exp (-q) := by have := Real.exp_lt_exp.2 (show -q < 0 by linarith); rw [Real.exp_zero] at this; linarith
    have hpos : 0 < Real.exp q - 1 := by linarith
    congr 1
    · rw [show 1 + 1 / (Real.exp q - 1) = (1 - Real.exp (-q))⁻¹ by
        rw [h2]; have := Real.exp_pos q; field_simp; ring, Real.sqrt_inv, one_div]
    · rw [show 1 / (Real.exp q - 1) = Real.exp (-q / 2) ^ 2 / (1 - Real.exp (-q)) by
        rw [h3, h2]; have := Real.exp_pos q; field_simp, Real.sqrt_div (by positivity),
        Real.sqrt_sq (Real.exp_pos _).le]
  refine ⟨key, ?_⟩
  rw [key]
  have hb : 0 ≤ bose m.temperature Omega := by
    have : 1 < Real.exp (Omega / m.temperature) := Real.one_lt_exp_iff.2 (div_pos hO hT)
    exact div_nonneg zero_le_one (by linarith)
  simp only
  rw [Real.sq_sqrt (by linarith), Real.sq_sqrt hb]
  ring

/-- C41: the values at zero temperature are the limits. -/
theorem C41_zero_temperature (m : Model ℝ) (Omega : ℝ) (hO : 0 < Omega) :
    Tendsto (fun T => ({ m with temperature := T } : Model ℝ).tfdPrefactors realPrims Omega)
      (𝓝[>] 0) (𝓝 (1, 0)) ∧
    ({ m with temperature := 0 } : Model ℝ).tfdPrefactors realPrims Omega = (1, 0) := by
  constructor
  · have hdiv : Tendsto (fun T : ℝ => Omega / T) (𝓝[>] 0) atTop := by
      simp only [div_eq_mul_inv]
      exact Tendsto.const_mul_atTop hO tendsto_inv_nhdsGT_zero
    have he : Tendsto (fun T : ℝ => Real.exp (-(Omega / T))) (𝓝[>] 0) (𝓝 0) :=
      Real.tendsto_exp_neg_atTop_nhds_zero.comp hdiv
    have he2 : Tendsto (fun T : ℝ => Real.exp (-(Omega / T) / 2)) (𝓝[>] 0) (𝓝 0) := by
      have := Real.tendsto_exp_neg_atTop_nhds_zero.comp (hdiv.atTop_div_const (show (0 : ℝ) < 2 by norm_num))
      refine this.congr ?_
      intro T
      simp only [Function.comp]
      congr 1; ring
    have hs : Tendsto (fun T : ℝ => Real.sqrt (1 - Real.exp (-(Omega / T)))) (𝓝[>] 0) (𝓝 1) := by
      have h := (Real.continuous_sqrt.tendsto (1 - 0)).comp (tendsto_const_nhds.sub he)
      rw [sub_zero, Real.sqrt_one] at h
      exact h
    have h1 := (tendsto_const_nhds (x := (1 : ℝ))).div hs one_ne_zero
    have h2 := he2.div hs one_ne_zero
    have h3 := h1.prodMk_nhds h2
    rw [div_one, zero_div] at h3
    refine h3.congr' ?_
    filter_upwards [self_mem_nhdsWithin] with T hT
    have hT' : (0 : ℝ) < T := hT
    unfold Model.tfdPrefactors
    rw [if_pos hT']
    exact (tfd_eq T Omega hT' hO).symm
  · unfold Model.tfdPrefactors
    rw [if_neg (lt_irrefl _)]

/-- A model at temperature 1/2 with a frequency of 3/2. -/
example : (0 : ℝ) < (Model.fromParameters (R := ℝ) 1 1 (1 / 2) none 1).temperature ∧ (0 : ℝ) < 3 / 2 := by
  norm_num [Model.fromParameters]

/-! ### C42 -/

theorem mathSqrt_ok {x : ℝ} (hx : 0 ≤ x) : mathSqrt x = .ok (Real.sqrt x) := by
  unfold mathSqrt; rw [if_neg (not_lt.2 hx)]

theorem mathSqrt_eq_iff {x g : ℝ} (hx : 0 ≤ x) : mathSqrt x = .ok g ↔ 0 ≤ g ∧ g ^ 2 = x := by
  rw [mathSqrt_ok hx]
  constructor
  · intro h
    simp only [Except.ok.injEq] at h
    subst h
    exact ⟨Real.sqrt_nonneg _, Real.sq_sqrt hx⟩
  · rintro ⟨h1, rfl⟩
    rw [Real.sqrt_sq h1]

/-- C42: for positive hopping and non-zero frequency, and non-negative `lambda`, the result is exactly
the non-negative number with the documented `lambda`. -/
theorem C42_coupling_map (t Omega lam g : ℝ) (ht : 0 < t) (hO : Omega ≠ 0) (hl : 0 ≤ lam) :
    (realPrims.couplingMap "Holstein" t Omega lam = .ok g ↔ 0 ≤ g ∧ lam = g ^ 2 / (2 * t * |Omega|)) ∧
    (realPrims.couplingMap "Peierls" t Omega lam = .ok g ↔ 0 ≤ g ∧ lam = 2 * g ^ 2 / (t * |Omega|)) ∧
    (realPrims.couplingMap "BondPeierls" t Omega lam = .ok g ↔ 0 ≤ g ∧ lam = g ^ 2 / (t * |Omega|)) ∧
    (realPrims.couplingMap "EdwardsFermionBoson" t Omega lam = .ok g ↔ lam = g) := by
  have hw : 0 < |Omega| := abs_pos.2 hO
  refine ⟨?_, ?_, ?_, ?_⟩
  · show mathSqrt (2 * t * |Omega| * lam) = .ok g ↔ _
    rw [mathSqrt_eq_iff (by positivity)]
    refine and_congr_right fun _ => ?_
    rw [eq_div_iff (by positivity)]
    constructor <;> intro h <;> linarith
  · show mathSqrt (t * |Omega| * lam / 2) = .ok g ↔ _
    rw [mathSqrt_eq_iff (by positivity)]
    refine and_congr_right fun _ => ?_
    rw [eq_div_iff (mul_pos ht hw).ne', eq_div_iff two_ne_zero]
    constructor <;> intro h <;> linarith
  · show mathSqrt (t * |Omega| * lam) = .ok g ↔ _
    rw [mathSqrt_eq_iff (by positivity)]
    refine and_congr_right fun _ => ?_
    rw [eq_div_iff (by positivity)]
    constructor <;> intro h <;> linarith
  · show (Except.ok lam : Py ℝ) = .ok g ↔ _
    simp

/-- C42: the sign of the frequency is irrelevant (so the fictitious mode gets the same strength), the
values at zero hopping or frequency are defined, and exactly the unknown names raise `RuntimeError`. -/
theorem C42_sign_and_names (ct : String) (t Omega lam : ℝ) :
    realPrims.couplingMap ct t (-Omega) lam = realPrims.couplingMap ct t Omega lam ∧
    (realPrims.couplingMap ct t Omega lam = .error .runtimeError ↔ ¬ Known ct) ∧
    (Known ct → 0 ≤ t → 0 ≤ lam → ∃ g, realPrims.couplingMap ct t Omega lam = .ok g) := by
  have hs : ∀ x, mathSqrt x ≠ .error .runtimeError := by
    intro x; unfold mathSqrt; split <;> simp
  refine ⟨?_, ?_, ?_⟩
  · simp only [realPrims, couplingMapR, abs_neg]
  · simp only [realPrims, couplingMapR, Known]
    constructor
    · intro h
      split_ifs at h with h1 h2 h3 h4
      · exact absurd h (hs _)
      · exact absurd h (hs _)
      · exact absurd h (hs _)
      · tauto
    · intro h
      rw [if_neg (by tauto), if_neg (by tauto), if_neg (by tauto), if_neg (by tauto)]
  · rintro (rfl | rfl | rfl | rfl) h1 h2
    · exact ⟨_, mathSqrt_ok (by positivity)⟩
    · exact ⟨_, rfl⟩
    · exact ⟨_, mathSqrt_ok (by positivity)⟩
    · exact ⟨_, mathSqrt_ok (by positivity)⟩

/-- The real primitives know exactly the documented coupling types, as C37 assumes. -/
theorem C42_names : Names realPrims where
  known := fun ct t w l h hc => ((C42_sign_and_names ct t w l).2.1.1 hc) h
  unknown := fun ct t w l h => (C42_sign_and_names ct t w l).2.1.2 h

/-- Holstein with `t = 1`, `Omega = -2`, `lambda = 1` has strength 2. -/
example : realPrims.couplingMap "Holstein" 1 (-2) 1 = .ok 2 :=
  ((C42_coupling_map 1 (-2) 1 2 (by norm_num) (by norm_num) (by norm_num)).1).2 (by norm_num)

end GGCE.Props
