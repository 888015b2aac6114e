import Verif.Proofs.HopsMeasure
import Mathlib.Analysis.SpecialFunctions.Complex.LogBounds

/-! The lower end of a spectral measure. -/

set_option linter.unusedSectionVars false

namespace GGCE
open MeasureTheory Filter Topology
open scoped InnerProductSpace

section
variable {ρ : Measure ℝ} [IsProbabilityMeasure ρ]

/-- powers that stay below those of `r` leave no room beyond the distance `r` -/
theorem support_of_moments {a r : ℝ} (hr : 0 ≤ r) (hi : ∀ j : ℕ, Integrable (fun x : ℝ => (a - x) ^ j) ρ)
    (h : ∀ j : ℕ, ∫ x, (a - x) ^ (2 * j) ∂ρ ≤ r ^ (2 * j)) : ∀ᵐ x ∂ρ, |a - x| ≤ r := by
  have key : ∀ δ : ℝ, 0 < δ → ∀ᵐ x ∂ρ, |a - x| < r + δ := by
    intro δ hδ
    have hz : ρ.real {x | r + δ ≤ |a - x|} = 0 := by
      refine le_antisymm ?_ measureReal_nonneg
      have hq : r / (r + δ) < 1 := by rw [div_lt_one (by linarith)]; linarith
      have hq0 : 0 ≤ r / (r + δ) := by positivity
      have ht : Tendsto (fun j : ℕ => (r / (r + δ)) ^ (2 * j)) atTop (𝓝 0) := by
        have := tendsto_pow_atTop_nhds_zero_of_lt_one (r := (r / (r + δ)) ^ 2) (by positivity)
          (pow_lt_one₀ hq0 hq (by norm_num))
        simpa only [← pow_mul] using this
      refine ge_of_tendsto' ht (fun j => ?_)
      have h1 := mul_meas_ge_le_integral_of_nonneg (μ := ρ) (f := fun x : ℝ => (a - x) ^ (2 * j))
        (Eventually.of_forall (fun x => by
          show 0 ≤ (a - x) ^ (2 * j)
          rw [pow_mul]; positivity)) (hi (2 * j)) ((r + δ) ^ (2 * j))
      have h2 : ρ.real {x | r + δ ≤ |a - x|} ≤ ρ.real {x | (r + δ) ^ (2 * j) ≤ (a - x) ^ (2 * j)} := by
        refine measureReal_mono (fun x hx => ?_)
        show (r + δ) ^ (2 * j) ≤ (a - x) ^ (2 * j)
        rw [pow_mul (a - x), ← sq_abs, ← pow_mul]
        exact pow_le_pow_left₀ (by linarith) hx _
      have hp : 0 < (r + δ) ^ (2 * j) := by positivity
      rw [div_pow, le_div_iff₀ hp, mul_comm]
      exact (mul_le_mul_of_nonneg_left h2 hp.le).trans (h1.trans (h j))
    rw [measureReal_eq_zero_iff] at hz
    rw [ae_iff]
    refine measure_mono_null (fun x hx => ?_) hz
    exact not_lt.1 hx
  have h2 : ∀ᵐ x ∂ρ, ∀ n : ℕ, |a - x| < r + 1 / ((n : ℝ) + 1) := by
    rw [ae_all_iff]
    exact fun n => key _ (by positivity)
  filter_upwards [h2] with x hx
  have ht : Tendsto (fun n : ℕ => r + 1 / ((n : ℝ) + 1)) atTop (𝓝 (r + 0)) :=
    tendsto_const_nhds.add tendsto_one_div_add_atTop_nhds_zero_nat
  rw [add_zero] at ht
  exact ge_of_tendsto' ht (fun n => (hx n).le)

end

/-- comparison of the masses below `x₀` with an exponential average -/
theorem mass_le {ρ₁ ρ₂ : Measure ℝ} [IsProbabilityMeasure ρ₁] [IsProbabilityMeasure ρ₂] {c x₀ s : ℝ}
    (h1 : ∀ᵐ x ∂ρ₁, x ≤ c) (h2 : ∀ᵐ x ∂ρ₂, x ≤ c) (hi1 : ∀ j : ℕ, Integrable (fun x : ℝ => (c - x) ^ j) ρ₁)
    (hi2 : ∀ j : ℕ, Integrable (fun x : ℝ => (c - x) ^ j) ρ₂)
    (hdom : ∀ j : ℕ, ∫ x, (c - x) ^ j ∂ρ₁ ≤ ∫ x, (c - x) ^ j ∂ρ₂) (hs : 0 < s) (hx : x₀ ≤ c)
    (he : Integrable (fun x => Real.exp (-(s * x))) ρ₂) :
    ρ₁.real (Set.Iic x₀) * Real.exp (-(s * x₀)) ≤ ∫ x, Real.exp (-(s * x)) ∂ρ₂ := by
  have hexp : ∀ (p : ℕ) (x : ℝ), (1 + s * (c - x) / p) ^ p =
      ∑ i ∈ Finset.range (p + 1), (s / p) ^ i * (p.choose i) * (c - x) ^ i := by
    intro p x
    rw [add_comm, add_pow]
    refine Finset.sum_congr rfl (fun i _ => ?_)
    rw [one_pow, mul_one, div_pow, mul_pow, div_pow]
    ring
  have hint : ∀ {ρ : Measure ℝ}, (∀ j : ℕ, Integrable (fun x : ℝ => (c - x) ^ j) ρ) → ∀ p : ℕ,
      Integrable (fun x : ℝ => (1 + s * (c - x) / p) ^ p) ρ := by
    intro ρ hi p
    simp only [hexp]
    exact integrable_finset_sum _ (fun i _ => (hi i).const_mul _)
  have hpoly : ∀ p : ℕ, ∫ x, (1 + s * (c - x) / p) ^ p ∂ρ₁ ≤ ∫ x, (1 + s * (c - x) / p) ^ p ∂ρ₂ := by
    intro p
    simp only [hexp]
    rw [integral_finset_sum _ (fun i _ => (hi1 i).const_mul _), integral_finset_sum _ (fun i _ => (hi2 i).const_mul _)]
    refine Finset.sum_le_sum (fun i _ => ?_)
    rw [integral_const_mul, integral_const_mul]
    exact mul_le_mul_of_nonneg_left (hdom i) (by positivity)
  have hex : Integrable (fun x => Real.exp (s * (c - x))) ρ₂ := by
    have := he.const_mul (Real.exp (s * c))
    refine this.congr (Eventually.of_forall (fun x => ?_))
    show Real.exp (s * c) * Real.exp (-(s * x)) = _
    rw [← Real.exp_add]; congr 1; ring
  have hup : ∀ p : ℕ, ∫ x, (1 + s * (c - x) / p) ^ p ∂ρ₂ ≤ ∫ x, Real.exp (s * (c - x)) ∂ρ₂ := by
    intro p
    refine integral_mono_ae (hint hi2 p) hex ?_
    filter_upwards [h2] with x hx
    have hy : 0 ≤ s * (c - x) := mul_nonneg hs.le (by linarith)
    by_cases hp : p = 0
    · subst hp; simp; exact hy
    · have hp' : (0 : ℝ) < p := by positivity
      calc (1 + s * (c - x) / p) ^ p ≤ (Real.exp (s * (c - x) / p)) ^ p := by
            refine pow_le_pow_left₀ (by positivity) ?_ _
            rw [add_comm]; exact Real.add_one_le_exp _
        _ = _ := by rw [← Real.exp_nat_mul]; congr 1; field_simp
  have hlow : ∀ p : ℕ, ρ₁.real (Set.Iic x₀) * (1 + s * (c - x₀) / p) ^ p ≤ ∫ x, (1 + s * (c - x) / p) ^ p ∂ρ₁ := by
    intro p
    have hnn : 0 ≤ᵐ[ρ₁] fun x : ℝ => (1 + s * (c - x) / p) ^ p := by
      filter_upwards [h1] with x hx
      have hy : 0 ≤ s * (c - x) := mul_nonneg hs.le (by linarith)
      show 0 ≤ (1 + s * (c - x) / p) ^ p
      positivity
    have h3 := mul_meas_ge_le_integral_of_nonneg hnn (hint hi1 p) ((1 + s * (c - x₀) / p) ^ p)
    rw [mul_comm] at h3
    have hy0 : 0 ≤ s * (c - x₀) := mul_nonneg hs.le (by linarith)
    refine le_trans (mul_le_mul_of_nonneg_right (measureReal_mono (fun x hx => ?_)) (by positivity)) h3
    have hx : x ≤ x₀ := hx
    show (1 + s * (c - x₀) / p) ^ p ≤ (1 + s * (c - x) / p) ^ p
    refine pow_le_pow_left₀ (by positivity) ?_ _
    have : s * (c - x₀) ≤ s * (c - x) := mul_le_mul_of_nonneg_left (by linarith) hs.le
    have : s * (c - x₀) / p ≤ s * (c - x) / p := div_le_div_of_nonneg_right this (Nat.cast_nonneg _)
    linarith
  have hlim : Tendsto (fun p : ℕ => ρ₁.real (Set.Iic x₀) * (1 + s * (c - x₀) / p) ^ p) atTop
      (𝓝 (ρ₁.real (Set.Iic x₀) * Real.exp (s * (c - x₀)))) :=
    (Real.tendsto_one_add_div_pow_exp _).const_mul _
  have hfin := le_of_tendsto' hlim (fun p => (hlow p).trans ((hpoly p).trans (hup p)))
  have e1 : ∀ x, Real.exp (s * (c - x)) = Real.exp (s * c) * Real.exp (-(s * x)) := fun x => by
    rw [← Real.exp_add]; congr 1; ring
  simp only [e1] at hfin
  rw [integral_const_mul, ← mul_assoc, mul_comm (ρ₁.real _), mul_assoc] at hfin
  exact le_of_mul_le_mul_left hfin (Real.exp_pos _)

section
variable {E : Type*} [NormedAddCommGroup E] [InnerProductSpace ℂ E] [CompleteSpace E]

theorem shifted_average {H : E →L[ℂ] E} {v : E} {ρ : Measure ℝ}
    (hm : ∀ j : ℕ, Integrable (fun x : ℝ => x ^ j) ρ ∧ ((∫ x, x ^ j ∂ρ : ℝ) : ℂ) = ⟪v, (H ^ j) v⟫_ℂ) (c : ℝ) (j : ℕ) :
    Integrable (fun x : ℝ => (c - x) ^ j) ρ ∧
      ((∫ x, (c - x) ^ j ∂ρ : ℝ) : ℂ) = ⟪v, ((algebraMap ℝ (E →L[ℂ] E) c - H) ^ j) v⟫_ℂ := by
  have key : ∀ q : Polynomial ℝ, Integrable (fun x : ℝ => q.eval x) ρ ∧
      ((∫ x, q.eval x ∂ρ : ℝ) : ℂ) = ⟪v, (Polynomial.aeval H q) v⟫_ℂ := by
    intro q
    induction q using Polynomial.induction_on' with
    | add p q hp hq =>
      simp only [Polynomial.eval_add, map_add]
      refine ⟨hp.1.add hq.1, ?_⟩
      rw [integral_add hp.1 hq.1, Complex.ofReal_add, hp.2, hq.2, add_apply, inner_add_right]
    | monomial n a =>
      simp only [Polynomial.eval_monomial, Polynomial.aeval_monomial]
      refine ⟨(hm n).1.const_mul a, ?_⟩
      rw [integral_const_mul, Complex.ofReal_mul, (hm n).2, Algebra.algebraMap_eq_smul_one, smul_mul_assoc, one_mul,
        ← Complex.coe_smul, smul_apply, inner_smul_right]
  have h := key ((Polynomial.C c - Polynomial.X) ^ j)
  simpa using h

end

section
variable {E : Type*} [NormedAddCommGroup E] [InnerProductSpace ℂ E] [CompleteSpace E] {H : E →L[ℂ] E} {v : E}
  {ρ : Measure ℝ} [IsProbabilityMeasure ρ]

theorem square_average (hH : IsSelfAdjoint H)
    (hm : ∀ j : ℕ, Integrable (fun x : ℝ => x ^ j) ρ ∧ ((∫ x, x ^ j ∂ρ : ℝ) : ℂ) = ⟪v, (H ^ j) v⟫_ℂ) (c : ℝ) (j : ℕ) :
    ∫ x, (c - x) ^ (2 * j) ∂ρ = ‖((algebraMap ℝ (E →L[ℂ] E) c - H) ^ j) v‖ ^ 2 := by
  apply Complex.ofReal_injective
  rw [(shifted_average hm c (2 * j)).2, two_mul, pow_add]
  have hs : IsSelfAdjoint ((algebraMap ℝ (E →L[ℂ] E) c - H) ^ j) :=
    ((IsSelfAdjoint.algebraMap _ (IsSelfAdjoint.all c)).sub hH).pow j
  rw [ContinuousLinearMap.mul_apply]
  generalize (algebraMap ℝ (E →L[ℂ] E) c - H) ^ j = A at hs
  rw [← ContinuousLinearMap.adjoint_inner_left, ← ContinuousLinearMap.star_eq_adjoint, hs.star_eq, inner_self_eq_norm_sq_to_K]
  simp

/-- the spectrum lies between minus and plus the norm -/
theorem support_norm (hH : IsSelfAdjoint H) (hv : ‖v‖ = 1)
    (hm : ∀ j : ℕ, Integrable (fun x : ℝ => x ^ j) ρ ∧ ((∫ x, x ^ j ∂ρ : ℝ) : ℂ) = ⟪v, (H ^ j) v⟫_ℂ) :
    ∀ᵐ x ∂ρ, |x| ≤ ‖H‖ := by
  have h := support_of_moments (ρ := ρ) (a := 0) (r := ‖H‖) (norm_nonneg _) (fun j => (shifted_average hm 0 j).1) (fun j => ?_)
  · filter_upwards [h] with x hx
    simpa using hx
  · rw [square_average hH hm, map_zero, zero_sub, pow_mul']
    refine pow_le_pow_left₀ (norm_nonneg _) ?_ 2
    have key : ∀ i : ℕ, ‖((-H) ^ i) v‖ ≤ ‖H‖ ^ i := by
      intro i
      induction i with
      | zero => simp [hv]
      | succ i ih =>
        rw [pow_succ', ContinuousLinearMap.mul_apply, pow_succ']
        refine (ContinuousLinearMap.le_opNorm _ _).trans ?_
        rw [norm_neg]
        exact mul_le_mul_of_nonneg_left ih (norm_nonneg _)
    exact key j

theorem powers_iff_mass (hH : IsSelfAdjoint H) (hv : ‖v‖ = 1)
    (hm : ∀ j : ℕ, Integrable (fun x : ℝ => x ^ j) ρ ∧ ((∫ x, x ^ j ∂ρ : ℝ) : ℂ) = ⟪v, (H ^ j) v⟫_ℂ) {c e : ℝ}
    (hc : ‖H‖ ≤ c) (hec : e ≤ c) :
    (∀ j : ℕ, ‖((algebraMap ℝ (E →L[ℂ] E) c - H) ^ j) v‖ ≤ (c - e) ^ j) ↔ ρ (Set.Iio e) = 0 := by
  have hce : 0 ≤ c - e := by linarith
  constructor
  · intro h
    have h1 := support_of_moments (ρ := ρ) (a := c) (r := c - e) hce (fun j => (shifted_average hm c j).1) (fun j => by
      rw [square_average hH hm, pow_mul']
      exact pow_le_pow_left₀ (norm_nonneg _) (h j) 2)
    have h2 : ∀ᵐ x ∂ρ, ¬ x < e := by
      filter_upwards [h1] with x hx
      have := (abs_le.1 hx).2
      linarith
    rw [ae_iff] at h2
    simpa [Set.Iio] using h2
  · intro h j
    have h2 : ∀ᵐ x ∂ρ, ¬ x < e := by
      rw [ae_iff]
      simpa [Set.Iio] using h
    refine le_of_sq_le_sq ?_ (by positivity)
    rw [← square_average hH hm, ← pow_mul']
    calc ∫ x, (c - x) ^ (2 * j) ∂ρ ≤ ∫ _x, (c - e) ^ (2 * j) ∂ρ := by
          refine integral_mono_ae (shifted_average hm c (2 * j)).1 (integrable_const _) ?_
          filter_upwards [h2, support_norm hH hv hm] with x hx hx2
          have := (abs_le.1 hx2).2
          exact pow_le_pow_left₀ (by linarith) (by linarith) _
      _ = _ := by simp

end

/-- no mass below `e` is kept in the limit -/
theorem mass_limit {μ : ℕ → ProbabilityMeasure ℝ} {ρ : ProbabilityMeasure ℝ} {U : Filter ℕ} [U.NeBot]
    (h : Tendsto μ U (𝓝 ρ)) {e : ℝ} (he : ∀ n, (μ n : Measure ℝ) (Set.Iio e) = 0) : (ρ : Measure ℝ) (Set.Iio e) = 0 := by
  have := ProbabilityMeasure.le_liminf_measure_open_of_tendsto h (isOpen_Iio (a := e))
  simp only [he] at this
  simpa using this

/-- averages of a bounded continuous function that is an exponential above `e` -/
theorem exp_limit {μ : ℕ → ProbabilityMeasure ℝ} {ρ : ProbabilityMeasure ℝ} {U : Filter ℕ} [U.NeBot]
    (h : Tendsto μ U (𝓝 ρ)) {e₀ e s C : ℝ} (hs : 0 < s) (he : ∀ n, (μ n : Measure ℝ) (Set.Iio e₀) = 0)
    (hρ : (ρ : Measure ℝ) (Set.Iio e) = 0)
    (hC : ∀ᶠ n in U, C ≤ ∫ x, Real.exp (-(s * x)) ∂(μ n : Measure ℝ)) : C ≤ Real.exp (-(s * e)) := by
  let f : BoundedContinuousFunction ℝ ℝ := BoundedContinuousFunction.ofNormedAddCommGroup
    (fun x => Real.exp (-(s * max x e₀))) (by fun_prop) (Real.exp (-(s * e₀))) (fun x => by
      rw [Real.norm_eq_abs, abs_of_pos (Real.exp_pos _)]
      refine Real.exp_le_exp.2 (neg_le_neg (mul_le_mul_of_nonneg_left (le_max_right _ _) hs.le)))
  have hf := (ProbabilityMeasure.tendsto_iff_forall_integral_tendsto.1 h) f
  have e1 : ∀ {ν : Measure ℝ} {a : ℝ}, ν (Set.Iio a) = 0 → ∀ᵐ x ∂ν, a ≤ x := by
    intro ν a ha
    rw [ae_iff]
    simpa [Set.Iio] using ha
  have h1 : C ≤ ∫ x, f x ∂(ρ : Measure ℝ) := by
    refine ge_of_tendsto hf ?_
    filter_upwards [hC] with n hn
    refine hn.trans (le_of_eq (integral_congr_ae ?_))
    filter_upwards [e1 (he n)] with x hx
    show _ = Real.exp (-(s * max x e₀))
    rw [max_eq_left hx]
  refine h1.trans ?_
  calc ∫ x, f x ∂(ρ : Measure ℝ) ≤ ∫ _x, Real.exp (-(s * e)) ∂(ρ : Measure ℝ) := by
        refine integral_mono_ae (f.integrable _) (integrable_const _) ?_
        filter_upwards [e1 hρ] with x hx
        refine Real.exp_le_exp.2 (neg_le_neg (mul_le_mul_of_nonneg_left (hx.trans (le_max_left _ _)) hs.le))
    _ = _ := by simp

/-- where a probability measure begins -/
theorem exists_bottom {ρ : Measure ℝ} [IsProbabilityMeasure ρ] {e₀ : ℝ} (h : ρ (Set.Iio e₀) = 0) :
    ∃ e, ρ (Set.Iio e) = 0 ∧ ∀ e', ρ (Set.Iio e') = 0 → e' ≤ e := by
  have hb : BddAbove {e | ρ (Set.Iio e) = 0} := by
    have ht := tendsto_measure_Iic_atTop ρ
    rw [measure_univ] at ht
    obtain ⟨x, hx⟩ := (ht.eventually (lt_mem_nhds (show (0 : ENNReal) < 1 from one_pos))).exists
    refine ⟨x, fun e he => ?_⟩
    by_contra hc
    have : ρ (Set.Iic x) ≤ ρ (Set.Iio e) := measure_mono (fun y hy => lt_of_le_of_lt hy (not_le.1 hc))
    rw [show ρ (Set.Iio e) = 0 from he] at this
    exact absurd hx (not_lt.2 this)
  refine ⟨sSup {e | ρ (Set.Iio e) = 0}, ?_, fun e' he' => le_csSup hb he'⟩
  obtain ⟨u, -, hu, hmem⟩ := (isLUB_csSup (Set.nonempty_of_mem (show e₀ ∈ {e | ρ (Set.Iio e) = 0} from h)) hb).exists_seq_monotone_tendsto
    (Set.nonempty_of_mem (show e₀ ∈ {e | ρ (Set.Iio e) = 0} from h))
  refine measure_mono_null (t := ⋃ n, Set.Iio (u n)) (fun x hx => ?_) (measure_iUnion_null (fun n => hmem.2 n))
  obtain ⟨n, hn⟩ := (hmem.1.eventually (lt_mem_nhds hx)).exists
  exact Set.mem_iUnion.2 ⟨n, hn⟩

end GGCE
