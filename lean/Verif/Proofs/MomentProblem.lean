import Mathlib.Probability.Moments.ComplexMGF
import Mathlib.MeasureTheory.Measure.Prokhorov
import Mathlib.Analysis.SpecialFunctions.Trigonometric.Series
import Mathlib.Analysis.Calculus.IteratedDeriv.Defs
import Mathlib.Analysis.SpecificLimits.Basic

/-! Probability measures and their moments: limits, and when the moments determine the measure. -/

namespace GGCE
open MeasureTheory ProbabilityTheory Filter Topology
open scoped Nat ENNReal NNReal

theorem exp_integrable {μ : Measure ℝ} [IsProbabilityMeasure μ] (hi : ∀ j : ℕ, Integrable (fun x : ℝ => x ^ j) μ) {A t : ℝ}
    (hg : ∀ j : ℕ, ∫ x, x ^ (2 * j) ∂μ ≤ A ^ (2 * j) * (2 * j)!) (ht : |t * A| < 1) :
    Integrable (fun x : ℝ => Real.exp (t * x)) μ := by
  have hcosh : Integrable (fun x : ℝ => Real.cosh (t * x)) μ := by
    refine ⟨(by fun_prop), ?_⟩
    rw [hasFiniteIntegral_iff_ofReal (Eventually.of_forall (fun x => (Real.cosh_pos _).le))]
    have e : ∀ x : ℝ, ENNReal.ofReal (Real.cosh (t * x)) = ∑' j : ℕ, ENNReal.ofReal ((t * x) ^ (2 * j) / (2 * j)!) := by
      intro x
      rw [← (Real.hasSum_cosh (t * x)).tsum_eq, ENNReal.ofReal_tsum_of_nonneg]
      · intro j; rw [pow_mul]; positivity
      · exact (Real.hasSum_cosh (t * x)).summable
    simp_rw [e]
    rw [lintegral_tsum (fun j => (by fun_prop))]
    have h1 : ∀ j : ℕ, ∫⁻ x, ENNReal.ofReal ((t * x) ^ (2 * j) / (2 * j)!) ∂μ ≤ ENNReal.ofReal (((t * A) ^ 2) ^ j) := by
      intro j
      have hx : ∀ x : ℝ, (t * x) ^ (2 * j) / (2 * j)! = t ^ (2 * j) / (2 * j)! * x ^ (2 * j) := fun x => by ring
      rw [← ofReal_integral_eq_lintegral_ofReal]
      · refine ENNReal.ofReal_le_ofReal ?_
        simp_rw [hx]
        rw [integral_const_mul]
        have hp : 0 ≤ t ^ (2 * j) / (2 * j)! := by rw [pow_mul]; positivity
        refine (mul_le_mul_of_nonneg_left (hg j) hp).trans (le_of_eq ?_)
        have : ((2 * j)! : ℝ) ≠ 0 := by exact_mod_cast (Nat.factorial_pos _).ne'
        field_simp
        ring
      · simp_rw [hx]; exact (hi (2 * j)).const_mul _
      · exact Eventually.of_forall (fun x => by
          show 0 ≤ (t * x) ^ (2 * j) / (2 * j)!
          rw [pow_mul]; positivity)
    refine (ENNReal.tsum_le_tsum h1).trans_lt ?_
    rw [← ENNReal.ofReal_tsum_of_nonneg (fun j => by positivity)]
    · exact ENNReal.ofReal_lt_top
    · refine summable_geometric_of_lt_one (sq_nonneg _) ?_
      rw [← sq_abs]
      nlinarith [abs_nonneg (t * A)]
  refine (hcosh.const_mul 2).mono' (by fun_prop) (Eventually.of_forall (fun x => ?_))
  rw [Real.norm_eq_abs, abs_of_pos (Real.exp_pos _), Real.cosh_eq]
  have := Real.exp_pos (-(t * x))
  linarith

/-- a measure whose moments grow no faster than `A^j j!` is determined by them -/
theorem moments_unique {μ ν : Measure ℝ} [IsProbabilityMeasure μ] [IsProbabilityMeasure ν]
    (hμ : ∀ j : ℕ, Integrable (fun x : ℝ => x ^ j) μ) (hν : ∀ j : ℕ, Integrable (fun x : ℝ => x ^ j) ν)
    (h : ∀ j : ℕ, ∫ x, x ^ j ∂μ = ∫ x, x ^ j ∂ν) {A : ℝ} (hA : 0 < A)
    (hg : ∀ j : ℕ, ∫ x, x ^ (2 * j) ∂μ ≤ A ^ (2 * j) * (2 * j)!) : μ = ν := by
  have hsub : ∀ (ρ : Measure ℝ) [IsProbabilityMeasure ρ], (∀ j : ℕ, Integrable (fun x : ℝ => x ^ j) ρ) →
      (∀ j : ℕ, ∫ x, x ^ (2 * j) ∂ρ ≤ A ^ (2 * j) * (2 * j)!) →
      Set.Ioo (-A⁻¹) A⁻¹ ⊆ interior (integrableExpSet (id : ℝ → ℝ) ρ) := by
    intro ρ _ h1 h2
    refine interior_maximal (fun t ht => ?_) isOpen_Ioo
    refine exp_integrable h1 h2 ?_
    rw [abs_mul, abs_of_pos hA, ← lt_div_iff₀ hA, one_div]
    exact abs_lt.2 ht
  have sμ := hsub μ hμ hg
  have sν := hsub ν hν (fun j => (h (2 * j)) ▸ hg j)
  set S : Set ℂ := {z | z.re ∈ Set.Ioo (-A⁻¹) A⁻¹} with hS
  have h0 : (0 : ℝ) ∈ Set.Ioo (-A⁻¹) A⁻¹ := by
    have := inv_pos.2 hA
    exact ⟨by linarith, this⟩
  have aμ : AnalyticOnNhd ℂ (complexMGF id μ) S := fun z hz => analyticAt_complexMGF (sμ hz)
  have aν : AnalyticOnNhd ℂ (complexMGF id ν) S := fun z hz => analyticAt_complexMGF (sν hz)
  have hconv : IsPreconnected S := ((convex_Ioo (-A⁻¹) A⁻¹).linear_preimage Complex.reLm).isPreconnected
  have hz0 : (0 : ℂ) ∈ S := by rw [hS]; exact h0
  have hd : ∀ j : ℕ, iteratedDeriv j (complexMGF id μ) 0 = iteratedDeriv j (complexMGF id ν) 0 := by
    intro j
    rw [iteratedDeriv_complexMGF (sμ (by simpa using h0)), iteratedDeriv_complexMGF (sν (by simpa using h0))]
    simp only [id, zero_mul, Complex.exp_zero, mul_one, ← Complex.ofReal_pow]
    rw [integral_complex_ofReal, integral_complex_ofReal, h j]
  have hloc : complexMGF id μ =ᶠ[𝓝 0] complexMGF id ν := by
    have f1 := (aμ 0 hz0).hasFPowerSeriesAt
    have f2 := (aν 0 hz0).hasFPowerSeriesAt
    simp_rw [← hd] at f2
    obtain ⟨r1, q1⟩ := f1
    obtain ⟨r2, q2⟩ := f2
    have hr : 0 < min r1 r2 := lt_min q1.r_pos q2.r_pos
    have := (q1.mono hr (min_le_left _ _)).unique (q2.mono hr (min_le_right _ _))
    exact this.eventuallyEq_of_mem (Metric.eball_mem_nhds 0 hr)
  have heq := AnalyticOnNhd.eqOn_of_preconnected_of_eventuallyEq aμ aν hconv hz0 hloc
  refine Measure.ext_of_charFun ?_
  funext t
  rw [← complexMGF_id_mul_I, ← complexMGF_id_mul_I]
  exact heq (by rw [hS]; simpa using h0)

/-- a number cut off at `R` -/
noncomputable def clamp (R y : ℝ) : ℝ := max (-R) (min R y)

theorem clamp_abs {R : ℝ} (hR : 0 ≤ R) (y : ℝ) : |clamp R y| ≤ R := by
  unfold clamp
  exact abs_le.2 ⟨le_max_left _ _, max_le (by linarith) (min_le_left _ _)⟩

theorem clamp_error {R : ℝ} (hR : 0 < R) (y : ℝ) : |y - clamp R y| ≤ y ^ 2 / R := by
  unfold clamp
  rw [le_div_iff₀ hR]
  rcases le_total R y with h | h
  · rw [min_eq_left h, max_eq_right (by linarith), abs_of_nonneg (by linarith)]
    nlinarith
  · rw [min_eq_right h]
    rcases le_total (-R) y with h2 | h2
    · rw [max_eq_right h2, sub_self, abs_zero, zero_mul]; exact sq_nonneg y
    · rw [max_eq_left h2, abs_of_nonpos (by linarith)]
      nlinarith

theorem clamp_continuous (R : ℝ) : Continuous (clamp R) := by unfold clamp; fun_prop

theorem moments_limit {μ : ℕ → ProbabilityMeasure ℝ} {s : ℕ → ℝ}
    (hi : ∀ n j, Integrable (fun x : ℝ => x ^ j) (μ n : Measure ℝ))
    (hs : ∀ j, ∀ᶠ n in atTop, ∫ x, x ^ j ∂(μ n : Measure ℝ) = s j) :
    ∃ (ρ : ProbabilityMeasure ℝ) (U : Ultrafilter ℕ), (U : Filter ℕ) ≤ atTop ∧ Tendsto μ U (𝓝 ρ) ∧
      ∀ j, Integrable (fun x : ℝ => x ^ j) (ρ : Measure ℝ) ∧ ∫ x, x ^ j ∂(ρ : Measure ℝ) = s j := by
  obtain ⟨n0, hn0⟩ := eventually_atTop.1 (hs 2)
  have hs2 : 0 ≤ s 2 := by rw [← hn0 n0 le_rfl]; exact integral_nonneg (fun x => sq_nonneg x)
  set u : ℕ → ℝ≥0 := fun n => ⟨s 2 / (n + 1) ^ 2, by positivity⟩ with hu
  have hlim : Tendsto u atTop (𝓝 0) := by
    rw [← NNReal.tendsto_coe]
    show Tendsto (fun n : ℕ => s 2 / ((n : ℝ) + 1) ^ 2) atTop (𝓝 0)
    refine Tendsto.div_atTop tendsto_const_nhds ?_
    exact (tendsto_pow_atTop two_ne_zero).comp (tendsto_atTop_add_const_right _ _ tendsto_natCast_atTop_atTop)
  have hK := isCompact_setOfPred_probabilityMeasure_mass_eq_compl_isCompact_le (E := ℝ) (u := u)
    (K := fun n => Metric.closedBall (0 : ℝ) (n + 1)) hlim (fun n => isCompact_closedBall _ _) (Or.inl inferInstance)
  set U : Ultrafilter ℕ := Ultrafilter.of atTop with hU
  have hUle : (U : Filter ℕ) ≤ atTop := Ultrafilter.of_le _
  have hmem : {ρ : ProbabilityMeasure ℝ | ∀ n : ℕ, ρ (Metric.closedBall (0 : ℝ) (n + 1))ᶜ ≤ u n} ∈ U.map μ := by
    show {n | μ n ∈ _} ∈ U
    refine hUle (mem_of_superset (Ici_mem_atTop n0) (fun n hn => ?_))
    intro k
    have hR : (0 : ℝ) < k + 1 := by positivity
    have h1 : ((μ n : Measure ℝ)) (Metric.closedBall (0 : ℝ) (k + 1))ᶜ ≤ (u k : ℝ≥0∞) := by
      have h2 := mul_meas_ge_le_integral_of_nonneg (μ := (μ n : Measure ℝ)) (f := fun x : ℝ => x ^ 2)
        (Eventually.of_forall (fun x => sq_nonneg x)) (hi n 2) (((k : ℝ) + 1) ^ 2)
      rw [hn0 n hn] at h2
      have h3 : (Metric.closedBall (0 : ℝ) (k + 1))ᶜ ⊆ {x : ℝ | ((k : ℝ) + 1) ^ 2 ≤ x ^ 2} := by
        intro x hx
        simp only [Set.mem_compl_iff, Metric.mem_closedBall, dist_zero_right, Real.norm_eq_abs, not_le] at hx
        show ((k : ℝ) + 1) ^ 2 ≤ x ^ 2
        rw [← sq_abs x]
        nlinarith
      have h4 : (μ n : Measure ℝ).real {x : ℝ | ((k : ℝ) + 1) ^ 2 ≤ x ^ 2} ≤ s 2 / (k + 1) ^ 2 := by
        rw [le_div_iff₀ (by positivity), mul_comm]; exact h2
      refine (measure_mono h3).trans ?_
      rw [← ENNReal.ofReal_toReal (measure_ne_top (μ n : Measure ℝ) _)]
      refine (ENNReal.ofReal_le_ofReal h4).trans (le_of_eq ?_)
      rw [ENNReal.ofReal, ENNReal.coe_inj]
      exact Real.toNNReal_of_nonneg (by positivity)
    rw [← ProbabilityMeasure.ennreal_coeFn_eq_coeFn_toMeasure] at h1
    exact ENNReal.coe_le_coe.1 h1
  obtain ⟨ρ, -, hρ⟩ := isCompact_iff_ultrafilter_le_nhds'.1 hK (U.map μ) hmem
  have hT : Tendsto μ U (𝓝 ρ) := hρ
  refine ⟨ρ, U, hUle, hT, ?_⟩
  have hweak := ProbabilityMeasure.tendsto_iff_forall_integral_tendsto.1 hT
  have hclamp : ∀ (R : ℝ) (hR : 0 ≤ R) (j : ℕ), Tendsto (fun n => ∫ x, clamp R (x ^ j) ∂(μ n : Measure ℝ)) U
      (𝓝 (∫ x, clamp R (x ^ j) ∂(ρ : Measure ℝ))) := by
    intro R hR j
    exact hweak (BoundedContinuousFunction.ofNormedAddCommGroup (fun x : ℝ => clamp R (x ^ j))
      ((clamp_continuous R).comp (by fun_prop)) R (fun x => clamp_abs hR _))
  have hci : ∀ (κ : ProbabilityMeasure ℝ) {R : ℝ} (hR : 0 ≤ R) (j : ℕ), Integrable (fun x : ℝ => clamp R (x ^ j)) (κ : Measure ℝ) := by
    intro κ R hR j
    refine Integrable.of_bound (C := R) ?_ (Eventually.of_forall (fun x => ?_))
    · exact ((clamp_continuous R).comp (by fun_prop)).aestronglyMeasurable
    · exact clamp_abs hR _
  -- even powers
  have heven : ∀ j, Integrable (fun x : ℝ => x ^ (2 * j)) (ρ : Measure ℝ) ∧ ∫ x, x ^ (2 * j) ∂(ρ : Measure ℝ) ≤ s (2 * j) := by
    intro j
    have hb : ∀ R : ℕ, ∫ x, clamp R (x ^ (2 * j)) ∂(ρ : Measure ℝ) ≤ s (2 * j) := by
      intro R
      refine le_of_tendsto (hclamp R (Nat.cast_nonneg R) (2 * j)) (hUle ?_)
      filter_upwards [hs (2 * j)] with n hn
      rw [← hn]
      refine integral_mono (hci (μ n) (Nat.cast_nonneg R) _) (hi n _) (fun x => ?_)
      show clamp R (x ^ (2 * j)) ≤ x ^ (2 * j)
      unfold clamp
      have h1 : 0 ≤ x ^ (2 * j) := by rw [pow_mul]; positivity
      refine max_le (by have : (0 : ℝ) ≤ R := Nat.cast_nonneg R; linarith) (min_le_right _ _)
    have hl : ∫⁻ x, ENNReal.ofReal (x ^ (2 * j)) ∂(ρ : Measure ℝ) ≤ ENNReal.ofReal (s (2 * j)) := by
      have hmono : ∀ x : ℝ, Tendsto (fun R : ℕ => ENNReal.ofReal (clamp R (x ^ (2 * j)))) atTop (𝓝 (ENNReal.ofReal (x ^ (2 * j)))) := by
        intro x
        refine tendsto_const_nhds.congr' ?_
        filter_upwards [eventually_ge_atTop ⌈x ^ (2 * j)⌉₊] with R hR
        have h1 : 0 ≤ x ^ (2 * j) := by rw [pow_mul]; positivity
        have h2 : x ^ (2 * j) ≤ R := Nat.ceil_le.1 hR
        unfold clamp
        rw [min_eq_right h2, max_eq_right (by linarith)]
      have h := lintegral_liminf_le' (μ := (ρ : Measure ℝ)) (u := atTop)
        (f := fun (R : ℕ) (x : ℝ) => ENNReal.ofReal (clamp R (x ^ (2 * j))))
        (fun R => (((clamp_continuous R).comp (by fun_prop)).measurable.ennreal_ofReal).aemeasurable)
      · have e1 : ∫⁻ x, ENNReal.ofReal (x ^ (2 * j)) ∂(ρ : Measure ℝ) =
            ∫⁻ x, liminf (fun R : ℕ => ENNReal.ofReal (clamp R (x ^ (2 * j)))) atTop ∂(ρ : Measure ℝ) :=
          lintegral_congr (fun x => (hmono x).liminf_eq.symm)
        rw [e1]
        refine h.trans ?_
        refine liminf_le_of_le (by isBoundedDefault) (fun b hb' => ?_)
        obtain ⟨R, hR⟩ := hb'.exists
        refine hR.trans ?_
        rw [← ofReal_integral_eq_lintegral_ofReal (hci ρ (Nat.cast_nonneg R) _)]
        · exact ENNReal.ofReal_le_ofReal (hb R)
        · refine Eventually.of_forall (fun x => ?_)
          have h1 : 0 ≤ x ^ (2 * j) := by rw [pow_mul]; positivity
          exact le_max_of_le_right (le_min (Nat.cast_nonneg R) h1)
    have hint : Integrable (fun x : ℝ => x ^ (2 * j)) (ρ : Measure ℝ) := by
      refine ⟨by fun_prop, ?_⟩
      rw [hasFiniteIntegral_iff_ofReal (Eventually.of_forall (fun x => by rw [pow_mul]; positivity))]
      exact hl.trans_lt ENNReal.ofReal_lt_top
    refine ⟨hint, ?_⟩
    have hpos : 0 ≤ s (2 * j) := (integral_nonneg (fun x => by
      show 0 ≤ clamp (0 : ℕ) (x ^ (2 * j))
      have h1 : 0 ≤ x ^ (2 * j) := by rw [pow_mul]; positivity
      exact le_max_of_le_right (le_min (Nat.cast_nonneg 0) h1))).trans (hb 0)
    rw [← ENNReal.ofReal_le_ofReal_iff hpos, ofReal_integral_eq_lintegral_ofReal hint]
    · exact hl
    · exact Eventually.of_forall (fun x => by
        show 0 ≤ x ^ (2 * j)
        rw [pow_mul]; positivity)
  have hint : ∀ j, Integrable (fun x : ℝ => x ^ j) (ρ : Measure ℝ) := by
    intro j
    have h1 := (heven j).1
    refine (h1.add (integrable_const 1)).mono' (by fun_prop) (Eventually.of_forall (fun x => ?_))
    show ‖x ^ j‖ ≤ x ^ (2 * j) + 1
    rw [mul_comm 2 j, pow_mul, ← sq_abs (x ^ j), Real.norm_eq_abs]
    nlinarith [sq_nonneg (|x ^ j| - 1), abs_nonneg (x ^ j)]
  have herr : ∀ (κ : ProbabilityMeasure ℝ), (∀ j, Integrable (fun x : ℝ => x ^ j) (κ : Measure ℝ)) → ∀ (R : ℝ), 0 < R → ∀ j,
      |∫ x, x ^ j ∂(κ : Measure ℝ) - ∫ x, clamp R (x ^ j) ∂(κ : Measure ℝ)| ≤ (∫ x, x ^ (2 * j) ∂(κ : Measure ℝ)) / R := by
    intro κ hκ R hR j
    rw [← integral_sub (hκ j) (hci κ hR.le j), ← integral_div]
    refine (abs_integral_le_integral_abs).trans ?_
    refine integral_mono ((hκ j).sub (hci κ hR.le j)).abs ((hκ (2 * j)).div_const R) (fun x => ?_)
    show |x ^ j - clamp R (x ^ j)| ≤ x ^ (2 * j) / R
    rw [mul_comm 2 j, pow_mul]
    exact clamp_error hR _
  intro j
  refine ⟨hint j, ?_⟩
  have hpos : 0 ≤ s (2 * j) := (integral_nonneg (fun x => by show 0 ≤ x ^ (2 * j); rw [pow_mul]; positivity)).trans (heven j).2
  by_contra hne
  have hδ : 0 < |∫ x, x ^ j ∂(ρ : Measure ℝ) - s j| := abs_pos.2 (sub_ne_zero.2 hne)
  set δ := |∫ x, x ^ j ∂(ρ : Measure ℝ) - s j| with hδd
  set R := 4 * (s (2 * j) + 1) / δ with hRd
  have hR : 0 < R := by positivity
  have hsR : s (2 * j) / R ≤ δ / 4 := by
    rw [div_le_iff₀ hR, hRd]
    have : δ / 4 * (4 * (s (2 * j) + 1) / δ) = s (2 * j) + 1 := by field_simp
    linarith
  have hcl : |∫ x, clamp R (x ^ j) ∂(ρ : Measure ℝ) - s j| ≤ δ / 4 := by
    have ht : Tendsto (fun n => |∫ x, clamp R (x ^ j) ∂(μ n : Measure ℝ) - s j|) U
        (𝓝 |∫ x, clamp R (x ^ j) ∂(ρ : Measure ℝ) - s j|) := ((hclamp R hR.le j).sub_const _).abs
    refine le_of_tendsto ht (hUle ?_)
    filter_upwards [hs j, hs (2 * j)] with n h1 h2
    have h3 := herr (μ n) (hi n) R hR j
    rw [h1, h2, abs_sub_comm] at h3
    exact h3.trans hsR
  have h1 := herr ρ hint R hR j
  have h2 : (∫ x, x ^ (2 * j) ∂(ρ : Measure ℝ)) / R ≤ δ / 4 :=
    (div_le_div_of_nonneg_right (heven j).2 hR.le).trans hsR
  have h3 : δ ≤ δ / 4 + δ / 4 := by
    rw [hδd]
    have := abs_sub_le (∫ x, x ^ j ∂(ρ : Measure ℝ)) (∫ x, clamp R (x ^ j) ∂(ρ : Measure ℝ)) (s j)
    linarith
  linarith

end GGCE
