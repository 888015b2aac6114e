import Verif.Proofs.Coherent
import Mathlib.Analysis.Calculus.Deriv.Mul
import Mathlib.Algebra.BigOperators.Ring.Finset
import Mathlib.Topology.Algebra.InfiniteSum.Real
import Mathlib.Analysis.SpecificLimits.Normed

/-! Several displaced oscillators: the resolvent of their Hamiltonian, as the transform of the time evolution. -/

set_option linter.unusedSectionVars false

namespace GGCE
open Complex MeasureTheory Set Filter Topology

section
variable {K : ℕ} {w c : ℕ → ℝ} {z : ℂ}

/-- the amplitude of the state with `j t` quanta in oscillator `t < K` -/
noncomputable def amps (K : ℕ) (w c : ℕ → ℝ) (j : ℕ → ℕ) (s : ℝ) : ℂ := ∏ t ∈ Finset.range K, cohAmp (w t) (c t) (j t) s

/-- its transform -/
noncomputable def green1 (K : ℕ) (w c : ℕ → ℝ) (z : ℂ) (j : ℕ → ℕ) : ℂ :=
  -I * ∫ s in Ioi (0 : ℝ), exp (I * z * s) * amps K w c j s

/-- a bound of the amplitudes -/
noncomputable def ampBound (K : ℕ) (w c : ℕ → ℝ) (j : ℕ → ℕ) : ℝ :=
  ∏ t ∈ Finset.range K, (2 * |c t / w t|) ^ j t / Real.sqrt (j t).factorial

theorem ampBound_nonneg (j : ℕ → ℕ) : 0 ≤ ampBound K w c j := Finset.prod_nonneg (fun t _ => by positivity)

theorem norm_amps_le (j : ℕ → ℕ) (s : ℝ) : ‖amps K w c j s‖ ≤ ampBound K w c j := by
  unfold amps ampBound
  rw [norm_prod]
  exact Finset.prod_le_prod (fun t _ => norm_nonneg _) (fun t _ => norm_amp_le _ _ _ _)

theorem continuous_amps (hw : ∀ t < K, w t ≠ 0) (j : ℕ → ℕ) : Continuous (amps K w c j) := by
  unfold amps
  refine continuous_finsetProd _ (fun t ht => ?_)
  exact continuous_iff_continuousAt.2 (fun s => (hasDerivAt_amp (hw t (Finset.mem_range.1 ht)) (c t) (j t) s).continuousAt)

theorem norm_wave (z : ℂ) (s : ℝ) : ‖exp (I * z * s)‖ = Real.exp (-z.im * s) := by
  rw [Complex.norm_exp]
  congr 1
  simp

theorem integrable_amps (hw : ∀ t < K, w t ≠ 0) (hz : 0 < z.im) (j : ℕ → ℕ) :
    IntegrableOn (fun s : ℝ => exp (I * z * s) * amps K w c j s) (Ioi 0) := by
  have h1 : IntegrableOn (fun s : ℝ => Real.exp (-z.im * s) * ampBound K w c j) (Ioi 0) :=
    (integrableOn_exp_mul_Ioi (by linarith) 0).mul_const _
  refine Integrable.mono' h1 ?_ (Filter.Eventually.of_forall (fun s => ?_))
  · refine Continuous.aestronglyMeasurable ?_
    exact (by fun_prop : Continuous (fun s : ℝ => exp (I * z * s))).mul (continuous_amps hw j)
  · rw [norm_mul, norm_wave]
    exact mul_le_mul_of_nonneg_left (norm_amps_le j s) (Real.exp_nonneg _)

theorem norm_green1_le (hz : 0 < z.im) (j : ℕ → ℕ) : ‖green1 K w c z j‖ ≤ ampBound K w c j / z.im := by
  have h1 : IntegrableOn (fun s : ℝ => Real.exp (-z.im * s) * ampBound K w c j) (Ioi 0) :=
    (integrableOn_exp_mul_Ioi (by linarith) 0).mul_const _
  unfold green1
  rw [norm_mul, norm_neg, Complex.norm_I, one_mul]
  refine (norm_integral_le_of_norm_le h1 (Filter.Eventually.of_forall (fun s => ?_))).trans (le_of_eq ?_)
  · rw [norm_mul, norm_wave]
    exact mul_le_mul_of_nonneg_left (norm_amps_le j s) (Real.exp_nonneg _)
  · rw [integral_mul_const, integral_exp_mul_Ioi (by linarith)]
    rw [mul_zero, Real.exp_zero, neg_div_neg_eq]
    ring

/-- one quantum more -/
def upAt (j : ℕ → ℕ) (t : ℕ) : ℕ → ℕ := Function.update j t (j t + 1)
/-- one quantum less -/
def downAt (j : ℕ → ℕ) (t : ℕ) : ℕ → ℕ := Function.update j t (j t - 1)

theorem amps_split (j : ℕ → ℕ) (s : ℝ) {t : ℕ} (ht : t ∈ Finset.range K) (i : ℕ) :
    (∏ r ∈ (Finset.range K).erase t, cohAmp (w r) (c r) (j r) s) * cohAmp (w t) (c t) i s =
      amps K w c (Function.update j t i) s := by
  unfold amps
  rw [← Finset.prod_erase_mul _ _ ht]
  congr 1
  · refine Finset.prod_congr rfl (fun r hr => ?_)
    rw [Function.update_of_ne (Finset.ne_of_mem_erase hr)]
  · rw [Function.update_self]

theorem hasDerivAt_amps (hw : ∀ t < K, w t ≠ 0) (j : ℕ → ℕ) (s : ℝ) :
    HasDerivAt (amps K w c j) (-I * ∑ t ∈ Finset.range K, (w t * j t * amps K w c j s +
      c t * (Real.sqrt ((j t : ℝ) + 1) : ℂ) * amps K w c (upAt j t) s +
      c t * (Real.sqrt (j t : ℝ) : ℂ) * amps K w c (downAt j t) s)) s := by
  have h := HasDerivAt.fun_finsetProd (u := Finset.range K) (f := fun t s => cohAmp (w t) (c t) (j t) s) (x := s)
    (fun t ht => hasDerivAt_amp (hw t (Finset.mem_range.1 ht)) (c t) (j t) s)
  refine HasDerivAt.congr_deriv h ?_
  rw [Finset.mul_sum]
  refine Finset.sum_congr rfl (fun t ht => ?_)
  unfold upAt downAt
  rw [← amps_split j s ht, ← amps_split j s ht]
  have e : amps K w c j s = (∏ r ∈ (Finset.range K).erase t, cohAmp (w r) (c r) (j r) s) * cohAmp (w t) (c t) (j t) s := by
    rw [amps_split j s ht, Function.update_eq_self]
  rw [e, smul_eq_mul]
  ring

open Classical in
theorem amps_start (j : ℕ → ℕ) : amps K w c j 0 = if ∀ t < K, j t = 0 then 1 else 0 := by
  unfold amps
  simp only [cohAmp_zero]
  split
  · rename_i h
    exact Finset.prod_eq_one (fun t ht => by rw [if_pos (h t (Finset.mem_range.1 ht))])
  · rename_i h
    push Not at h
    obtain ⟨t, ht, h⟩ := h
    exact Finset.prod_eq_zero (Finset.mem_range.2 ht) (if_neg h)

open Classical in
/-- the equation of motion of the transform -/
theorem green1_motion (hw : ∀ t < K, w t ≠ 0) (hz : 0 < z.im) (j : ℕ → ℕ) :
    z * green1 K w c z j - ∑ t ∈ Finset.range K, (w t * j t * green1 K w c z j +
      c t * (Real.sqrt ((j t : ℝ) + 1) : ℂ) * green1 K w c z (upAt j t) +
      c t * (Real.sqrt (j t : ℝ) : ℂ) * green1 K w c z (downAt j t)) = if ∀ t < K, j t = 0 then 1 else 0 := by
  have hint := fun i => integrable_amps (c := c) hw hz i
  set F : ℝ → ℂ := fun s => exp (I * z * s) * amps K w c j s with hF
  set S : ℝ → ℂ := fun s => ∑ t ∈ Finset.range K, (w t * j t * (exp (I * z * s) * amps K w c j s) +
      c t * (Real.sqrt ((j t : ℝ) + 1) : ℂ) * (exp (I * z * s) * amps K w c (upAt j t) s) +
      c t * (Real.sqrt (j t : ℝ) : ℂ) * (exp (I * z * s) * amps K w c (downAt j t) s)) with hS
  have hder : ∀ s ∈ Ici (0 : ℝ), HasDerivAt F (I * z * F s - I * S s) s := by
    intro s _
    have h1 : HasDerivAt (fun s : ℝ => exp (I * z * s)) (exp (I * z * s) * (I * z)) s := by
      have : HasDerivAt (fun s : ℝ => I * z * (s : ℂ)) (I * z) s := by
        have := ((hasDerivAt_id s).ofReal_comp.const_mul (I * z))
        simpa using this
      exact this.cexp
    refine (h1.mul (hasDerivAt_amps (c := c) hw j s)).congr_deriv ?_
    simp only [hF, hS]
    have e : ∑ t ∈ Finset.range K, ((w t : ℂ) * j t * (exp (I * z * s) * amps K w c j s) +
        c t * (Real.sqrt ((j t : ℝ) + 1) : ℂ) * (exp (I * z * s) * amps K w c (upAt j t) s) +
        c t * (Real.sqrt (j t : ℝ) : ℂ) * (exp (I * z * s) * amps K w c (downAt j t) s)) =
        exp (I * z * s) * ∑ t ∈ Finset.range K, (w t * j t * amps K w c j s +
      c t * (Real.sqrt ((j t : ℝ) + 1) : ℂ) * amps K w c (upAt j t) s +
      c t * (Real.sqrt (j t : ℝ) : ℂ) * amps K w c (downAt j t) s) := by
      rw [Finset.mul_sum]
      exact Finset.sum_congr rfl (fun t _ => by ring)
    rw [e]
    ring
  have iF : IntegrableOn F (Ioi 0) := hint j
  have iT : ∀ t ∈ Finset.range K, IntegrableOn (fun s : ℝ => ((w t : ℂ) * j t * (exp (I * z * s) * amps K w c j s) +
      c t * (Real.sqrt ((j t : ℝ) + 1) : ℂ) * (exp (I * z * s) * amps K w c (upAt j t) s) +
      c t * (Real.sqrt (j t : ℝ) : ℂ) * (exp (I * z * s) * amps K w c (downAt j t) s))) (Ioi 0) := fun t _ =>
    (((hint j).const_mul _).add ((hint (upAt j t)).const_mul _)).add ((hint (downAt j t)).const_mul _)
  have iS : IntegrableOn S (Ioi 0) := integrable_finsetSum _ iT
  have hlim : Tendsto F atTop (𝓝 0) := by
    rw [tendsto_zero_iff_norm_tendsto_zero]
    have h1 : Tendsto (fun s : ℝ => Real.exp (-z.im * s) * ampBound K w c j) atTop (𝓝 0) := by
      have : Tendsto (fun s : ℝ => Real.exp (-z.im * s)) atTop (𝓝 0) :=
        Real.tendsto_exp_atBot.comp (tendsto_id.const_mul_atTop_of_neg (by linarith))
      simpa using this.mul_const (ampBound K w c j)
    refine squeeze_zero (fun s => norm_nonneg _) (fun s => ?_) h1
    simp only [hF]
    rw [norm_mul, norm_wave]
    exact mul_le_mul_of_nonneg_left (norm_amps_le j s) (Real.exp_nonneg _)
  have key := integral_Ioi_of_hasDerivAt_of_tendsto' hder ((iF.const_mul (I * z)).sub (iS.const_mul I)) hlim
  rw [integral_sub (iF.const_mul (I * z)) (iS.const_mul I), integral_const_mul, integral_const_mul] at key
  have eS : ∫ s in Ioi (0 : ℝ), S s = ∑ t ∈ Finset.range K, (w t * j t * (∫ s in Ioi (0 : ℝ), F s) +
      c t * (Real.sqrt ((j t : ℝ) + 1) : ℂ) * (∫ s in Ioi (0 : ℝ), exp (I * z * s) * amps K w c (upAt j t) s) +
      c t * (Real.sqrt (j t : ℝ) : ℂ) * (∫ s in Ioi (0 : ℝ), exp (I * z * s) * amps K w c (downAt j t) s)) := by
    rw [hS, integral_finsetSum _ iT]
    refine Finset.sum_congr rfl (fun t _ => ?_)
    have i12 : IntegrableOn (fun s : ℝ => ((w t : ℂ) * j t * (exp (I * z * s) * amps K w c j s) +
      c t * (Real.sqrt ((j t : ℝ) + 1) : ℂ) * (exp (I * z * s) * amps K w c (upAt j t) s))) (Ioi 0) :=
      ((hint j).const_mul _).add ((hint (upAt j t)).const_mul _)
    rw [integral_add i12 ((hint (downAt j t)).const_mul _),
      integral_add ((hint j).const_mul _) ((hint (upAt j t)).const_mul _), integral_const_mul, integral_const_mul,
      integral_const_mul]
  rw [eS] at key
  have hF0 : F 0 = if ∀ t < K, j t = 0 then 1 else 0 := by
    simp only [hF, amps_start]; simp
  rw [hF0, zero_sub] at key
  unfold green1
  have e2 : ∑ t ∈ Finset.range K, ((w t : ℂ) * j t * (-I * ∫ s in Ioi (0 : ℝ), F s) +
      c t * (Real.sqrt ((j t : ℝ) + 1) : ℂ) * (-I * ∫ s in Ioi (0 : ℝ), exp (I * z * s) * amps K w c (upAt j t) s) +
      c t * (Real.sqrt (j t : ℝ) : ℂ) * (-I * ∫ s in Ioi (0 : ℝ), exp (I * z * s) * amps K w c (downAt j t) s)) =
      -I * ∑ t ∈ Finset.range K, (w t * j t * (∫ s in Ioi (0 : ℝ), F s) +
      c t * (Real.sqrt ((j t : ℝ) + 1) : ℂ) * (∫ s in Ioi (0 : ℝ), exp (I * z * s) * amps K w c (upAt j t) s) +
      c t * (Real.sqrt (j t : ℝ) : ℂ) * (∫ s in Ioi (0 : ℝ), exp (I * z * s) * amps K w c (downAt j t) s)) := by
    rw [Finset.mul_sum]
    exact Finset.sum_congr rfl (fun t _ => by ring)
  show z * (-I * ∫ s in Ioi (0 : ℝ), F s) - ∑ t ∈ Finset.range K, ((w t : ℂ) * j t * (-I * ∫ s in Ioi (0 : ℝ), F s) + _ + _) = _
  rw [e2]
  linear_combination -key

/-! ### square summability -/

theorem summable_pi {K : ℕ} {b : Fin K → ℕ → ℝ} (hb : ∀ t j, 0 ≤ b t j) (hs : ∀ t, Summable (b t)) :
    Summable (fun j : Fin K → ℕ => ∏ t, b t (j t)) := by
  refine summable_of_sum_le (c := ∏ t, ∑' i, b t i) (fun j => Finset.prod_nonneg (fun t _ => hb t _)) (fun u => ?_)
  let B : ℕ := (u.sup (fun j => Finset.univ.sup (fun t => j t))) + 1
  have hu : u ⊆ Fintype.piFinset (fun _ : Fin K => Finset.range B) := by
    intro j hj
    rw [Fintype.mem_piFinset]
    intro t
    rw [Finset.mem_range]
    have h1 : j t ≤ Finset.univ.sup (fun t => j t) := Finset.le_sup (f := fun t => j t) (Finset.mem_univ t)
    have h2 : Finset.univ.sup (fun t => j t) ≤ u.sup (fun j => Finset.univ.sup (fun t => j t)) :=
      Finset.le_sup (f := fun j : Fin K → ℕ => Finset.univ.sup (fun t => j t)) hj
    omega
  calc ∑ j ∈ u, ∏ t, b t (j t) ≤ ∑ j ∈ Fintype.piFinset (fun _ : Fin K => Finset.range B), ∏ t, b t (j t) :=
        Finset.sum_le_sum_of_subset_of_nonneg hu (fun j _ _ => Finset.prod_nonneg (fun t _ => hb t _))
    _ = ∏ t, ∑ i ∈ Finset.range B, b t i := (Finset.prod_univ_sum _ _).symm
    _ ≤ _ := Finset.prod_le_prod (fun t _ => Finset.sum_nonneg (fun i _ => hb t i))
        (fun t _ => (hs t).sum_le_tsum _ (fun i _ => hb t i))

theorem sum_le_prod_succ (s : Finset ℕ) (j : ℕ → ℕ) : ∑ t ∈ s, (j t : ℝ) ≤ ∏ t ∈ s, (1 + (j t : ℝ)) := by
  induction s using Finset.cons_induction with
  | empty => simp
  | cons a s ha ih =>
    rw [Finset.sum_cons, Finset.prod_cons]
    have h1 : 1 ≤ ∏ t ∈ s, (1 + (j t : ℝ)) := by
      have : ∏ t ∈ s, (1 : ℝ) ≤ ∏ t ∈ s, (1 + (j t : ℝ)) :=
        Finset.prod_le_prod (fun _ _ => zero_le_one) (fun t _ => by
          have : (0 : ℝ) ≤ j t := Nat.cast_nonneg _
          linarith)
      simpa using this
    have h2 : (0 : ℝ) ≤ j a := Nat.cast_nonneg _
    nlinarith

/-- the squared bound, with the square of the number of quanta -/
theorem bound_sq_le (j : ℕ → ℕ) : (1 + (∑ t ∈ Finset.range K, (j t : ℝ)) ^ 2) * ampBound K w c j ^ 2 ≤
    2 * ∏ t ∈ Finset.range K, (4 * (2 * |c t / w t|) ^ 2) ^ j t / (j t).factorial := by
  have h0 : (0 : ℝ) ≤ ∑ t ∈ Finset.range K, (j t : ℝ) := Finset.sum_nonneg (fun _ _ => Nat.cast_nonneg _)
  have h1 := sum_le_prod_succ (Finset.range K) j
  have h2 : ∏ t ∈ Finset.range K, (1 + (j t : ℝ)) ≤ ∏ t ∈ Finset.range K, (2 : ℝ) ^ j t := by
    refine Finset.prod_le_prod (fun _ _ => by positivity) (fun t _ => ?_)
    have := Nat.lt_two_pow_self (n := j t)
    have h : j t + 1 ≤ 2 ^ j t := this
    have h' : ((j t + 1 : ℕ) : ℝ) ≤ ((2 ^ j t : ℕ) : ℝ) := by exact_mod_cast h
    push_cast at h'
    linarith
  have h3 : 1 ≤ ∏ t ∈ Finset.range K, (2 : ℝ) ^ j t := by
    have : ∏ t ∈ Finset.range K, (1 : ℝ) ≤ ∏ t ∈ Finset.range K, (2 : ℝ) ^ j t :=
      Finset.prod_le_prod (fun _ _ => zero_le_one) (fun t _ => one_le_pow₀ (by norm_num))
    simpa using this
  have h4 : 1 + (∑ t ∈ Finset.range K, (j t : ℝ)) ^ 2 ≤ 2 * (∏ t ∈ Finset.range K, (2 : ℝ) ^ j t) ^ 2 := by
    have := h1.trans h2
    nlinarith
  refine (mul_le_mul_of_nonneg_right h4 (sq_nonneg _)).trans (le_of_eq ?_)
  unfold ampBound
  rw [mul_assoc, ← mul_pow, ← Finset.prod_mul_distrib, ← Finset.prod_pow]
  congr 1
  refine Finset.prod_congr rfl (fun t _ => ?_)
  rw [mul_pow, div_pow, Real.sq_sqrt (by positivity), mul_div_assoc', ← mul_pow, ← mul_pow, ← pow_mul, mul_comm (j t) 2,
    pow_mul]
  congr 2
  ring

/-- the configurations of `K` oscillators -/
def extend {K : ℕ} (j : Fin K → ℕ) : ℕ → ℕ := fun t => if h : t < K then j ⟨t, h⟩ else 0

theorem summable_bound (K : ℕ) (w c : ℕ → ℝ) : Summable (fun j : Fin K → ℕ =>
    (1 + (∑ t ∈ Finset.range K, (extend j t : ℝ)) ^ 2) * ampBound K w c (extend j) ^ 2) := by
  have h1 : Summable (fun j : Fin K → ℕ => ∏ t : Fin K, (4 * (2 * |c t / w t|) ^ 2) ^ j t / ((j t).factorial : ℝ)) :=
    summable_pi (b := fun (t : Fin K) i => (4 * (2 * |c t / w t|) ^ 2) ^ i / (i.factorial : ℝ))
      (fun t i => by positivity) (fun t => Real.summable_pow_div_factorial _)
  refine (h1.mul_left 2).of_nonneg_of_le (fun j => by positivity) (fun j => ?_)
  refine (bound_sq_le (extend j)).trans (le_of_eq ?_)
  congr 1
  rw [Finset.prod_range]
  refine Finset.prod_congr rfl (fun t _ => ?_)
  have : extend j t = j t := by unfold extend; rw [dif_pos t.2]
  rw [this]

end
end GGCE
