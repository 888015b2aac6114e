import Verif.Proofs.Powers
import Verif.Proofs.SpectralMeasure
import Verif.Proofs.MomentProblem
import Verif.Spec.Measure

/-! The spectral measure of a Hamiltonian that is the limit of its restrictions. -/

set_option linter.unusedSectionVars false

namespace GGCE
open MeasureTheory Filter Topology ComplexConjugate
open scoped InnerProductSpace Nat

namespace Hops

variable {ι : Type} {Q : Hops ι} {e c : ℝ} {P : ι → Prop} {B : ℝ} {v : L2 ι}

/-- `(x + 2) (x + 3) ... (x + j + 1)` -/
noncomputable def rise (x : ℝ) (j : ℕ) : ℝ := ∏ i ∈ Finset.range j, (x + 2 + i)

theorem rise_nonneg {x : ℝ} (hx : 0 ≤ x) (j : ℕ) : 0 ≤ rise x j := Finset.prod_nonneg (fun i _ => by positivity)

theorem rise_mono {x y : ℝ} (hx : 0 ≤ x) (h : x ≤ y) (j : ℕ) : rise x j ≤ rise y j :=
  Finset.prod_le_prod (fun i _ => by positivity) (fun i _ => by linarith)

theorem rise_succ (x : ℝ) (j : ℕ) : rise x (j + 1) = (x + 2) * rise (x + 1) j := by
  unfold rise
  rw [Finset.prod_range_succ', mul_comm]
  simp only [Nat.cast_zero, add_zero]
  congr 1
  refine Finset.prod_congr rfl (fun i _ => ?_)
  push_cast
  ring

theorem rise_zero (j : ℕ) : rise 0 j = (j + 1)! := by
  unfold rise
  induction j with
  | zero => simp
  | succ j ih =>
    rw [Finset.prod_range_succ, ih, Nat.factorial_succ (j + 1)]
    push_cast
    ring

theorem iter_growth (hQ : Q.Ok e c) (n : ι) (hn : Q.S n) (j : ℕ) :
    ‖Q.iter j n‖ ≤ (e + c * Q.moves.length) ^ j * rise (Q.N n) j := by
  have hK : 0 ≤ e + c * Q.moves.length := add_nonneg hQ.epos (mul_nonneg hQ.cpos (Nat.cast_nonneg _))
  induction j generalizing n with
  | zero =>
    unfold iter
    split <;> simp [rise]
  | succ j ih =>
    have hN := hQ.nonneg n hn
    have hb := rise_nonneg (x := Q.N n + 1) (by linarith) j
    set M := (e + c * Q.moves.length) ^ j * rise (Q.N n + 1) j with hM
    have hM0 : 0 ≤ M := mul_nonneg (pow_nonneg hK j) hb
    have hd : ‖Q.diagIn Q.S n * Q.iter j n‖ ≤ e * (Q.N n + 2) * M := by
      rw [norm_mul]
      refine mul_le_mul ?_ ((ih n hn).trans ?_) (norm_nonneg _) (mul_nonneg hQ.epos (by linarith))
      · unfold diagIn
        rw [if_pos hn, Complex.norm_real, Real.norm_eq_abs]
        exact (hQ.diag n hn).trans (mul_le_mul_of_nonneg_left (by linarith) hQ.epos)
      · exact mul_le_mul_of_nonneg_left (rise_mono hN (by linarith) j) (pow_nonneg hK j)
    have hm : ∀ μ ∈ Q.moves, ‖inside Q.S μ n * Q.iter j (μ.1 n)‖ ≤ c * (Q.N n + 2) * M := by
      intro μ hμ
      unfold inside
      by_cases h : Q.S n ∧ Q.S (μ.1 n)
      · rw [if_pos h, norm_mul]
        have hs := abs_le.1 (hQ.step μ hμ n h.1 h.2)
        refine mul_le_mul ((hQ.weight μ hμ n h.1 h.2).trans (mul_le_mul_of_nonneg_left ?_ hQ.cpos))
          ((ih _ h.2).trans ?_) (norm_nonneg _) (mul_nonneg hQ.cpos (by linarith))
        · refine Real.sqrt_le_iff.2 ⟨by linarith, ?_⟩
          nlinarith [hs.2]
        · exact mul_le_mul_of_nonneg_left (rise_mono (hQ.nonneg _ h.2) (by linarith [hs.2]) j) (pow_nonneg hK j)
      · rw [if_neg h, zero_mul, norm_zero]
        exact mul_nonneg (mul_nonneg hQ.cpos (by linarith)) hM0
    have hl : ∀ l : List ((ι ≃ ι) × (ι → ℂ)), (∀ μ ∈ l, ‖inside Q.S μ n * Q.iter j (μ.1 n)‖ ≤ c * (Q.N n + 2) * M) →
        ‖(l.map (fun μ => inside Q.S μ n * Q.iter j (μ.1 n))).sum‖ ≤ l.length * (c * (Q.N n + 2) * M) := by
      intro l
      induction l with
      | nil => intro _; simp
      | cons a l ihl =>
        intro h
        rw [List.map_cons, List.sum_cons, List.length_cons]
        push_cast
        have h1 := h a List.mem_cons_self
        have h2 := ihl (fun μ hμ => h μ (List.mem_cons_of_mem _ hμ))
        have := norm_add_le (inside Q.S a n * Q.iter j (a.1 n)) (l.map (fun μ => inside Q.S μ n * Q.iter j (μ.1 n))).sum
        linarith
    show ‖Q.diagIn Q.S n * Q.iter j n + _‖ ≤ _
    refine (norm_add_le _ _).trans ((add_le_add hd (hl _ hm)).trans (le_of_eq ?_))
    rw [rise_succ, pow_succ, hM]
    ring

/-- the moments grow no faster than `A^j j!` -/
theorem iter_factorial (hQ : Q.Ok e c) : ∃ A : ℝ, 0 < A ∧ ∀ j : ℕ, ‖Q.iter j Q.o‖ ≤ A ^ j * j ! := by
  have hK : 0 ≤ e + c * Q.moves.length := add_nonneg hQ.epos (mul_nonneg hQ.cpos (Nat.cast_nonneg _))
  refine ⟨2 * (e + c * Q.moves.length + 1), by linarith, fun j => ?_⟩
  have h := iter_growth hQ Q.o hQ.base j
  rw [hQ.baseN, rise_zero] at h
  refine h.trans ?_
  have h1 : ((j + 1)! : ℝ) ≤ 2 ^ j * j ! := by
    have : j + 1 ≤ 2 ^ j := Nat.lt_two_pow_self
    rw [Nat.factorial_succ]
    push_cast
    have h2 : ((j : ℝ) + 1) ≤ 2 ^ j := by exact_mod_cast this
    exact mul_le_mul_of_nonneg_right h2 (Nat.cast_nonneg _)
  have h2 : (e + c * Q.moves.length) ^ j ≤ (e + c * Q.moves.length + 1) ^ j := pow_le_pow_left₀ hK (by linarith) j
  calc _ ≤ (e + c * Q.moves.length + 1) ^ j * (2 ^ j * j !) :=
        mul_le_mul h2 h1 (Nat.cast_nonneg _) (pow_nonneg (by linarith) j)
    _ = _ := by rw [mul_pow]; ring

theorem stieltjes_continuous {z : ℂ} (hz : z.im ≠ 0) : Continuous (fun x : ℝ => 1 / (z - x)) := by
  refine continuous_const.div (by fun_prop) (fun x q => ?_)
  have := congrArg Complex.im q
  simp at this
  exact hz this

theorem stieltjes_bound {z : ℂ} (hz : z.im ≠ 0) (x : ℝ) : ‖1 / (z - x)‖ ≤ 1 / |z.im| := by
  rw [norm_div, norm_one]
  refine one_div_le_one_div_of_le (abs_pos.2 hz) ?_
  have := Complex.abs_im_le_norm (z - x)
  simpa using this

/-- weak convergence for the functions `1 / (z - x)` -/
theorem stieltjes_tendsto {μ : ℕ → ProbabilityMeasure ℝ} {ρ : ProbabilityMeasure ℝ} {U : Filter ℕ} (h : Tendsto μ U (𝓝 ρ))
    {z : ℂ} (hz : z.im ≠ 0) : Tendsto (fun n => Spec.stieltjes (μ n : Measure ℝ) z) U (𝓝 (Spec.stieltjes (ρ : Measure ℝ) z)) := by
  have hweak := ProbabilityMeasure.tendsto_iff_forall_integral_tendsto.1 h
  have hc := stieltjes_continuous hz
  have hi : ∀ κ : ProbabilityMeasure ℝ, Integrable (fun x : ℝ => 1 / (z - x)) (κ : Measure ℝ) := fun κ =>
    Integrable.of_bound hc.aestronglyMeasurable (1 / |z.im|) (Eventually.of_forall (stieltjes_bound hz))
  have h1 := hweak (BoundedContinuousFunction.ofNormedAddCommGroup (fun x : ℝ => (1 / (z - x)).re)
    (Complex.continuous_re.comp hc) (1 / |z.im|) (fun x => (Complex.abs_re_le_norm _).trans (stieltjes_bound hz x)))
  have h2 := hweak (BoundedContinuousFunction.ofNormedAddCommGroup (fun x : ℝ => (1 / (z - x)).im)
    (Complex.continuous_im.comp hc) (1 / |z.im|) (fun x => (Complex.abs_im_le_norm _).trans (stieltjes_bound hz x)))
  have e1 : ∀ κ : ProbabilityMeasure ℝ, ((∫ x : ℝ, (1 / (z - x)).re ∂(κ : Measure ℝ) : ℝ) : ℂ) +
      ((∫ x : ℝ, (1 / (z - x)).im ∂(κ : Measure ℝ) : ℝ) : ℂ) * Complex.I = Spec.stieltjes (κ : Measure ℝ) z := by
    intro κ
    rw [← Complex.re_add_im (Spec.stieltjes (κ : Measure ℝ) z)]
    unfold Spec.stieltjes
    rw [show (∫ x : ℝ, 1 / (z - x) ∂(κ : Measure ℝ)).re = ∫ x : ℝ, (1 / (z - x)).re ∂(κ : Measure ℝ) from
        (integral_re (hi κ)).symm,
      show (∫ x : ℝ, 1 / (z - x) ∂(κ : Measure ℝ)).im = ∫ x : ℝ, (1 / (z - x)).im ∂(κ : Measure ℝ) from
        (integral_im (hi κ)).symm]
  simp only [← e1]
  have t1 := (Complex.continuous_ofReal.tendsto _).comp h1
  have t2 := (Complex.continuous_ofReal.tendsto _).comp h2
  exact t1.add (t2.mul_const _)

/-- The Hamiltonian has a spectral measure in the starting state. -/
theorem exists_measure (hQ : Q.Ok e c) (hv : ∀ n, v n = Q.iter 0 n) (hvo : ∀ f : L2 ι, ⟪v, f⟫_ℂ = f Q.o) (hv1 : ‖v‖ = 1) :
    ∃ ρ : Measure ℝ, IsProbabilityMeasure ρ ∧ Spec.HasMoments ρ (fun j => Q.iter j Q.o) ∧
      ∀ (z : ℂ) (u : L2 ι), z.im ≠ 0 → Q.Exact z v u → Spec.stieltjes ρ z = u Q.o := by
  choose μ p1 p2 p3 using fun n : ℕ => spectral_measure (op_selfAdjoint hQ (upto_big hQ n)) hv1
  have hmom : ∀ n j : ℕ, j ≤ 2 * n + 1 → ((∫ x, x ^ j ∂(μ n) : ℝ) : ℂ) = Q.iter j Q.o := by
    intro n j hj
    rw [(p2 n j).2]
    exact moment_eq hQ (upto_big hQ n) hv hvo (fun _ h => reach_upto hQ h) hj
  have hev : ∀ j : ℕ, ∀ᶠ n in atTop, ∫ x, x ^ j ∂(μ n) = (Q.iter j Q.o).re := by
    intro j
    filter_upwards [eventually_ge_atTop j] with n hn
    rw [← hmom n j (by omega), Complex.ofReal_re]
  obtain ⟨ρ, U, hU, hT, hρ⟩ := moments_limit (μ := fun n => ⟨μ n, p1 n⟩) (fun n j => (p2 n j).1) hev
  refine ⟨ρ, inferInstance, fun j => ⟨(hρ j).1, ?_⟩, fun z u hz hu => ?_⟩
  · rw [(hρ j).2]
    have := hmom j j (by omega)
    rw [← this, Complex.ofReal_re]
    exact this
  · refine tendsto_nhds_unique (stieltjes_tendsto hT hz) ?_
    have hvn : ∀ n, n ≠ Q.o → v n = 0 := fun n hn => by
      rw [hv]; exact if_neg hn
    refine Tendsto.mono_left ?_ hU
    rw [Metric.tendsto_atTop]
    intro ε hε
    obtain ⟨F, hFS, hF⟩ := converges hQ hz hvn hu (half_pos hε)
    obtain ⟨n0, hn0⟩ : ∃ n0 : ℕ, ∀ x ∈ F, Q.N x ≤ n0 := by
      obtain ⟨M, hM⟩ := (F.image Q.N).exists_le
      refine ⟨⌈M⌉₊, fun x hx => (hM _ (Finset.mem_image_of_mem _ hx)).trans (Nat.le_ceil M)⟩
    refine ⟨n0, fun n hn => ?_⟩
    have h1 := hF (Q.upto n) n (upto_big hQ n) (fun x hx => ⟨hFS x hx, (hn0 x hx).trans (by exact_mod_cast hn)⟩) Q.o
      (upto_big hQ n).base
    have h2 : Spec.stieltjes (μ n) z = resolvent (Q.op (Q.upto n)) z v Q.o := by
      unfold Spec.stieltjes
      rw [p3 n z hz]
      unfold green
      rw [hvo]
    show dist (Spec.stieltjes (μ n) z) (u Q.o) < ε
    rw [h2, dist_eq_norm]
    linarith

end Hops

/-- only one probability measure has these moments -/
theorem hasMoments_unique {s : ℕ → ℂ} {A : ℝ} (hA : 0 < A) (hs : ∀ j : ℕ, ‖s j‖ ≤ A ^ j * j !) {μ ν : Measure ℝ}
    [IsProbabilityMeasure μ] [IsProbabilityMeasure ν] (hμ : Spec.HasMoments μ s) (hν : Spec.HasMoments ν s) : μ = ν := by
  refine moments_unique (fun j => (hμ j).1) (fun j => (hν j).1) (fun j => ?_) hA (fun j => ?_)
  · exact Complex.ofReal_injective ((hμ j).2.trans (hν j).2.symm)
  · have := hs (2 * j)
    rw [← (hμ (2 * j)).2, Complex.norm_real, Real.norm_eq_abs] at this
    exact (le_abs_self _).trans this

/-- the imaginary part of the Stieltjes transform -/
theorem stieltjes_im {ρ : Measure ℝ} [IsProbabilityMeasure ρ] {w eta : ℝ} (heta : 0 < eta) :
    -(Spec.stieltjes ρ ((w : ℂ) + eta * Complex.I)).im / Real.pi = Spec.broadened ρ w eta := by
  set z : ℂ := (w : ℂ) + eta * Complex.I with hz
  have him : z.im = eta := by simp [hz]
  have hz0 : z.im ≠ 0 := by rw [him]; exact heta.ne'
  have hi : Integrable (fun x : ℝ => 1 / (z - x)) ρ :=
    Integrable.of_bound (Hops.stieltjes_continuous hz0).aestronglyMeasurable (1 / |z.im|)
      (Eventually.of_forall (Hops.stieltjes_bound hz0))
  have h1 : (Spec.stieltjes ρ z).im = ∫ x : ℝ, (1 / (z - x)).im ∂ρ := (integral_im hi).symm
  rw [h1, ← integral_neg, ← integral_div]
  unfold Spec.broadened
  refine integral_congr_ae (Eventually.of_forall (fun x => ?_))
  show -(1 / (z - x)).im / Real.pi = eta / Real.pi / ((w - x) ^ 2 + eta ^ 2)
  have e1 : z - x = ((w - x : ℝ) : ℂ) + (eta : ℂ) * Complex.I := by rw [hz]; push_cast; ring
  have e2 : Complex.normSq (((w - x : ℝ) : ℂ) + (eta : ℂ) * Complex.I) = (w - x) ^ 2 + eta ^ 2 := Complex.normSq_add_mul_I _ _
  rw [e1, one_div, Complex.inv_im, e2]
  simp
  ring

end GGCE
