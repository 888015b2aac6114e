import Verif.Proofs.Galerkin

/-! Powers of a Hamiltonian on a starting state, and the expansion of the Green's function in `1/z`. -/

set_option linter.unusedSectionVars false

namespace GGCE
open ComplexConjugate
open scoped InnerProductSpace

section expansion
variable {E : Type*} [NormedAddCommGroup E] [InnerProductSpace ℂ E] [CompleteSpace E]

theorem resolvent_comm {H : E →L[ℂ] E} (hH : IsSelfAdjoint H) {z : ℂ} (hz : z.im ≠ 0) (f : E) :
    resolvent H z (H f) = H (resolvent H z f) := by
  have hr := mem_resolventSet_of_im hH hz
  refine (resolvent_unique hr ?_).symm
  rw [← map_smul, ← map_sub, resolvent_apply hr]

theorem resolvent_pow {H : E →L[ℂ] E} (hH : IsSelfAdjoint H) {z : ℂ} (hz : z.im ≠ 0) (f : E) (j : ℕ) :
    resolvent H z ((H ^ j) f) = (H ^ j) (resolvent H z f) := by
  induction j with
  | zero => rfl
  | succ j ih =>
    rw [pow_succ', mul_apply_eq_comp, resolvent_comm hH hz, ih]; rfl

theorem pow_symm {H : E →L[ℂ] E} (hH : IsSelfAdjoint H) (a : ℕ) (x y : E) :
    ⟪(H ^ a) x, y⟫_ℂ = ⟪x, (H ^ a) y⟫_ℂ :=
  ContinuousLinearMap.isSelfAdjoint_iff_isSymmetric.1 (hH.pow a) x y

theorem green_expand {H : E →L[ℂ] E} (hH : IsSelfAdjoint H) (v : E) {z : ℂ} (hz : z.im ≠ 0) (J : ℕ) :
    green H v z = ∑ j ∈ Finset.range J, ⟪v, (H ^ j) v⟫_ℂ / z ^ (j + 1) + ⟪v, (H ^ J) (resolvent H z v)⟫_ℂ / z ^ J := by
  have hz0 : z ≠ 0 := by rintro rfl; simp at hz
  induction J with
  | zero => simp [green]
  | succ J ih =>
    rw [ih, Finset.sum_range_succ, add_assoc]
    congr 1
    have h1 := smul_green hH v ((H ^ J) v) hz
    rw [pow_symm hH, pow_symm hH, pow_symm hH] at h1
    have h2 : (H ^ (J + 1)) (resolvent H z v) = (H ^ J) (H (resolvent H z v)) := by rw [pow_succ]; rfl
    rw [h2]
    field_simp
    rw [mul_comm, ← h1]
    ring

theorem green_remainder {H : E →L[ℂ] E} (hH : IsSelfAdjoint H) (v : E) {z : ℂ} (hz : z.im ≠ 0) (a : ℕ) :
    ‖green H v z - ∑ j ∈ Finset.range (2 * a), ⟪v, (H ^ j) v⟫_ℂ / z ^ (j + 1)‖ ≤
      ‖(H ^ a) v‖ ^ 2 / (‖z‖ ^ (2 * a) * |z.im|) := by
  rw [green_expand hH v hz (2 * a), add_sub_cancel_left, norm_div, norm_pow, two_mul, pow_add H,
    mul_apply_eq_comp, ← pow_symm hH, ← resolvent_pow hH hz]
  rw [mul_comm (‖z‖ ^ (a + a)), ← div_div]
  refine div_le_div_of_nonneg_right ?_ (by positivity)
  have := norm_inner_resolvent hH ((H ^ a) v) ((H ^ a) v) hz
  rwa [← pow_two] at this

end expansion

namespace Hops

variable {ι : Type} {Q : Hops ι} {e c : ℝ} {P : ι → Prop} {B : ℝ}

open Classical in
/-- the powers of the Hamiltonian on the starting point -/
noncomputable def iter (Q : Hops ι) : ℕ → ι → ℂ
  | 0 => fun n => if n = Q.o then 1 else 0
  | j + 1 => Q.act Q.S (iter Q j)

/-- the points reached in at most `j` moves -/
def Reach (Q : Hops ι) : ℕ → ι → Prop
  | 0 => fun n => n = Q.o
  | j + 1 => fun n => Q.S n ∧ (Reach Q j n ∨ ∃ μ ∈ Q.moves, Reach Q j (μ.1 n))

theorem reach_S (hQ : Q.Ok e c) : ∀ {j : ℕ} {n : ι}, Q.Reach j n → Q.S n
  | 0, _, h => by rw [show _ = Q.o from h]; exact hQ.base
  | _ + 1, _, h => h.1

theorem reach_succ (hQ : Q.Ok e c) {j : ℕ} {n : ι} (h : Q.Reach j n) : Q.Reach (j + 1) n := ⟨reach_S hQ h, Or.inl h⟩

theorem reach_mono (hQ : Q.Ok e c) {j J : ℕ} (hj : j ≤ J) {n : ι} (h : Q.Reach j n) : Q.Reach J n := by
  induction hj with
  | refl => exact h
  | step _ ih => exact reach_succ hQ ih

theorem reach_upto (hQ : Q.Ok e c) : ∀ {j : ℕ} {n : ι}, Q.Reach j n → Q.upto j n
  | 0, n, h => by
    rw [show n = Q.o from h]
    exact ⟨hQ.base, by rw [hQ.baseN]; simp⟩
  | j + 1, n, h => by
    refine ⟨h.1, ?_⟩
    push_cast
    rcases h.2 with h2 | ⟨μ, hμ, h2⟩
    · linarith [(reach_upto hQ h2).2]
    · have h3 := reach_upto hQ h2
      have := abs_le.1 (hQ.step μ hμ n h.1 h3.1)
      linarith [h3.2]

theorem iter_off : ∀ {j : ℕ} {n : ι}, ¬ Q.Reach j n → Q.iter j n = 0
  | 0, _, h => if_neg h
  | j + 1, n, h => by
    show Q.act Q.S (Q.iter j) n = 0
    by_cases hn : Q.S n
    · unfold act
      rw [iter_off (fun q => h ⟨hn, Or.inl q⟩), mul_zero, zero_add]
      refine List.sum_eq_zero (fun x hx => ?_)
      obtain ⟨μ, hμ, rfl⟩ := List.mem_map.1 hx
      rw [iter_off (fun q => h ⟨hn, Or.inr ⟨μ, hμ, q⟩⟩), mul_zero]
    · exact act_off hn _

/-- one more power inside a subset that contains the points reached so far -/
theorem act_iter (hP : ∀ n, P n → Q.S n) {j : ℕ} (hR : ∀ n, Q.Reach j n → P n) {n : ι} (hn : P n) :
    Q.act P (Q.iter j) n = Q.iter (j + 1) n := by
  show _ = Q.act Q.S (Q.iter j) n
  unfold act diagIn
  rw [if_pos hn, if_pos (hP n hn)]
  congr 2
  apply List.map_congr_left
  intro μ _
  by_cases h : Q.Reach j (μ.1 n)
  · unfold inside
    rw [if_pos ⟨hn, hR _ h⟩, if_pos ⟨hP n hn, hP _ (hR _ h)⟩]
  · rw [iter_off h, mul_zero, mul_zero]

variable {v : L2 ι}

theorem pow_eq (hQ : Q.Ok e c) (hP : Q.Sub P B) (hv : ∀ n, v n = Q.iter 0 n) {J : ℕ} (hR : ∀ n, Q.Reach J n → P n) :
    ∀ j ≤ J, ∀ n, (Q.op P ^ j) v n = Q.iter j n
  | 0, _, n => hv n
  | j + 1, hj, n => by
    have ih := pow_eq hQ hP hv hR j (by omega)
    have e1 : ((Q.op P ^ j) v : ι → ℂ) = Q.iter j := funext ih
    rw [pow_succ', mul_apply_eq_comp, op_apply hQ hP, e1]
    by_cases hn : P n
    · exact act_iter hP.sub (fun n h => hR n (reach_mono hQ (by omega) h)) hn
    · rw [act_off hn, iter_off (fun h => hn (hR n (reach_mono hQ hj h)))]

open Classical in
theorem pow_succ_eq (hQ : Q.Ok e c) (hP : Q.Sub P B) (hv : ∀ n, v n = Q.iter 0 n) {J : ℕ} (hR : ∀ n, Q.Reach J n → P n)
    (n : ι) : (Q.op P ^ (J + 1)) v n = if P n then Q.iter (J + 1) n else 0 := by
  have e1 : ((Q.op P ^ J) v : ι → ℂ) = Q.iter J := funext (pow_eq hQ hP hv hR J le_rfl)
  rw [pow_succ', mul_apply_eq_comp, op_apply hQ hP, e1]
  split
  · exact act_iter hP.sub hR ‹_›
  · exact act_off ‹_› _

theorem upto_big (hQ : Q.Ok e c) (J : ℕ) : Q.Sub (Q.upto J) J := upto_sub hQ (Nat.cast_nonneg J)

theorem iter_inner (hQ : Q.Ok e c) (hv : ∀ n, v n = Q.iter 0 n) (hvo : ∀ f : L2 ι, ⟪v, f⟫_ℂ = f Q.o) (a b J : ℕ)
    (hJ : a + b ≤ J) : ⟪(Q.op (Q.upto J) ^ a) v, (Q.op (Q.upto J) ^ b) v⟫_ℂ = Q.iter (a + b) Q.o := by
  rw [pow_symm (op_selfAdjoint hQ (upto_big hQ J)), ← mul_apply_eq_comp, ← pow_add, hvo]
  exact pow_eq hQ (upto_big hQ J) hv (fun _ h => reach_upto hQ h) _ hJ _

/-- the moments inside a subset agree with the moments of the whole Hamiltonian -/
theorem moment_eq (hQ : Q.Ok e c) (hP : Q.Sub P B) (hv : ∀ n, v n = Q.iter 0 n)
    (hvo : ∀ f : L2 ι, ⟪v, f⟫_ℂ = f Q.o) {J : ℕ} (hR : ∀ n, Q.Reach J n → P n) {j : ℕ} (hj : j ≤ 2 * J + 1) :
    ⟪v, (Q.op P ^ j) v⟫_ℂ = Q.iter j Q.o := by
  classical
  obtain ⟨a, b, ha, hb, rfl⟩ : ∃ a b, a ≤ J ∧ b ≤ J + 1 ∧ j = a + b :=
    ⟨min J j, j - min J j, by omega, by omega, by omega⟩
  rw [pow_add, mul_apply_eq_comp, ← pow_symm (op_selfAdjoint hQ hP),
    ← iter_inner hQ hv hvo a b (a + b) le_rfl, lp.inner_eq_tsum, lp.inner_eq_tsum]
  congr 1
  funext n
  rw [pow_eq hQ hP hv hR a ha, pow_eq hQ (upto_big hQ (a + b)) hv (fun _ h => reach_upto hQ h) a (by omega),
    pow_eq hQ (upto_big hQ (a + b)) hv (fun _ h => reach_upto hQ h) b (by omega)]
  by_cases hn : P n
  · congr 1
    rcases Nat.lt_or_ge J b with h | h
    · obtain rfl : b = J + 1 := by omega
      rw [pow_succ_eq hQ hP hv hR, if_pos hn]
    · exact pow_eq hQ hP hv hR b h n
  · rw [iter_off (fun h => hn (hR n (reach_mono hQ ha h))), inner_zero_left, inner_zero_left]

/-- the first power that is cut off is no longer than that of the whole Hamiltonian -/
theorem pow_norm (hQ : Q.Ok e c) (hP : Q.Sub P B) (hv : ∀ n, v n = Q.iter 0 n)
    (hvo : ∀ f : L2 ι, ⟪v, f⟫_ℂ = f Q.o) {J : ℕ} (hR : ∀ n, Q.Reach J n → P n) :
    ‖(Q.op P ^ (J + 1)) v‖ ^ 2 ≤ (Q.iter (2 * J + 2) Q.o).re := by
  classical
  have h1 := iter_inner hQ hv hvo (J + 1) (J + 1) (J + 1 + (J + 1)) le_rfl
  rw [show 2 * J + 2 = J + 1 + (J + 1) by omega, ← h1, inner_self_eq_norm_sq_to_K, L2.norm_sq]
  have h2 : (((‖(Q.op (Q.upto ((J + 1 + (J + 1) : ℕ) : ℝ)) ^ (J + 1)) v‖ : ℂ) ^ 2)).re =
      ‖(Q.op (Q.upto ((J + 1 + (J + 1) : ℕ) : ℝ)) ^ (J + 1)) v‖ ^ 2 := by
    rw [← Complex.ofReal_pow, Complex.ofReal_re]
  refine le_trans ?_ (le_of_eq h2.symm)
  rw [L2.norm_sq]
  refine (L2.summable _).tsum_le_tsum (fun n => ?_) (L2.summable _)
  rw [pow_succ_eq hQ hP hv hR,
    pow_eq hQ (upto_big hQ (J + 1 + (J + 1))) hv (fun _ h => reach_upto hQ h) (J + 1) (by omega)]
  split
  · exact le_rfl
  · rw [norm_zero, zero_pow two_ne_zero]; exact sq_nonneg _

/-- the expansion in `1/z` of every restricted Hamiltonian whose subset contains the points reached in `J` moves -/
theorem green_moments (hQ : Q.Ok e c) (hP : Q.Sub P B) (hv : ∀ n, v n = Q.iter 0 n)
    (hvo : ∀ f : L2 ι, ⟪v, f⟫_ℂ = f Q.o) {J : ℕ} (hR : ∀ n, Q.Reach J n → P n) {z : ℂ} (hz : z.im ≠ 0) :
    ‖green (Q.op P) v z - ∑ j ∈ Finset.range (2 * J + 2), Q.iter j Q.o / z ^ (j + 1)‖ ≤
      (Q.iter (2 * J + 2) Q.o).re / (‖z‖ ^ (2 * J + 2) * |z.im|) := by
  have h1 := green_remainder (op_selfAdjoint hQ hP) v hz (J + 1)
  have h2 : ∑ j ∈ Finset.range (2 * (J + 1)), ⟪v, (Q.op P ^ j) v⟫_ℂ / z ^ (j + 1) =
      ∑ j ∈ Finset.range (2 * J + 2), Q.iter j Q.o / z ^ (j + 1) := by
    refine Finset.sum_congr (by ring_nf) (fun j hj => ?_)
    rw [moment_eq hQ hP hv hvo hR (by have := Finset.mem_range.1 hj; omega)]
  rw [h2, show 2 * (J + 1) = 2 * J + 2 by ring] at h1
  exact h1.trans (div_le_div_of_nonneg_right (pow_norm hQ hP hv hvo hR) (by positivity))

end Hops
end GGCE
