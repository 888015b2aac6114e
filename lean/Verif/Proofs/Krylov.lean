import Verif.Proofs.Edge

/-! States made of powers of the Hamiltonian on one state have no weight below its edge either. -/

set_option linter.unusedSectionVars false

namespace GGCE
open Spec Complex ComplexConjugate Filter Topology
open scoped InnerProductSpace

variable {E : Type} [NormedAddCommGroup E] [InnerProductSpace ℂ E] [CompleteSpace E]

/-- the powers of `A` on `u` grow at most like the powers of `r` -/
def GrowsLike (A : E →L[ℂ] E) (r : ℝ) (u : E) : Prop := ∃ C : ℝ, 0 ≤ C ∧ ∀ j : ℕ, ‖(A ^ j) u‖ ≤ C * r ^ j

theorem GrowsLike.add {A : E →L[ℂ] E} {r : ℝ} {u u' : E} (h : GrowsLike A r u) (h' : GrowsLike A r u') :
    GrowsLike A r (u + u') := by
  obtain ⟨C, hC, h⟩ := h
  obtain ⟨C', hC', h'⟩ := h'
  refine ⟨C + C', by linarith, fun j => ?_⟩
  rw [map_add]
  refine (norm_add_le_of_le (h j) (h' j)).trans (le_of_eq (by ring))

theorem GrowsLike.smul {A : E →L[ℂ] E} {r : ℝ} {u : E} (h : GrowsLike A r u) (a : ℂ) : GrowsLike A r (a • u) := by
  obtain ⟨C, hC, h⟩ := h
  refine ⟨‖a‖ * C, by positivity, fun j => ?_⟩
  rw [map_smul, norm_smul, mul_assoc]
  exact mul_le_mul_of_nonneg_left (h j) (norm_nonneg a)

theorem GrowsLike.apply {A : E →L[ℂ] E} {r : ℝ} (hr : 0 ≤ r) {u : E} (h : GrowsLike A r u) : GrowsLike A r (A u) := by
  obtain ⟨C, hC, h⟩ := h
  refine ⟨C * r, by positivity, fun j => ?_⟩
  have := h (j + 1)
  rw [pow_succ] at this
  exact this.trans (le_of_eq (by ring))

theorem growsLike_zero {A : E →L[ℂ] E} {r : ℝ} : GrowsLike A r (0 : E) := ⟨0, le_rfl, fun j => by simp⟩

theorem pow_half {A : E →L[ℂ] E} (hA : IsSelfAdjoint A) (u : E) (j : ℕ) : ‖(A ^ j) u‖ ^ 2 ≤ ‖u‖ * ‖(A ^ (2 * j)) u‖ := by
  have hs := ContinuousLinearMap.isSelfAdjoint_iff_isSymmetric.1 (hA.pow j)
  have h1 : ⟪(A ^ j) u, (A ^ j) u⟫_ℂ = ⟪u, (A ^ (2 * j)) u⟫_ℂ := by
    rw [two_mul, pow_add]
    exact hs u _
  have h2 := norm_inner_le_norm (𝕜 := ℂ) u ((A ^ (2 * j)) u)
  rw [← h1, inner_self_eq_norm_sq_to_K] at h2
  simpa using h2

/-- such a state is multiplied by at most `r` -/
theorem GrowsLike.norm_le {A : E →L[ℂ] E} (hA : IsSelfAdjoint A) {r : ℝ} (hr : 0 < r) {u : E} (h : GrowsLike A r u) :
    ‖A u‖ ≤ r * ‖u‖ := by
  obtain ⟨C, hC, h⟩ := h
  by_cases hu : u = 0
  · rw [hu]; simp
  have hn : 0 < ‖u‖ := norm_pos_iff.2 hu
  by_contra hlt
  rw [not_le] at hlt
  set q := ‖A u‖ / (r * ‖u‖) with hq
  have hq1 : 1 < q := by rw [hq, lt_div_iff₀ (by positivity)]; linarith
  -- the powers of two
  have h1 : ∀ i : ℕ, (‖A u‖ / ‖u‖) ^ (2 ^ i) ≤ ‖(A ^ (2 ^ i)) u‖ / ‖u‖ := by
    intro i
    induction i with
    | zero => simp
    | succ i ih =>
      have h2 := pow_half hA u (2 ^ i)
      rw [pow_succ 2 i, pow_mul]
      have h3 : ((‖A u‖ / ‖u‖) ^ (2 ^ i)) ^ 2 ≤ (‖(A ^ (2 ^ i)) u‖ / ‖u‖) ^ 2 := pow_le_pow_left₀ (by positivity) ih 2
      refine h3.trans ?_
      rw [div_pow, div_le_div_iff₀ (by positivity) hn, mul_comm (2 ^ i) 2]
      nlinarith [norm_nonneg ((A ^ (2 * 2 ^ i)) u)]
  have h4 : ∀ i : ℕ, q ^ (2 ^ i) ≤ C / ‖u‖ := by
    intro i
    have h5 := (h1 i).trans (div_le_div_of_nonneg_right (h (2 ^ i)) hn.le)
    rw [hq, show ‖A u‖ / (r * ‖u‖) = ‖A u‖ / ‖u‖ / r by field_simp, div_pow, div_le_iff₀ (by positivity)]
    exact h5.trans (le_of_eq (by ring))
  have h6 : Tendsto (fun i : ℕ => q ^ (2 ^ i)) atTop atTop :=
    (tendsto_pow_atTop_atTop_of_one_lt hq1).comp (tendsto_pow_atTop_atTop_of_one_lt (by norm_num))
  obtain ⟨i, hi⟩ := (h6.eventually (eventually_gt_atTop (C / ‖u‖))).exists
  exact absurd (h4 i) (not_le.2 hi)

/-- powers of `H` on a state grow like the state -/
theorem GrowsLike.pow {H : E →L[ℂ] E} {c r : ℝ} (hr : 0 ≤ r) {u : E}
    (h : GrowsLike (algebraMap ℝ (E →L[ℂ] E) c - H) r u) : ∀ j : ℕ, GrowsLike (algebraMap ℝ (E →L[ℂ] E) c - H) r ((H ^ j) u)
  | 0 => by simpa using h
  | j + 1 => by
    have ih := GrowsLike.pow hr h j
    have e : (H ^ (j + 1)) u = (c : ℂ) • (H ^ j) u + (-1 : ℂ) • (algebraMap ℝ (E →L[ℂ] E) c - H) ((H ^ j) u) := by
      rw [pow_succ', sub_apply, Algebra.algebraMap_eq_smul_one]
      show H ((H ^ j) u) = _
      have : (c • (1 : E →L[ℂ] E)) ((H ^ j) u) = (c : ℂ) • (H ^ j) u := rfl
      rw [this]
      module
    rw [e]
    exact (ih.smul _).add ((ih.apply hr).smul _)

/-- the mean energy of such a state is not below the edge -/
theorem GrowsLike.energy {H : E →L[ℂ] E} (hH : IsSelfAdjoint H) {c e : ℝ} (hec : e < c) {u : E}
    (h : GrowsLike (algebraMap ℝ (E →L[ℂ] E) c - H) (c - e) u) : e * ‖u‖ ^ 2 ≤ (⟪u, H u⟫_ℂ).re := by
  have hA : IsSelfAdjoint (algebraMap ℝ (E →L[ℂ] E) c - H) := (IsSelfAdjoint.algebraMap _ (by rfl)).sub hH
  have h1 := h.norm_le hA (by linarith)
  have h2 : (⟪u, (algebraMap ℝ (E →L[ℂ] E) c - H) u⟫_ℂ).re ≤ ‖u‖ * ((c - e) * ‖u‖) :=
    (Complex.re_le_norm _).trans ((norm_inner_le_norm (𝕜 := ℂ) _ _).trans (mul_le_mul_of_nonneg_left h1 (norm_nonneg u)))
  have e1 : (algebraMap ℝ (E →L[ℂ] E) c - H) u = (c : ℂ) • u - H u := by
    rw [sub_apply, Algebra.algebraMap_eq_smul_one]
    rfl
  have e2 : (⟪u, u⟫_ℂ).re = ‖u‖ ^ 2 := by rw [inner_self_eq_norm_sq_to_K]; norm_cast
  rw [e1, inner_sub_right, inner_smul_right, Complex.sub_re, Complex.re_ofReal_mul, e2] at h2
  nlinarith

theorem growsLike_sum {A : E →L[ℂ] E} {r : ℝ} (f : ℕ → E) (h : ∀ i, GrowsLike A r (f i)) : ∀ n : ℕ,
    GrowsLike A r (∑ i ∈ Finset.range n, f i)
  | 0 => by simpa using growsLike_zero
  | n + 1 => by rw [Finset.sum_range_succ]; exact (growsLike_sum f h n).add (h n)

/-- the quadratic form of the moments -/
theorem moments_form {H : E →L[ℂ] E} (hH : IsSelfAdjoint H) {v : E} {c e : ℝ} (hec : e < c)
    (h : GrowsLike (algebraMap ℝ (E →L[ℂ] E) c - H) (c - e) v) (a : ℕ → ℝ) (n : ℕ) :
    0 ≤ ∑ i ∈ Finset.range n, ∑ j ∈ Finset.range n,
      a i * a j * ((⟪v, (H ^ (i + j + 1)) v⟫_ℂ).re - e * (⟪v, (H ^ (i + j)) v⟫_ℂ).re) := by
  set u : E := ∑ i ∈ Finset.range n, (a i : ℂ) • (H ^ i) v with hu
  have h1 : GrowsLike (algebraMap ℝ (E →L[ℂ] E) c - H) (c - e) u :=
    growsLike_sum _ (fun i => (h.pow (by linarith) i).smul _) n
  have h2 := h1.energy hH hec
  have hs : ∀ i : ℕ, ∀ x y : E, ⟪(H ^ i) x, y⟫_ℂ = ⟪x, (H ^ i) y⟫_ℂ := fun i =>
    ContinuousLinearMap.isSelfAdjoint_iff_isSymmetric.1 (hH.pow i)
  have e1 : ⟪u, u⟫_ℂ = ∑ i ∈ Finset.range n, ∑ j ∈ Finset.range n, ((a i * a j : ℝ) : ℂ) * ⟪v, (H ^ (i + j)) v⟫_ℂ := by
    rw [hu, sum_inner]
    refine Finset.sum_congr rfl (fun i _ => ?_)
    rw [inner_sum]
    refine Finset.sum_congr rfl (fun j _ => ?_)
    rw [inner_smul_left, inner_smul_right, hs, pow_add, Complex.conj_ofReal]
    show _ * (_ * ⟪v, (H ^ i) ((H ^ j) v)⟫_ℂ) = _ * ⟪v, (H ^ i) ((H ^ j) v)⟫_ℂ
    push_cast; ring
  have e2 : ⟪u, H u⟫_ℂ = ∑ i ∈ Finset.range n, ∑ j ∈ Finset.range n, ((a i * a j : ℝ) : ℂ) * ⟪v, (H ^ (i + j + 1)) v⟫_ℂ := by
    rw [hu, sum_inner]
    refine Finset.sum_congr rfl (fun i _ => ?_)
    rw [map_sum, inner_sum]
    refine Finset.sum_congr rfl (fun j _ => ?_)
    rw [map_smul, inner_smul_left, inner_smul_right, hs, show i + j + 1 = i + (j + 1) by ring, pow_add, pow_succ' H j, Complex.conj_ofReal]
    show _ * (_ * ⟪v, (H ^ i) (H ((H ^ j) v))⟫_ℂ) = _ * ⟪v, (H ^ i) (H ((H ^ j) v))⟫_ℂ
    push_cast; ring
  have e3 : ‖u‖ ^ 2 = (⟪u, u⟫_ℂ).re := by
    rw [inner_self_eq_norm_sq_to_K]; norm_cast
  rw [e3, e1, e2] at h2
  simp only [Complex.re_sum, Complex.re_ofReal_mul] at h2
  simp only [mul_sub, Finset.sum_sub_distrib]
  have e4 : ∑ i ∈ Finset.range n, ∑ j ∈ Finset.range n, a i * a j * (e * (⟪v, (H ^ (i + j)) v⟫_ℂ).re) =
      e * ∑ i ∈ Finset.range n, ∑ j ∈ Finset.range n, a i * a j * (⟪v, (H ^ (i + j)) v⟫_ℂ).re := by
    rw [Finset.mul_sum]
    refine Finset.sum_congr rfl (fun i _ => ?_)
    rw [Finset.mul_sum]
    refine Finset.sum_congr rfl (fun j _ => by ring)
  rw [e4]
  linarith

end GGCE
