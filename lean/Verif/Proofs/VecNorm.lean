import Verif.Spec.Residual
import Verif.Model.Store
import Mathlib.Analysis.InnerProductSpace.PiL2
import Mathlib.LinearAlgebra.Matrix.NonsingularInverse

/-! Norms of vectors and matrices; small changes of a linear system. -/

set_option linter.unusedSectionVars false

namespace GGCE
open Spec

noncomputable def toEuclid (n : ℕ) (x : ℕ → ℂ) : EuclideanSpace ℂ (Fin n) := WithLp.toLp 2 (fun i => x i)

theorem vecNorm_eq (n : ℕ) (x : ℕ → ℂ) : vecNorm n x = ‖toEuclid n x‖ := by
  rw [EuclideanSpace.norm_eq, vecNorm, Finset.sum_range]
  rfl

theorem vecNorm_nonneg (n : ℕ) (x : ℕ → ℂ) : 0 ≤ vecNorm n x := Real.sqrt_nonneg _

theorem vecNorm_add (n : ℕ) (x y : ℕ → ℂ) : vecNorm n (fun i => x i + y i) ≤ vecNorm n x + vecNorm n y := by
  rw [vecNorm_eq, vecNorm_eq, vecNorm_eq]
  exact norm_add_le (toEuclid n x) (toEuclid n y)

theorem vecNorm_sub (n : ℕ) (x y : ℕ → ℂ) : vecNorm n (fun i => x i - y i) ≤ vecNorm n x + vecNorm n y := by
  rw [vecNorm_eq, vecNorm_eq, vecNorm_eq]
  exact norm_sub_le (toEuclid n x) (toEuclid n y)

theorem vecNorm_congr {n : ℕ} {x y : ℕ → ℂ} (h : ∀ i < n, x i = y i) : vecNorm n x = vecNorm n y := by
  unfold vecNorm
  congr 1
  exact Finset.sum_congr rfl (fun i hi => by rw [h i (Finset.mem_range.1 hi)])

theorem vecNorm_eq_zero {n : ℕ} {x : ℕ → ℂ} (h : vecNorm n x = 0) : ∀ i < n, x i = 0 := by
  intro i hi
  rw [vecNorm, Real.sqrt_eq_zero (Finset.sum_nonneg (fun _ _ => by positivity)),
    Finset.sum_eq_zero_iff_of_nonneg (fun _ _ => by positivity)] at h
  have := h i (Finset.mem_range.2 hi)
  simpa using this

theorem vecNorm_target {ls : LinSys ℂ} {n : ℕ} (h : ls.rhsRow < n) : vecNorm n (target ls) = ‖ls.rhsVal‖ := by
  unfold vecNorm target
  rw [Finset.sum_eq_single ls.rhsRow]
  · rw [if_pos rfl, Real.sqrt_sq (norm_nonneg _)]
  · intro i _ hi
    rw [if_neg hi]; simp
  · intro hi
    exact absurd (Finset.mem_range.2 h) hi

/-- a matrix with entries at most `e` in modulus -/
theorem vecNorm_apply (n : ℕ) (E : ℕ → ℕ → ℂ) (x : ℕ → ℂ) :
    vecNorm n (fun i => ∑ j ∈ Finset.range n, E i j * x j) ≤
      √(∑ i ∈ Finset.range n, ∑ j ∈ Finset.range n, ‖E i j‖ ^ 2) * vecNorm n x := by
  unfold vecNorm
  rw [← Real.sqrt_mul (Finset.sum_nonneg (fun _ _ => Finset.sum_nonneg (fun _ _ => by positivity))), Finset.sum_mul]
  refine Real.sqrt_le_sqrt (Finset.sum_le_sum (fun i _ => ?_))
  refine le_trans (pow_le_pow_left₀ (norm_nonneg _) (norm_sum_le _ _) 2) ?_
  simp only [norm_mul]
  exact Finset.sum_mul_sq_le_sq_mul_sq _ _ _

/-- `√Σ (a + τ)² ≤ √Σ a² + n τ`, twice -/
theorem frob_add (n : ℕ) (a : ℕ → ℕ → ℝ) (u τ : ℝ) (hu : 0 ≤ u) (hτ : 0 ≤ τ) :
    √(∑ i ∈ Finset.range n, ∑ j ∈ Finset.range n, (u * a i j + τ) ^ 2) ≤
      u * √(∑ i ∈ Finset.range n, ∑ j ∈ Finset.range n, a i j ^ 2) + n * τ := by
  have h1 : ∀ f : ℕ → ℕ → ℝ, ∑ i ∈ Finset.range n, ∑ j ∈ Finset.range n, f i j ^ 2 =
      ∑ q : Fin n × Fin n, ‖f q.1 q.2‖ ^ 2 := by
    intro f
    rw [Fintype.sum_prod_type, Finset.sum_range]
    refine Finset.sum_congr rfl (fun i _ => ?_)
    rw [Finset.sum_range]
    simp
  let v : (ℕ → ℕ → ℝ) → EuclideanSpace ℝ (Fin n × Fin n) := fun f => WithLp.toLp 2 (fun q => f q.1 q.2)
  have h2 : ∀ f, √(∑ i ∈ Finset.range n, ∑ j ∈ Finset.range n, f i j ^ 2) = ‖v f‖ := by
    intro f
    rw [EuclideanSpace.norm_eq, h1]
  have h3 : v (fun i j => u * a i j + τ) = u • v a + v (fun _ _ => τ) := by
    ext q; rfl
  rw [h2 (fun i j => u * a i j + τ), h2 a, h3]
  refine (norm_add_le _ _).trans ?_
  rw [norm_smul, Real.norm_eq_abs, abs_of_nonneg hu]
  refine add_le_add le_rfl ?_
  rw [← h2 (fun _ _ => τ)]
  simp only [Finset.sum_const, Finset.card_range, nsmul_eq_mul]
  rw [show (n : ℝ) * (n * τ ^ 2) = (n * τ) ^ 2 by ring, Real.sqrt_sq (by positivity)]

/-- rounding one entry -/
theorem store_entry {ls : LinSys ℂ} (hnd : (ls.triples.map (fun q => (q.1, q.2.1))).Nodup) {u τ : ℝ} {rnd : ℂ → ℂ}
    (hr : Rounds u τ rnd) (i j : ℕ) :
    ‖cooEntry (ls.store rnd).triples i j - cooEntry ls.triples i j‖ ≤ u * ‖cooEntry ls.triples i j‖ + τ := by
  obtain ⟨hu, hτ, hr⟩ := hr
  show ‖cooEntry (ls.triples.map _) i j - _‖ ≤ _
  generalize ls.triples = T at hnd
  unfold cooEntry
  have hf : (T.map (fun t : ℕ × ℕ × ℂ => (t.1, t.2.1, rnd t.2.2))).filter (fun t => t.1 = i ∧ t.2.1 = j) =
      (T.filter (fun t => t.1 = i ∧ t.2.1 = j)).map (fun t => (t.1, t.2.1, rnd t.2.2)) := by
    rw [List.filter_map]; rfl
  rw [hf]
  have hone : (T.filter (fun t => t.1 = i ∧ t.2.1 = j)).length ≤ 1 := by
    have h1 : ((T.filter (fun t => t.1 = i ∧ t.2.1 = j)).map (fun q => (q.1, q.2.1))).Nodup :=
      hnd.sublist (List.filter_sublist.map _)
    have h2 : ∀ q ∈ (T.filter (fun t => t.1 = i ∧ t.2.1 = j)).map (fun q => (q.1, q.2.1)), q = (i, j) := by
      intro q hq
      obtain ⟨t, ht, rfl⟩ := List.mem_map.1 hq
      have := (List.mem_filter.1 ht).2
      simp only [decide_eq_true_eq] at this
      rw [this.1, this.2]
    have h3 := List.eq_replicate_of_mem h2
    rw [h3, List.nodup_replicate, List.length_map] at h1
    exact h1
  generalize T.filter (fun t => t.1 = i ∧ t.2.1 = j) = l at hone
  match l, hone with
  | [], _ => simpa using hτ
  | [t], _ => simpa using hr t.2.2

/-- what rounding the matrix changes -/
theorem store_apply {ls : LinSys ℂ} (hnd : (ls.triples.map (fun q => (q.1, q.2.1))).Nodup) {u τ : ℝ} {rnd : ℂ → ℂ}
    (hr : Rounds u τ rnd) (n : ℕ) (x : ℕ → ℂ) :
    vecNorm n (fun i => applied (ls.store rnd) n x i - applied ls n x i) ≤ (u * matNorm ls n + n * τ) * vecNorm n x := by
  have h1 : (fun i => applied (ls.store rnd) n x i - applied ls n x i) = fun i => ∑ j ∈ Finset.range n,
      (cooEntry (ls.store rnd).triples i j - cooEntry ls.triples i j) * x j := by
    funext i
    unfold applied
    rw [← Finset.sum_sub_distrib]
    exact Finset.sum_congr rfl (fun j _ => by ring)
  rw [h1]
  refine (vecNorm_apply n _ x).trans (mul_le_mul_of_nonneg_right ?_ (vecNorm_nonneg n x))
  refine le_trans (Real.sqrt_le_sqrt (Finset.sum_le_sum (fun i _ => Finset.sum_le_sum (fun j _ =>
    pow_le_pow_left₀ (norm_nonneg _) (store_entry hnd hr i j) 2)))) ?_
  exact frob_add n _ u τ hr.1 hr.2.1

theorem store_target {ls : LinSys ℂ} {u τ : ℝ} {rnd : ℂ → ℂ} (hr : Rounds u τ rnd) {n : ℕ} (h : ls.rhsRow < n) :
    vecNorm n (fun i => target (ls.store rnd) i - target ls i) ≤ u * ‖ls.rhsVal‖ + τ := by
  have : vecNorm n (fun i => target (ls.store rnd) i - target ls i) =
      vecNorm n (target ⟨[], ls.rhsRow, rnd ls.rhsVal - ls.rhsVal⟩) := by
    refine vecNorm_congr (fun i _ => ?_)
    unfold target LinSys.store
    simp only
    split <;> simp
  rw [this, vecNorm_target (by exact h)]
  exact hr.2.2 _

/-- A square system whose matrix kills only the zero vector has exactly one solution. -/
theorem solution_of_injective {ls : LinSys ℂ} {n : ℕ}
    (h : ∀ x : ℕ → ℂ, (∀ i < n, applied ls n x i = 0) → ∀ i < n, x i = 0) :
    (∃ x, Solution ls n x) ∧ ∀ x y, Solution ls n x → Solution ls n y → ∀ i < n, x i = y i := by
  have hap : ∀ (v : Fin n → ℂ) (i : Fin n),
      applied ls n (fun j => if h : j < n then v ⟨j, h⟩ else 0) i =
        (Matrix.of (fun i j : Fin n => cooEntry ls.triples i j)).mulVec v i := by
    intro v i
    unfold applied
    rw [Finset.sum_range]
    simp [Matrix.mulVec, dotProduct]
  constructor
  · have hdet : (Matrix.of (fun i j : Fin n => cooEntry ls.triples i j)).det ≠ 0 := by
      intro hd
      obtain ⟨v, hv0, hv⟩ := Matrix.exists_mulVec_eq_zero_iff.2 hd
      apply hv0
      funext i
      have := h (fun j => if h : j < n then v ⟨j, h⟩ else 0) (fun i hi => by
        rw [show i = ((⟨i, hi⟩ : Fin n) : ℕ) from rfl, hap, hv]; rfl) i i.isLt
      simpa using this
    let v := (Matrix.of (fun i j : Fin n => cooEntry ls.triples i j))⁻¹.mulVec (fun i => target ls i)
    refine ⟨fun j => if h : j < n then v ⟨j, h⟩ else 0, fun i hi => ?_⟩
    have := hap v ⟨i, hi⟩
    show applied ls n _ i = target ls i
    rw [show applied ls n _ i = _ from this]
    simp only [v, Matrix.mulVec_mulVec]
    rw [Matrix.mul_nonsing_inv _ (Ne.isUnit hdet), Matrix.one_mulVec]
  · intro x y hx hy i hi
    have := h (fun i => x i - y i) (fun i hi => by
      have e1 := hx i hi
      have e2 := hy i hi
      unfold applied
      simp only [mul_sub, Finset.sum_sub_distrib]
      rw [e1, e2, sub_self]) i hi
    exact sub_eq_zero.1 this

end GGCE
