import Verif.Spec.DenseResidual
import Verif.Proofs.DenseSolve
import Verif.Proofs.VecNorm
import Mathlib.Analysis.Matrix.Normed

/-! The residual of the blocks is the residual of the linear system. -/

set_option linter.unusedSectionVars false

namespace GGCE
open Spec Arr Dict

/-! ### norms -/

open scoped Matrix.Norms.Frobenius in
theorem frob_eq {r c : ℕ} (M : Matrix (Fin r) (Fin c) ℂ) : frob M = ‖M‖ := by
  rw [Matrix.frobenius_norm_def, frob, Real.sqrt_eq_rpow]
  norm_num

theorem colNorm_eq {n : ℕ} (v : Fin n → ℂ) : colNorm v = ‖WithLp.toLp 2 v‖ := by
  rw [EuclideanSpace.norm_eq]; rfl

theorem frob_nonneg {r c : ℕ} (M : Matrix (Fin r) (Fin c) ℂ) : 0 ≤ frob M := Real.sqrt_nonneg _

theorem colNorm_nonneg {n : ℕ} (v : Fin n → ℂ) : 0 ≤ colNorm v := Real.sqrt_nonneg _

open scoped Matrix.Norms.Frobenius in
theorem frobMinus {r c : ℕ} (M M' : Matrix (Fin r) (Fin c) ℂ) : frob (M - M') ≤ frob M + frob M' := by
  simp only [frob_eq]; exact norm_sub_le _ _

open scoped Matrix.Norms.Frobenius in
theorem frobPlus {r c : ℕ} (M M' : Matrix (Fin r) (Fin c) ℂ) : frob (M + M') ≤ frob M + frob M' := by
  simp only [frob_eq]; exact norm_add_le _ _

open scoped Matrix.Norms.Frobenius in
theorem frobTimes {r c s : ℕ} (M : Matrix (Fin r) (Fin c) ℂ) (M' : Matrix (Fin c) (Fin s) ℂ) :
    frob (M * M') ≤ frob M * frob M' := by
  simp only [frob_eq]; exact Matrix.frobenius_norm_mul _ _

theorem colNorm_mulVec {r c : ℕ} (M : Matrix (Fin r) (Fin c) ℂ) (v : Fin c → ℂ) :
    colNorm (M.mulVec v) ≤ frob M * colNorm v := by
  unfold colNorm frob
  rw [← Real.sqrt_mul (Finset.sum_nonneg (fun _ _ => Finset.sum_nonneg (fun _ _ => by positivity))), Finset.sum_mul]
  refine Real.sqrt_le_sqrt (Finset.sum_le_sum (fun i _ => ?_))
  have e : M.mulVec v i = ∑ j, M i j * v j := rfl
  rw [e]
  refine le_trans (pow_le_pow_left₀ (norm_nonneg _) (norm_sum_le _ _) 2) ?_
  simp only [norm_mul]
  exact Finset.sum_mul_sq_le_sq_mul_sq _ _ _

theorem entry_le_frob {r c : ℕ} (M : Matrix (Fin r) (Fin c) ℂ) (i : Fin r) (j : Fin c) : ‖M i j‖ ≤ frob M := by
  unfold frob
  refine Real.le_sqrt_of_sq_le ?_
  refine le_trans ?_ (Finset.single_le_sum (f := fun i => ∑ j, ‖M i j‖ ^ 2)
    (fun _ _ => Finset.sum_nonneg (fun _ _ => by positivity)) (Finset.mem_univ i))
  exact Finset.single_le_sum (f := fun j => ‖M i j‖ ^ 2) (fun _ _ => by positivity) (Finset.mem_univ j)

/-- entrywise rounding -/
theorem frob_round {r c : ℕ} (M : Matrix (Fin r) (Fin c) ℂ) {u τ : ℝ} {rnd : ℂ → ℂ} (h : Rounds u τ rnd) :
    frob (M.map rnd - M) ≤ u * frob M + √(r * c) * τ := by
  have e : frob (M.map rnd - M) ≤ frob (fun i j => ((u * ‖M i j‖ + τ : ℝ) : ℂ) : Matrix (Fin r) (Fin c) ℂ) := by
    unfold frob
    refine Real.sqrt_le_sqrt (Finset.sum_le_sum (fun i _ => Finset.sum_le_sum (fun j _ => ?_)))
    refine pow_le_pow_left₀ (norm_nonneg _) ?_ 2
    have := h.2.2 (M i j)
    rw [Complex.norm_real, Real.norm_eq_abs]
    exact this.trans (le_abs_self _)
  refine e.trans ?_
  have e2 : (fun i j => ((u * ‖M i j‖ + τ : ℝ) : ℂ) : Matrix (Fin r) (Fin c) ℂ) =
      Matrix.of (fun i j => ((u * ‖M i j‖ : ℝ) : ℂ)) + Matrix.of (fun _ _ => (τ : ℂ)) := by
    ext i j
    exact Complex.ofReal_add _ _
  rw [e2]
  refine (frobPlus _ _).trans (add_le_add (le_of_eq ?_) (le_of_eq ?_))
  · unfold frob
    simp only [Matrix.of_apply, Complex.norm_real, Real.norm_eq_abs, sq_abs, mul_pow, ← Finset.mul_sum]
    rw [Real.sqrt_mul (sq_nonneg _), Real.sqrt_sq h.1]
  · unfold frob
    simp only [Matrix.of_apply, Complex.norm_real, Real.norm_eq_abs, sq_abs, Finset.sum_const, Finset.card_univ, Fintype.card_fin,
      nsmul_eq_mul]
    rw [← mul_assoc, Real.sqrt_mul (by positivity), Real.sqrt_sq h.2.1]

/-! ### the equations -/

section
variable {R K : Type} [Field R] [LinearOrder R] [Field K]
variable {m : Model R} {eqs : Dict Nat (List (Equation R))}

theorem Ready.blocks_unique (h : Ready m eqs) {F : Phys R ℂ} {p : Point R} {A B}
    (hb : IsBlocks F m p eqs A B) : (∀ n < m.number.sum.toNat, A n = alphaM F m p eqs n) ∧
      ∀ n < m.number.sum.toNat, B n = betaM F m p eqs n := by
  refine ⟨fun n hn => ?_, fun n hn => ?_⟩
  · obtain ⟨ts, e1, e2⟩ := hb.alpha n hn
    rw [h.fill_eq F p (by omega) (by omega)] at e1
    cases e1; exact e2
  · obtain ⟨ts, e1, e2⟩ := hb.beta n hn
    rw [h.fill_eq F p (by omega) (by omega)] at e1
    cases e1; exact e2

theorem Ready.isBlocks (h : Ready m eqs) (F : Phys R ℂ) (p : Point R) :
    IsBlocks F m p eqs (alphaM F m p eqs) (betaM F m p eqs) :=
  ⟨fun n hn => ⟨_, h.fill_eq F p (by omega) (by omega), rfl⟩,
    fun n hn => ⟨_, h.fill_eq F p (by omega) (by omega), rfl⟩⟩

/-- the matrices of all levels, when the recursion succeeds -/
theorem fraction_family {d : ℕ → ℕ} {A : ∀ n, Matrix (Fin (d (n + 1))) (Fin (d n)) K}
    {B : ∀ n, Matrix (Fin (d n)) (Fin (d (n + 1))) K} {s n : ℕ} {Q} (h : fraction A B s n = .ok Q) :
    ∃ Rt : ∀ n, Matrix (Fin (d (n + 1))) (Fin (d n)) K, Rt n = Q ∧
      (∀ k, n ≤ k → k < n + s → (1 - B (k + 1) * Rt (k + 1)) * Rt k = A k) ∧ Rt (n + s) = A (n + s) := by
  induction s generalizing n with
  | zero =>
    simp only [fraction, Except.ok.injEq] at h
    exact ⟨A, h, fun k h1 h2 => by omega, rfl⟩
  | succ s ih =>
    obtain ⟨R', h1, h2, rfl⟩ := fraction_succ h
    obtain ⟨Rt, k1, k2, k3⟩ := ih h1
    refine ⟨Function.update Rt n ((1 - B (n + 1) * R')⁻¹ * A n), Function.update_self .., ?_, ?_⟩
    · intro k hk hk'
      rw [Function.update_of_ne (show k + 1 ≠ n by omega)]
      rcases Nat.eq_or_lt_of_le hk with rfl | hlt
      · rw [Function.update_self, k1, ← Matrix.mul_assoc, Matrix.mul_nonsing_inv _ h2, Matrix.one_mul]
      · rw [Function.update_of_ne (by omega)]
        exact k2 k hlt (by omega)
    · rw [Function.update_of_ne (by omega), show n + (s + 1) = n + 1 + s by omega]
      exact k3

/-- The sign flip, with a right-hand side on every row. -/
theorem Ready.flip_defect (h : Ready m eqs) {c : Term R → K} {bias : Equation R → K} (y : PyStr → K)
    (hy : SolvesAll (fun t => -c t) bias (allEqs eqs) y) :
    SolvesAll c (fun e => (-1) ^ e.config.total.toNat * bias e) (allEqs eqs) (flip eqs y) := by
  intro e he
  obtain ⟨n, hn, hn'⟩ := h.total_le he
  have hs : (e.terms.map (fun t => c t * flip eqs y t.id)).sum =
      (-1) ^ n * (e.terms.map (fun t => -c t * y t.id)).sum := by
    rw [list_sum_mul_left]
    congr 1
    apply List.map_congr_left
    intro t ht
    obtain ⟨e', he', h1, h2⟩ := h.closed e he t ht
    have h3 := h.step e he t ht
    obtain ⟨n', -, hn2⟩ := h.total_le he'
    have hl : levelOf eqs t.id = n' := by rw [← h1, h.level he', hn2]; simp
    have hp : ((-1 : K)) ^ n' = - (-1) ^ n := by
      rcases h3 with h3 | h3
      · have : n' = n + 1 := by omega
        rw [this, pow_succ]; ring
      · have : n = n' + 1 := by omega
        rw [this, pow_succ]; ring
    unfold flip
    rw [hl, hp]; ring
  have hl : levelOf eqs e.id = n := by rw [h.level he, hn']; simp
  have := hy e he
  simp only at this ⊢
  rw [hs]
  unfold flip
  rw [hl, ← mul_add, this, hn']
  simp

/-- sums over the equations, level by level -/
theorem Ready.sum_levels (h : Ready m eqs) (f : Equation R → ℝ) (g : ∀ n, Fin (GGCE.blockDim (GGCE.localBasis eqs) n) → ℝ)
    (hfg : ∀ n ≤ m.number.sum.toNat, ∀ i e, (eqs.vals n)[i.val]? = some e → f e = g n i) :
    ((allEqs eqs).map f).sum = ∑ n ∈ Finset.range (m.number.sum.toNat + 1), ∑ i, g n i := by
  rw [← (h.order_perm.map f).sum_eq, List.map_flatMap]
  have key : ∀ l : List ℕ, (∀ n ∈ l, n ≤ m.number.sum.toNat) →
      (l.flatMap (fun n => (eqs.vals n).map f)).sum = (l.map (fun n => ∑ i, g n i)).sum := by
    intro l hl
    induction l with
    | nil => rfl
    | cons n l ih =>
      rw [List.flatMap_cons, List.sum_append, List.map_cons, List.sum_cons, ih (fun n' hn' => hl n' (by simp [hn']))]
      congr 1
      have hn := hl n (by simp)
      have hd := h.blockDim hn
      rw [← List.sum_ofFn]
      congr 1
      apply List.ext_getElem (by simp [hd])
      intro i h1 h2
      simp only [List.getElem_map, List.getElem_ofFn]
      exact hfg n hn ⟨i, by simpa using h2⟩ _ (List.getElem?_eq_getElem (by simpa using h1))
  rw [key _ (fun n hn => by simpa using Nat.le_of_lt_succ (List.mem_range.1 hn)), Finset.sum_range, ← List.sum_ofFn]
  congr 1
  apply List.ext_getElem (by simp)
  intro i h1 h2
  rw [List.getElem_map, List.getElem_ofFn, List.getElem_range]

end

end GGCE
