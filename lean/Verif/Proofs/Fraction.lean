import Verif.Py
import Mathlib.LinearAlgebra.Matrix.NonsingularInverse

/-! Block elimination of a block-tridiagonal system with unit diagonal blocks. -/

namespace GGCE

variable {K : Type} [Field K]

open Classical in
/-- the continued fraction of matrices, from the top block down -/
noncomputable def fraction {d : Nat → Nat} (A : ∀ n, Matrix (Fin (d (n + 1))) (Fin (d n)) K)
    (B : ∀ n, Matrix (Fin (d n)) (Fin (d (n + 1))) K) :
    (s n : Nat) → Py (Matrix (Fin (d (n + 1))) (Fin (d n)) K)
  | 0, n => .ok (A n)
  | s + 1, n => do
    let R' ← fraction A B s (n + 1)
    let X : Matrix (Fin (d (n + 1))) (Fin (d (n + 1))) K := 1 - B (n + 1) * R'
    if X.det = 0 then .error .linAlgError
    else pure (X⁻¹ * A n)

variable {d : Nat → Nat} {A : ∀ n, Matrix (Fin (d (n + 1))) (Fin (d n)) K}
  {B : ∀ n, Matrix (Fin (d n)) (Fin (d (n + 1))) K}

/-- the vectors `Y` satisfy the blocks `n + 1, …, n + 1 + s`, the last of which has nothing above -/
def Blocks (A : ∀ n, Matrix (Fin (d (n + 1))) (Fin (d n)) K)
    (B : ∀ n, Matrix (Fin (d n)) (Fin (d (n + 1))) K) (s n : Nat) (Y : ∀ n, Fin (d n) → K) : Prop :=
  (∀ k, n ≤ k → k < n + s → Y (k + 1) = (A k).mulVec (Y k) + (B (k + 1)).mulVec (Y (k + 2))) ∧
  Y (n + s + 1) = (A (n + s)).mulVec (Y (n + s))

theorem fraction_succ {s n : Nat} {Q : Matrix (Fin (d (n + 1))) (Fin (d n)) K}
    (h : fraction A B (s + 1) n = .ok Q) : ∃ R', fraction A B s (n + 1) = .ok R' ∧
      IsUnit (1 - B (n + 1) * R').det ∧ Q = (1 - B (n + 1) * R')⁻¹ * A n := by
  rw [fraction] at h
  cases hr : fraction A B s (n + 1) with
  | error e => rw [hr] at h; cases h
  | ok R' =>
    rw [hr] at h
    simp only [bind, Except.bind] at h
    split at h
    · cases h
    · rename_i hne
      refine ⟨R', rfl, isUnit_iff_ne_zero.2 hne, ?_⟩
      simpa [pure, Except.pure] using h.symm

theorem fraction_unique {s n : Nat} {Q : Matrix (Fin (d (n + 1))) (Fin (d n)) K}
    (h : fraction A B s n = .ok Q) {Y : ∀ n, Fin (d n) → K} (hY : Blocks A B s n Y) :
    Y (n + 1) = Q.mulVec (Y n) := by
  induction s generalizing n with
  | zero =>
    simp only [fraction, Except.ok.injEq] at h
    rw [← h]; exact hY.2
  | succ s ih =>
    obtain ⟨R', h1, h2, rfl⟩ := fraction_succ h
    have h3 := ih h1 ⟨fun k hk hk' => hY.1 k (by omega) (by omega), by
      have := hY.2
      rwa [show n + (s + 1) = n + 1 + s by omega] at this⟩
    have h4 := hY.1 n le_rfl (by omega)
    rw [h3, Matrix.mulVec_mulVec] at h4
    have h5 : (1 - B (n + 1) * R').mulVec (Y (n + 1)) = (A n).mulVec (Y n) := by
      rw [Matrix.sub_mulVec, Matrix.one_mulVec]
      nth_rewrite 1 [h4]
      simp
    rw [← Matrix.mulVec_mulVec, ← h5, Matrix.mulVec_mulVec, Matrix.nonsing_inv_mul _ h2,
      Matrix.one_mulVec]

/-- the lowest block determines all others -/
theorem fraction_determined {s n : Nat} {Q : Matrix (Fin (d (n + 1))) (Fin (d n)) K}
    (h : fraction A B s n = .ok Q) {Y Y' : ∀ n, Fin (d n) → K} (hY : Blocks A B s n Y)
    (hY' : Blocks A B s n Y') (h0 : Y n = Y' n) : ∀ k, n ≤ k → k ≤ n + s + 1 → Y k = Y' k := by
  induction s generalizing n with
  | zero =>
    intro k hk hk'
    rcases Nat.eq_or_lt_of_le hk with rfl | hk
    · exact h0
    · have : k = n + 1 := by omega
      subst this
      rw [fraction_unique h hY, fraction_unique h hY', h0]
  | succ s ih =>
    intro k hk hk'
    rcases Nat.eq_or_lt_of_le hk with rfl | hk
    · exact h0
    · have h1 : Y (n + 1) = Y' (n + 1) := by rw [fraction_unique h hY, fraction_unique h hY', h0]
      obtain ⟨R', h2, -, -⟩ := fraction_succ h
      have hs : ∀ Z : ∀ n, Fin (d n) → K, Blocks A B (s + 1) n Z → Blocks A B s (n + 1) Z := by
        intro Z hZ
        refine ⟨fun k hk hk' => hZ.1 k (by omega) (by omega), ?_⟩
        have := hZ.2
        rwa [show n + (s + 1) = n + 1 + s by omega] at this
      exact ih h2 (hs Y hY) (hs Y' hY') h1 k (by omega) (by omega)

theorem fraction_exists {s n : Nat} {Q : Matrix (Fin (d (n + 1))) (Fin (d n)) K}
    (h : fraction A B s n = .ok Q) (v : Fin (d n) → K) :
    ∃ Y : ∀ n, Fin (d n) → K, Blocks A B s n Y ∧ Y n = v ∧ Y (n + 1) = Q.mulVec v := by
  induction s generalizing n with
  | zero =>
    simp only [fraction, Except.ok.injEq] at h
    let Y : ∀ n, Fin (d n) → K :=
      Function.update (Function.update (fun _ => 0) n v) (n + 1) ((A n).mulVec v)
    have e1 : Y n = v := by
      show Function.update _ _ _ _ = _
      rw [Function.update_of_ne (by omega), Function.update_self]
    have e2 : Y (n + 1) = (A n).mulVec v := by
      show Function.update _ _ _ _ = _
      rw [Function.update_self]
    exact ⟨Y, ⟨fun k h1 h2 => by omega, by show Y (n + 1) = (A n).mulVec (Y n); rw [e1, e2]⟩, e1, by
      rw [← h]; exact e2⟩
  | succ s ih =>
    obtain ⟨R', h1, h2, rfl⟩ := fraction_succ h
    obtain ⟨Y', k1, k2, k3⟩ := ih h1 (((1 - B (n + 1) * R')⁻¹ * A n).mulVec v)
    let Y : ∀ n, Fin (d n) → K := Function.update Y' n v
    have e1 : Y n = v := Function.update_self ..
    have e2 : ∀ k, n < k → Y k = Y' k := fun k hk => Function.update_of_ne (by omega) _ _
    refine ⟨Y, ⟨?_, ?_⟩, e1, by rw [e2 _ (by omega), k2]⟩
    · intro k hk hk'
      rcases Nat.eq_or_lt_of_le hk with rfl | hk
      · rw [e1, e2 _ (by omega), e2 _ (by omega), k2, k3, Matrix.mulVec_mulVec]
        have : (1 - B (n + 1) * R').mulVec (((1 - B (n + 1) * R')⁻¹ * A n).mulVec v) = (A n).mulVec v := by
          rw [Matrix.mulVec_mulVec, ← Matrix.mul_assoc, Matrix.mul_nonsing_inv _ h2, Matrix.one_mul]
        rw [Matrix.sub_mulVec, Matrix.one_mulVec] at this
        exact eq_add_of_sub_eq this
      · rw [e2 _ (by omega), e2 _ (by omega), e2 _ (by omega)]
        exact k1.1 k (by omega) (by omega)
    · rw [e2 _ (by omega), e2 _ (by omega)]
      have := k1.2
      rwa [show n + 1 + s = n + (s + 1) by omega] at this

end GGCE
