import Verif.Proofs.DenseSolve
import Mathlib.LinearAlgebra.Matrix.ToLinearEquiv

/-! If no part of the hierarchy above some phonon number has a nonzero solution, the dense solver always
succeeds. -/

set_option linter.unusedSectionVars false

namespace GGCE
open Spec Arr Dict

variable {R K : Type} [Field R] [LinearOrder R] [Field K]
variable {m : Model R} {eqs : Dict Nat (List (Equation R))}

/-- The homogeneous equations with at least `n` phonons, with unknowns vanishing below, have only the
zero solution. -/
def Definite (F : Phys R K) (m : Model R) (p : Point R) (eqs : Dict Nat (List (Equation R))) : Prop :=
  ∀ (n : Nat) (U : PyStr → K),
    (∀ e ∈ allEqs eqs, (n : Int) ≤ e.config.total →
      U e.id + (e.terms.map (fun t => coefV F m p t * U t.id)).sum = 0) →
    (∀ e ∈ allEqs eqs, e.config.total < n → U e.id = 0) → ∀ e ∈ allEqs eqs, U e.id = 0

theorem Ready.flip_residual (h : Ready m eqs) (c : Term R → K) (U : PyStr → K) {e : Equation R}
    (he : e ∈ allEqs eqs) {n : Nat} (hn : e.config.total = n) :
    flip eqs U e.id + (e.terms.map (fun t => -c t * flip eqs U t.id)).sum =
      (-1) ^ n * (U e.id + (e.terms.map (fun t => c t * U t.id)).sum) := by
  have hs : (e.terms.map (fun t => -c t * flip eqs U t.id)).sum =
      (-1) ^ n * (e.terms.map (fun t => c t * U t.id)).sum := by
    rw [list_sum_mul_left]
    congr 1
    apply List.map_congr_left
    intro t ht
    obtain ⟨e', he', h1, h2⟩ := h.closed e he t ht
    have h3 := h.step e he t ht
    obtain ⟨n', -, hn2⟩ := h.total_le he'
    have hl : levelOf eqs t.id = n' := by rw [← h1, h.level he', hn2]; simp
    have hp : ((-1 : K)) ^ n' = - (-1) ^ n := by
      rcases h3 with h3 | h3
      · have : n' = n + 1 := by omega
        rw [this, pow_succ]; ring
      · have : n = n' + 1 := by omega
        rw [this, pow_succ]; ring
    unfold flip
    rw [hl, hp]; ring
  have hl : levelOf eqs e.id = n := by rw [h.level he, hn]; simp
  rw [hs, mul_add]
  unfold flip
  rw [hl]

theorem Ready.vanish (h : Ready m eqs) (F : Phys R K) (p : Point R) (hd : Definite F m p eqs) (n : Nat)
    (Y : ∀ n, Fin (GGCE.blockDim (GGCE.localBasis eqs) n) → K) (h0 : ∀ k < n, Y k = 0)
    (heq : ∀ k, n ≤ k → k ≤ m.number.sum.toNat → ∀ i, Y k i = below (alphaM F m p eqs) Y k i +
      (if k < m.number.sum.toNat then (betaM F m p eqs k).mulVec (Y (k + 1)) i else 0)) :
    ∀ k ≤ m.number.sum.toNat, Y k = 0 := by
  have hu : ∀ k ≤ m.number.sum.toNat, unknowns eqs (assemble eqs Y) k = Y k :=
    fun k hk => h.unknowns_assemble Y hk
  have hbelow : ∀ k ≤ m.number.sum.toNat, ∀ i, below (alphaM F m p eqs) (unknowns eqs (assemble eqs Y)) k i =
      below (alphaM F m p eqs) Y k i := by
    intro k hk i
    match k, i with
    | 0, _ => rfl
    | k + 1, i => show (_ : Matrix _ _ K).mulVec _ i = _; rw [hu k (by omega)]; rfl
  let bias : Equation R → K := fun e => assemble eqs Y e.id +
    (e.terms.map (fun t => -coefV F m p t * assemble eqs Y t.id)).sum
  have hres : SolvesAll (fun t => -coefV F m p t) bias (allEqs eqs) (assemble eqs Y) := fun e _ => rfl
  rw [h.blocks_iff F p] at hres
  have hb : ∀ e ∈ allEqs eqs, (n : Int) ≤ e.config.total → bias e = 0 := by
    intro e he hle
    obtain ⟨k, hk, hk'⟩ := h.total_le he
    obtain ⟨i, hi⟩ := List.mem_iff_getElem?.1 ((h.mem_vals hk).2 ⟨he, hk'⟩)
    have hlt : i < GGCE.blockDim (GGCE.localBasis eqs) k := by
      rw [h.blockDim hk]; exact (List.getElem?_eq_some_iff.1 hi).1
    have h1 := hres k hk ⟨i, hlt⟩ e hi
    rw [hu k hk, hbelow k hk, heq k (by omega) hk] at h1
    have h2 : (if k < m.number.sum.toNat then
        (betaM F m p eqs k).mulVec (unknowns eqs (assemble eqs Y) (k + 1)) ⟨i, hlt⟩ else 0) =
        (if k < m.number.sum.toNat then (betaM F m p eqs k).mulVec (Y (k + 1)) ⟨i, hlt⟩ else 0) := by
      split
      · rw [hu (k + 1) (by omega)]
      · rfl
    rw [h2] at h1
    linear_combination -h1
  have hone : ∀ k : Nat, ((-1 : K)) ^ k ≠ 0 := fun k => pow_ne_zero _ (by simp)
  have hzero := hd n (flip eqs (assemble eqs Y)) (by
    intro e he hle
    obtain ⟨k, hk, hk'⟩ := h.total_le he
    have h1 := h.flip_residual (coefV F m p) (flip eqs (assemble eqs Y)) he hk'
    rw [flip_flip] at h1
    have h2 : bias e = (-1) ^ k * _ := h1
    rw [hb e he hle] at h2
    exact (mul_eq_zero.1 h2.symm).resolve_left (hone k)) (by
    intro e he hlt
    obtain ⟨k, hk, hk'⟩ := h.total_le he
    obtain ⟨i, hi⟩ := List.mem_iff_getElem?.1 ((h.mem_vals hk).2 ⟨he, hk'⟩)
    have hlt' : i < GGCE.blockDim (GGCE.localBasis eqs) k := by
      rw [h.blockDim hk]; exact (List.getElem?_eq_some_iff.1 hi).1
    have h1 := congrFun (hu k hk) ⟨i, hlt'⟩
    rw [h0 k (by omega)] at h1
    unfold unknowns at h1
    rw [hi] at h1
    simp only [Option.map_some, Option.getD_some] at h1
    unfold flip
    rw [h1]; simp)
  intro k hk
  funext i
  have hi : i.val < (eqs.vals k).length := by rw [← h.blockDim hk]; exact i.isLt
  have hg := List.getElem?_eq_getElem hi
  have he := (h.mem_vals hk).1 (List.getElem_mem hi)
  have h1 := congrFun (hu k hk) i
  unfold unknowns at h1
  rw [hg] at h1
  simp only [Option.map_some, Option.getD_some] at h1
  rw [← h1]
  have h2 := hzero _ he.1
  unfold flip at h2
  exact (mul_eq_zero.1 h2).resolve_left (hone _)

theorem Ready.fraction_ok (h : Ready m eqs) (F : Phys R K) (p : Point R) (hd : Definite F m p eqs)
    (s n : Nat) (hs : n + s + 1 = m.number.sum.toNat) :
    ∃ Q, fraction (alphaM F m p eqs) (betaM F m p eqs) s n = .ok Q := by
  induction s generalizing n with
  | zero => exact ⟨_, rfl⟩
  | succ s ih =>
    obtain ⟨R', hR⟩ := ih (n + 1) (by omega)
    rw [fraction, hR]
    simp only [bind, Except.bind]
    split
    · rename_i hdet
      exfalso
      obtain ⟨v, hv0, hv⟩ := Matrix.exists_mulVec_eq_zero_iff.2 hdet
      obtain ⟨Y, k1, k2, k3⟩ := fraction_exists hR v
      let Z : ∀ n, Fin (GGCE.blockDim (GGCE.localBasis eqs) n) → K := fun k => if n < k then Y k else 0
      have hZ : ∀ k, n < k → Z k = Y k := fun k hk => if_pos hk
      have hZ0 : ∀ k, k ≤ n → Z k = 0 := fun k hk => if_neg (by omega)
      have := h.vanish F p hd (n + 1) Z (fun k hk => hZ0 k (by omega)) (by
        intro k hk hk' i
        obtain ⟨j, rfl⟩ : ∃ j, k = j + 1 := ⟨k - 1, by omega⟩
        show Z (j + 1) i = (alphaM F m p eqs j).mulVec (Z j) i + _
        rcases Nat.eq_or_lt_of_le hk with e | hk
        · obtain rfl : n = j := by omega
          rw [hZ0 n le_rfl, hZ _ (by omega), if_pos (by omega), hZ _ (by omega), Matrix.mulVec_zero, k2,
            show Y (n + 1 + 1) = _ from k3]
          rw [Matrix.sub_mulVec, Matrix.one_mulVec, sub_eq_zero, ← Matrix.mulVec_mulVec] at hv
          have := congrFun hv i
          rw [this]; simp
        · rw [hZ _ (by omega), hZ j (by omega)]
          by_cases hlt : j + 1 < m.number.sum.toNat
          · rw [if_pos hlt, hZ _ (by omega)]
            exact congrFun (k1.1 j (by omega) (by omega)) i
          · rw [if_neg hlt, add_zero]
            have hj : j = n + 1 + s := by omega
            subst hj
            exact congrFun k1.2 i)
      apply hv0
      rw [← k2, ← hZ _ (by omega)]
      exact this (n + 1) (by omega)
    · exact ⟨_, rfl⟩

theorem Ready.dense_ok (h : Ready m eqs) (F : Phys R K) (p : Point R) (hd : Definite F m p eqs)
    (hN : 1 ≤ m.number.sum.toNat) :
    ∃ G, denseSolve F m p (GGCE.localBasis eqs) eqs = .ok (some G) := by
  obtain ⟨R1, hR⟩ := h.fraction_ok F p hd (m.number.sum.toNat - 1) 0 (by omega)
  rw [h.denseSolve_eq F p hN, hR]
  simp only [bind, Except.bind]
  split
  · rename_i h1
    exfalso
    obtain ⟨Y, k1, k2, k3⟩ := fraction_exists hR (fun _ => 1)
    have := h.vanish F p hd 0 Y (fun k hk => by omega) (by
      intro k _ hk i
      match k, i with
      | 0, i =>
        rw [h.eq_i0 i, if_pos (by omega), show Y (0 + 1) = _ from k3, k2, Matrix.mulVec_mulVec, h.mulVec_i0]
        show (1 : K) = 0 + _ * 1
        linear_combination h1
      | k + 1, i =>
        show Y (k + 1) i = (alphaM F m p eqs k).mulVec (Y k) i + _
        by_cases hlt : k + 1 < m.number.sum.toNat
        · rw [if_pos hlt]
          exact congrFun (k1.1 k (by omega) (by omega)) i
        · rw [if_neg hlt, add_zero]
          have hj : k = 0 + (m.number.sum.toNat - 1) := by omega
          subst hj
          exact congrFun k1.2 i)
    have h2 := congrFun (this 0 (by omega)) h.i0
    rw [k2] at h2
    exact one_ne_zero h2
  · exact ⟨_, rfl⟩

end GGCE
