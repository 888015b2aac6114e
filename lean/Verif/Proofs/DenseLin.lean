import Verif.Proofs.Dense
import Mathlib.Tactic.Ring
import Mathlib.Tactic.LinearCombination

/-! The continued fraction solves the same equations as the sparse matrix. -/

set_option linter.unusedSectionVars false

namespace GGCE
open Spec Arr Dict

variable {R K : Type} [Field R] [LinearOrder R] [Field K]
variable {m : Model R} {eqs : Dict Nat (List (Equation R))}

/-- phonon number of an unknown -/
def levelOf (eqs : Dict Nat (List (Equation R))) (id : PyStr) : Nat :=
  match (allEqs eqs).find? (fun e => e.id = id) with
  | some e => e.config.total.toNat
  | none => 0

theorem Ready.level (h : Ready m eqs) {e : Equation R} (he : e ∈ allEqs eqs) :
    levelOf eqs e.id = e.config.total.toNat := by
  unfold levelOf
  cases hf : (allEqs eqs).find? (fun e' => e'.id = e.id) with
  | none =>
    rw [List.find?_eq_none] at hf
    exact absurd (decide_eq_true rfl) (hf e he)
  | some e' =>
    have h1 := List.find?_some hf
    have h2 := List.mem_of_find?_eq_some hf
    rw [h.id_inj h2 he (by simpa using h1)]

/-- sign flip on the unknowns with an odd number of phonons -/
def flip (eqs : Dict Nat (List (Equation R))) (U : PyStr → K) (id : PyStr) : K :=
  (-1) ^ levelOf eqs id * U id

theorem flip_flip (eqs : Dict Nat (List (Equation R))) (U : PyStr → K) : flip eqs (flip eqs U) = U := by
  funext id
  unfold flip
  rw [← mul_assoc, ← pow_add, ← two_mul, pow_mul]; simp

/-- The sign flip turns `1 + A` into `1 - A`, because terms change the phonon number by one. -/
theorem Ready.flip_solves (h : Ready m eqs) {c : Term R → K} {bias : Equation R → K}
    (hb : ∀ e ∈ allEqs eqs, e.config.total ≠ 0 → bias e = 0) (U : PyStr → K) :
    SolvesAll c bias (allEqs eqs) U ↔ SolvesAll (fun t => -c t) bias (allEqs eqs) (flip eqs U) := by
  refine forall₂_congr fun e he => ?_
  obtain ⟨n, hn, hn'⟩ := h.total_le he
  have hs : (e.terms.map (fun t => -c t * flip eqs U t.id)).sum =
      (-1) ^ n * (e.terms.map (fun t => c t * U t.id)).sum := by
    rw [list_sum_mul_left]
    congr 1
    apply List.map_congr_left
    intro t ht
    obtain ⟨e', he', h1, h2⟩ := h.closed e he t ht
    have h3 := h.step e he t ht
    obtain ⟨n', -, hn2⟩ := h.total_le he'
    have hl : levelOf eqs t.id = n' := by rw [← h1, h.level he', hn2]; simp
    have hp : ((-1 : K)) ^ n' = - (-1) ^ n := by
      rcases h3 with h3 | h3
      · have : n' = n + 1 := by omega
        rw [this, pow_succ]; ring
      · have : n = n' + 1 := by omega
        rw [this, pow_succ]; ring
    unfold flip
    rw [hl, hp]; ring
  have hl : levelOf eqs e.id = n := by rw [h.level he, hn']; simp
  rw [hs]
  unfold flip
  rw [hl]
  have hsq : ((-1 : K) ^ n) * (-1) ^ n = 1 := by rw [← pow_add, ← two_mul, pow_mul]; simp
  have hbias : (-1) ^ n * bias e = bias e := by
    rcases Nat.eq_zero_or_pos n with h0 | h0
    · subst h0; simp
    · rw [hb e he (by omega)]; simp
  constructor
  · intro hU
    rw [← mul_add, hU, hbias]
  · intro hU
    rw [← mul_add] at hU
    have := congrArg (fun x => (-1) ^ n * x) hU
    simp only [hbias] at this
    rw [← mul_assoc, hsq, one_mul] at this
    exact this

/-- the contributions, empty on failure -/
def fillV (F : Phys R K) (m : Model R) (p : Point R) (eqs : Dict Nat (List (Equation R))) (n n' : Nat) :
    List (Nat × Nat × K) :=
  match fillMatrix F m p (localBasis eqs) eqs n n' with
  | .ok ts => ts
  | .error _ => []

theorem Ready.fill_eq (h : Ready m eqs) (F : Phys R K) (p : Point R) {n n' : Nat}
    (hn : n ≤ m.number.sum.toNat) (hn' : n' ≤ m.number.sum.toNat) :
    fillMatrix F m p (GGCE.localBasis eqs) eqs n n' = .ok (fillV F m p eqs n n') := by
  obtain ⟨ts, h1, -⟩ := h.fill F p hn hn'
  unfold fillV
  rw [h1]

theorem Ready.fillV_entry (h : Ready m eqs) (F : Phys R K) (p : Point R) {n n' : Nat}
    (hn : n ≤ m.number.sum.toNat) (hn' : n' ≤ m.number.sum.toNat) :
    ∀ (i : Nat) (ei : Equation R), (eqs.vals n)[i]? = some ei → ∀ j,
        cooEntry (fillV F m p eqs n n') i j = (ei.terms.map (fun t => if t.config.total = (n' : Int) then
          (if lixOf eqs n' t.id = j then coefV F m p t else 0) else 0)).sum := by
  obtain ⟨ts, h1, h2⟩ := h.fill F p hn hn'
  have := h.fill_eq F p hn hn'
  rw [h1] at this
  cases this
  exact h2

/-- sub-diagonal blocks -/
def alphaM (F : Phys R K) (m : Model R) (p : Point R) (eqs : Dict Nat (List (Equation R))) (n : Nat) :
    Matrix (Fin (blockDim (localBasis eqs) (n + 1))) (Fin (blockDim (localBasis eqs) n)) K :=
  toMatrix _ _ (fillV F m p eqs (n + 1) n)

/-- super-diagonal blocks -/
def betaM (F : Phys R K) (m : Model R) (p : Point R) (eqs : Dict Nat (List (Equation R))) (n : Nat) :
    Matrix (Fin (blockDim (localBasis eqs) n)) (Fin (blockDim (localBasis eqs) (n + 1))) K :=
  toMatrix _ _ (fillV F m p eqs n (n + 1))

theorem Ready.denseR_eq (h : Ready m eqs) (F : Phys R K) (p : Point R) (s n : Nat)
    (hs : n + s + 1 ≤ m.number.sum.toNat) :
    denseR F m p (GGCE.localBasis eqs) eqs s n = fraction (alphaM F m p eqs) (betaM F m p eqs) s n := by
  induction s generalizing n with
  | zero =>
    rw [denseR, h.fill_eq F p (by omega) (by omega)]
    rfl
  | succ s ih =>
    rw [denseR, fraction, ih (n + 1) (by omega), h.fill_eq F p (by omega) (by omega),
      h.fill_eq F p (by omega) (by omega)]
    rfl

/-- what the block below contributes -/
def below {d : Nat → Nat} (A : ∀ n, Matrix (Fin (d (n + 1))) (Fin (d n)) K) (Y : ∀ n, Fin (d n) → K) :
    (n : Nat) → Fin (d n) → K
  | 0, _ => 0
  | n + 1, i => (A n).mulVec (Y n) i

/-- the equations by blocks -/
theorem Ready.blocks_iff (h : Ready m eqs) (F : Phys R K) (p : Point R) (bias : Equation R → K)
    (y : PyStr → K) :
    SolvesAll (fun t => -coefV F m p t) bias (allEqs eqs) y ↔
    ∀ n ≤ m.number.sum.toNat, ∀ (i : Fin (GGCE.blockDim (GGCE.localBasis eqs) n)) (ei : Equation R),
      (eqs.vals n)[i.val]? = some ei →
      unknowns eqs y n i = bias ei +
        below (alphaM F m p eqs) (unknowns eqs y) n i +
        (if n < m.number.sum.toNat then (betaM F m p eqs n).mulVec (unknowns eqs y (n + 1)) i else 0) := by
  have key : ∀ n ≤ m.number.sum.toNat, ∀ (i : Fin (GGCE.blockDim (GGCE.localBasis eqs) n))
      (ei : Equation R), (eqs.vals n)[i.val]? = some ei →
      (ei.terms.map (fun t => coefV F m p t * y t.id)).sum =
        below (alphaM F m p eqs) (unknowns eqs y) n i +
        (if n < m.number.sum.toNat then (betaM F m p eqs n).mulVec (unknowns eqs y (n + 1)) i else 0) := by
    intro n hn i ei hi
    have hei := (h.mem_vals hn).1 (List.mem_of_getElem? hi)
    have e1 : (if n < m.number.sum.toNat then (betaM F m p eqs n).mulVec (unknowns eqs y (n + 1)) i else 0) =
        (ei.terms.map (fun t => if t.config.total = ((n + 1 : Nat) : Int) then
          coefV F m p t * y t.id else 0)).sum := by
      split
      · rename_i hlt
        exact h.fill_apply hn (by omega) (h.fillV_entry F p hn (by omega)) y i ei hi
      · rename_i hlt
        symm
        apply List.sum_eq_zero
        intro x hx
        obtain ⟨t, ht, rfl⟩ := List.mem_map.1 hx
        rw [if_neg]
        intro hc
        obtain ⟨e', he', -, h2⟩ := h.closed ei hei.1 t ht
        obtain ⟨n', hn', hn2⟩ := h.total_le he'
        omega
    have e2 : below (alphaM F m p eqs) (unknowns eqs y) n i =
        (ei.terms.map (fun t => if t.config.total = (n : Int) - 1 then
          coefV F m p t * y t.id else 0)).sum := by
      match n, i with
      | 0, i =>
        symm
        apply List.sum_eq_zero
        intro x hx
        obtain ⟨t, ht, rfl⟩ := List.mem_map.1 hx
        rw [if_neg]
        intro hc
        obtain ⟨e', he', -, h2⟩ := h.closed ei hei.1 t ht
        obtain ⟨n', hn', hn2⟩ := h.total_le he'
        omega
      | n + 1, i =>
        have := h.fill_apply hn (by omega) (h.fillV_entry F p hn (Nat.le_of_succ_le hn)) y i ei hi
        rw [below, show alphaM F m p eqs n = toMatrix _ _ (fillV F m p eqs (n + 1) n) from rfl, this]
        congr 1
        apply List.map_congr_left
        intro t _
        simp
    rw [e1, e2]
    rw [← List.sum_map_add]
    congr 1
    apply List.map_congr_left
    intro t ht
    have h3 := h.step ei hei.1 t ht
    rw [hei.2] at h3
    rcases h3 with h3 | h3
    · rw [if_neg (by omega), if_pos (by push_cast; omega)]; simp
    · rw [if_pos (by omega), if_neg (by push_cast; omega)]; simp
  have hneg : ∀ e : Equation R, (e.terms.map (fun t => -coefV F m p t * y t.id)).sum =
      - (e.terms.map (fun t => coefV F m p t * y t.id)).sum := by
    intro e
    induction e.terms with
    | nil => simp
    | cons t l ih => simp only [List.map_cons, List.sum_cons, ih]; ring
  constructor
  · intro hs n hn i ei hi
    have hei := (h.mem_vals hn).1 (List.mem_of_getElem? hi)
    have h1 := hs ei hei.1
    rw [hneg, key n hn i ei hi] at h1
    have h2 : unknowns eqs y n i = y ei.id := by simp [unknowns, hi]
    rw [h2]
    linear_combination h1
  · intro hb e he
    obtain ⟨n, hn, htot⟩ := h.total_le he
    have hv := (h.mem_vals hn).2 ⟨he, htot⟩
    have hg := h.get_lix hn hv
    have hlt : lixOf eqs n e.id < GGCE.blockDim (GGCE.localBasis eqs) n := by
      rw [h.blockDim hn]; exact (List.getElem?_eq_some_iff.1 hg).1
    have h1 := hb n hn ⟨_, hlt⟩ e hg
    rw [hneg, key n hn ⟨_, hlt⟩ e hg]
    have h2 : unknowns eqs y n ⟨_, hlt⟩ = y e.id := by simp [unknowns, hg]
    rw [← h2]
    linear_combination h1

end GGCE
