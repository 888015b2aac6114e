import Verif.Spec.Chain
import Verif.Proofs.Basic
import Mathlib.Algebra.Order.BigOperators.Group.List
import Mathlib.Algebra.BigOperators.Group.List.Basic
import Mathlib.Tactic.Linarith

/-! Helper lemmas about one-dimensional configurations. -/

namespace GGCE

open Spec

namespace Arr

theorem get_eq_chain (a : Arr) (t x : Nat) : chain a t (x : Int) = a.get t x := by
  unfold chain get
  simp only [Int.natCast_nonneg, if_true, Int.toNat_natCast, List.getD_eq_getElem?_getD]
  cases a.rows[t]? with
  | none => simp
  | some r => simp; cases r[x]? <;> rfl

theorem chain_of_neg (a : Arr) (t : Nat) {x : Int} (h : x < 0) : chain a t x = 0 := by
  unfold chain; rw [if_neg (by omega)]

theorem chain_eq (a : Arr) (t : Nat) (x : Int) :
    chain a t x = if 0 ≤ x then a.get t x.toNat else 0 := by
  by_cases h : 0 ≤ x
  · obtain ⟨n, rfl⟩ := Int.eq_ofNat_of_zero_le h
    simp [get_eq_chain]
  · rw [chain_of_neg _ _ (by omega), if_neg h]

theorem get_row (a : Arr) (t x : Nat) (h : t < a.nTypes) :
    a.get t x = (a.rows[t]'h).getD x 0 := by
  unfold get
  simp [List.getD_eq_getElem?_getD, List.getElem?_eq_getElem h]

theorem get_type_oob {a : Arr} {t : Nat} (h : a.nTypes ≤ t) (x : Nat) : a.get t x = 0 := by
  unfold get
  simp [List.getD_eq_getElem?_getD, List.getElem?_eq_none h]

theorem WF.get_oob {a : Arr} (h : a.WF) (t : Nat) {x : Nat} (hx : a.len ≤ x) : a.get t x = 0 := by
  by_cases ht : t < a.nTypes
  · rw [get_row _ _ _ ht, List.getD_eq_getElem?_getD, List.getElem?_eq_none]
    · rfl
    · rw [h _ (List.getElem_mem ht)]; exact hx
  · exact get_type_oob (by omega) x

theorem ext_get {a b : Arr} (ha : a.WF) (hb : b.WF) (hn : a.nTypes = b.nTypes)
    (hl : a.len = b.len) (h : ∀ t x, a.get t x = b.get t x) : a = b := by
  obtain ⟨ra, la⟩ := a
  obtain ⟨rb, lb⟩ := b
  simp only at hl
  subst hl
  congr 1
  apply List.ext_getElem hn
  intro t h1 h2
  apply List.ext_getElem
  · rw [ha _ (List.getElem_mem h1), hb _ (List.getElem_mem h2)]
  · intro x h3 h4
    have := h t x
    rw [get_row _ _ _ h1, get_row _ _ _ h2] at this
    simpa [List.getD_eq_getElem?_getD, List.getElem?_eq_getElem h3,
      List.getElem?_eq_getElem h4] using this

/-! #### bump -/

theorem nTypes_bump (a : Arr) (t x : Nat) (d : Int) : (a.bump t x d).nTypes = a.nTypes := by
  simp [bump, nTypes]

theorem len_bump (a : Arr) (t x : Nat) (d : Int) : (a.bump t x d).len = a.len := rfl

theorem WF.bump {a : Arr} (h : a.WF) (t x : Nat) (d : Int) : (a.bump t x d).WF := by
  intro r hr
  obtain ⟨i, hi, rfl⟩ := List.getElem_of_mem hr
  simp only [Arr.bump, List.length_modify] at hi
  have := h _ (List.getElem_mem hi)
  simp only [Arr.bump, List.getElem_modify]
  split <;> simp [this]

theorem get_bump {a : Arr} (h : a.WF) {t x : Nat} (ht : t < a.nTypes) (hx : x < a.len) (d : Int)
    (t' x' : Nat) :
    (a.bump t x d).get t' x' = a.get t' x' + (if t' = t ∧ x' = x then d else 0) := by
  have hr : a.rows[t]? = some (a.rows[t]'ht) := List.getElem?_eq_getElem ht
  have hl := h _ (List.getElem_mem ht)
  generalize a.rows[t]'ht = r at hr hl
  unfold get
  simp only [Arr.bump, List.getD_eq_getElem?_getD, List.getElem?_modify]
  by_cases e : t = t'
  · subst e
    have hx2 : r[x]? = some (r[x]'(by omega)) := List.getElem?_eq_getElem (by omega)
    simp only [hr, if_true, true_and, Option.map_eq_map, Option.map_some, Option.getD_some,
      List.getElem?_modify]
    by_cases e : x = x'
    · subst e; simp [hx2]
    · have : ¬ x' = x := fun q => e q.symm
      simp [e, this]
  · have : ¬ t' = t := fun q => e q.symm
    simp [e, this]

/-! #### row maps -/

theorem get_mapRows (a : Arr) (f : List Int → List Int) (n : Nat)
    (t x : Nat) (hf : (f []).getD x 0 = 0) :
    (Arr.mk (a.rows.map f) n).get t x = (f (a.rows.getD t [])).getD x 0 := by
  unfold get
  simp only [List.getD_eq_getElem?_getD, List.getElem?_map]
  cases a.rows[t]? with
  | none => simpa [List.getD_eq_getElem?_getD, eq_comm] using hf
  | some r => simp

/-! #### sums -/

theorem colSum_nonneg_iff {a : Arr} (hn : ∀ t x, 0 ≤ a.get t x) (x : Nat) :
    0 ≤ a.colSum x ∧ (a.colSum x = 0 ↔ ∀ t, a.get t x = 0) := by
  unfold colSum get at *
  induction h : a.rows generalizing a with
  | nil => simp
  | cons r rs ih =>
    have h0 := hn 0 x
    rw [h] at h0
    simp only [List.getD_cons_zero] at h0
    have hn' : ∀ t x, 0 ≤ ((Arr.mk rs a.len).rows.getD t []).getD x 0 := by
      intro t x; have := hn (t + 1) x; rw [h] at this; simpa using this
    obtain ⟨i1, i2⟩ := ih (a := Arr.mk rs a.len) hn' rfl
    simp only [List.map_cons, List.sum_cons]
    refine ⟨by omega, ?_⟩
    constructor
    · intro hs t
      cases t with
      | zero => simp only [List.getD_cons_zero]; omega
      | succ t => simp only [List.getD_cons_succ]; exact i2.1 (by omega) t
    · intro hall
      have z0 := hall 0
      have := i2.2 (fun t => by simpa using hall (t + 1))
      simp only [List.getD_cons_zero] at z0
      omega

theorem rowSum_nonneg_iff {r : List Int} (hn : ∀ x, 0 ≤ r.getD x 0) :
    0 ≤ r.sum ∧ (r.sum = 0 ↔ ∀ x, r.getD x 0 = 0) := by
  induction r with
  | nil => simp
  | cons v r ih =>
    have h0 := hn 0
    simp only [List.getD_cons_zero] at h0
    obtain ⟨i1, i2⟩ := ih (fun x => by simpa using hn (x + 1))
    simp only [List.sum_cons]
    refine ⟨by omega, ?_⟩
    constructor
    · intro hs x
      cases x with
      | zero => simp only [List.getD_cons_zero]; omega
      | succ x => simp only [List.getD_cons_succ]; exact i2.1 (by omega) x
    · intro hall
      have z0 := hall 0
      have := i2.2 (fun x => by simpa using hall (x + 1))
      simp only [List.getD_cons_zero] at z0
      omega

theorem total_nonneg_iff {a : Arr} (hn : ∀ t x, 0 ≤ a.get t x) :
    0 ≤ a.total ∧ (a.total = 0 ↔ ∀ t x, a.get t x = 0) := by
  unfold total get at *
  induction h : a.rows generalizing a with
  | nil => simp
  | cons r rs ih =>
    have h0 : ∀ x, 0 ≤ r.getD x 0 := by
      intro x; have := hn 0 x; rw [h] at this; simpa using this
    have hn' : ∀ t x, 0 ≤ ((Arr.mk rs a.len).rows.getD t []).getD x 0 := by
      intro t x; have := hn (t + 1) x; rw [h] at this; simpa using this
    obtain ⟨i1, i2⟩ := ih (a := Arr.mk rs a.len) hn' rfl
    obtain ⟨j1, j2⟩ := rowSum_nonneg_iff h0
    simp only [List.map_cons, List.sum_cons]
    refine ⟨by omega, ?_⟩
    constructor
    · intro hs t
      cases t with
      | zero => simp only [List.getD_cons_zero]; exact j2.1 (by omega)
      | succ t => simp only [List.getD_cons_succ]; exact i2.1 (by omega) t
    · intro hall
      have z0 := j2.2 (fun x => by simpa using hall 0 x)
      have := i2.2 (fun t x => by simpa using hall (t + 1) x)
      omega

theorem valuesLegal_iff (a : Arr) :
    a.valuesLegal = true ↔ ∀ r ∈ a.rows, ∀ v ∈ r, 0 ≤ v := by
  simp [valuesLegal]

theorem nonneg_iff_get (a : Arr) :
    (∀ r ∈ a.rows, ∀ v ∈ r, 0 ≤ v) ↔ ∀ t x, 0 ≤ a.get t x := by
  constructor
  · intro h t x
    by_cases ht : t < a.nTypes
    · rw [get_row _ _ _ ht, List.getD_eq_getElem?_getD]
      by_cases hx : x < (a.rows[t]'ht).length
      · rw [List.getElem?_eq_getElem hx]
        exact h _ (List.getElem_mem ht) _ (List.getElem_mem hx)
      · rw [List.getElem?_eq_none (by omega)]; simp
    · rw [get_type_oob (by omega)]
  · intro h r hr v hv
    obtain ⟨t, ht, rfl⟩ := List.getElem_of_mem hr
    obtain ⟨x, hx, rfl⟩ := List.getElem_of_mem hv
    have := h t x
    rw [get_row _ _ _ ht, List.getD_eq_getElem?_getD, List.getElem?_eq_getElem hx] at this
    simpa using this

end Arr
end GGCE
