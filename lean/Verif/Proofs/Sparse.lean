import Verif.Model.Solver
import Verif.Proofs.Basis
import Mathlib.Algebra.BigOperators.Group.List.Basic
import Mathlib.Algebra.BigOperators.Ring.Finset

/-! The sparse matrix: what the loops over equations and terms assemble. -/

set_option linter.unusedSectionVars false

namespace GGCE
open Spec Arr Dict

variable {R K : Type} [Field R] [LinearOrder R] [Field K]

/-- value of a dictionary, 0 where absent -/
def Dict.val (d : Dict Nat K) (j : Nat) : K := (d.get? j).getD 0

theorem set_keys {κ ν : Type} [DecidableEq κ] (d : Dict κ ν) (k : κ) (v : ν) :
    (d.set k v).map Prod.fst = if k ∈ d.map Prod.fst then d.map Prod.fst else d.map Prod.fst ++ [k] := by
  induction d with
  | nil => simp [Dict.set]
  | cons p d ih =>
    obtain ⟨k', v'⟩ := p
    simp only [Dict.set]
    by_cases h : k' = k
    · subst h; simp
    · rw [if_neg h]
      simp only [List.map_cons, ih, List.mem_cons]
      have h' : ¬ k = k' := fun e => h e.symm
      simp only [h', false_or]
      split <;> simp

theorem set_nodup {κ ν : Type} [DecidableEq κ] {d : Dict κ ν} {k : κ} {v : ν}
    (h : (d.map Prod.fst).Nodup) : ((d.set k v).map Prod.fst).Nodup := by
  rw [set_keys]
  split
  · exact h
  · rename_i hk
    rw [List.nodup_append]
    refine ⟨h, by simp, ?_⟩
    intro a ha b hb
    simp only [List.mem_singleton] at hb
    subst hb
    rintro rfl
    exact hk ha

theorem addTo_eq (d : Dict Nat K) (j : Nat) (v : K) : addTo d j v = d.set j (d.val j + v) := by
  unfold addTo Dict.val
  cases h : d.get? j <;> simp

theorem val_addTo (d : Dict Nat K) (j j' : Nat) (v : K) :
    (addTo d j v).val j' = d.val j' + if j = j' then v else 0 := by
  rw [addTo_eq, Dict.val, get?_set]
  by_cases h : j = j'
  · subst h; simp
  · have h' : ¬ j' = j := fun e => h e.symm
    simp [h, h', Dict.val]

/-- The loop over the terms, when every identifier has index `ix` and every coefficient is `v`. -/
theorem rowLoop_ok {basis : Dict PyStr Nat} {ix : PyStr → Nat} (l : List (PyStr × Py K))
    (v : PyStr × Py K → K) (h : ∀ q ∈ l, basis.get? q.1 = some (ix q.1) ∧ q.2 = .ok (v q))
    (d : Dict Nat K) (hd : (d.map Prod.fst).Nodup) :
    ∃ d', rowLoop basis l d = .ok d' ∧ (d'.map Prod.fst).Nodup ∧
      (∀ j, d'.val j = d.val j + (l.map (fun q => if ix q.1 = j then v q else 0)).sum) ∧
      (∀ j, j ∈ d'.map Prod.fst ↔ j ∈ d.map Prod.fst ∨ ∃ q ∈ l, ix q.1 = j) := by
  induction l generalizing d with
  | nil => exact ⟨d, rfl, hd, by simp, by simp⟩
  | cons q l ih =>
    obtain ⟨id, c⟩ := q
    obtain ⟨h1, h2⟩ := h _ (List.mem_cons_self)
    simp only at h1 h2
    obtain ⟨d', e1, e2, e3, e4⟩ := ih (fun q hq => h q (List.mem_cons_of_mem _ hq))
      (addTo d (ix id) (v (id, c))) (by rw [addTo_eq]; exact set_nodup hd)
    refine ⟨d', ?_, e2, ?_, ?_⟩
    · simp only [rowLoop, h1]
      generalize v (id, c) = w at h2 e1
      rw [h2]
      exact e1
    · intro j
      rw [e3, val_addTo]
      simp only [List.map_cons, List.sum_cons]
      rw [add_assoc]
    · intro j
      rw [e4, addTo_eq, set_keys]
      simp only [List.mem_cons, exists_eq_or_imp]
      split
      · rename_i hk
        constructor
        · rintro (h | h)
          · exact Or.inl h
          · exact Or.inr (Or.inr h)
        · rintro (h | rfl | h)
          · exact Or.inl h
          · exact Or.inl hk
          · exact Or.inr h
      · rw [List.mem_append, List.mem_singleton, or_assoc]
        constructor
        · rintro (h | h | h)
          · exact Or.inl h
          · exact Or.inr (Or.inl h.symm)
          · exact Or.inr (Or.inr h)
        · rintro (h | h | h)
          · exact Or.inl h
          · exact Or.inr (Or.inl h.symm)
          · exact Or.inr (Or.inr h)

/-! #### coordinate lists -/

theorem cooEntry_append (s t : List (Nat × Nat × K)) (i j : Nat) :
    cooEntry (s ++ t) i j = cooEntry s i j + cooEntry t i j := by
  simp [cooEntry]

theorem cooEntry_flatten (l : List (List (Nat × Nat × K))) (i j : Nat) :
    cooEntry l.flatten i j = (l.map (fun s => cooEntry s i j)).sum := by
  induction l with
  | nil => rfl
  | cons s l ih => rw [List.flatten_cons, cooEntry_append, ih]; rfl

theorem cooEntry_cons (q : Nat × Nat × K) (t : List (Nat × Nat × K)) (i j : Nat) :
    cooEntry (q :: t) i j = (if q.1 = i ∧ q.2.1 = j then q.2.2 else 0) + cooEntry t i j := by
  unfold cooEntry
  rw [List.filter_cons]
  split <;> simp_all

theorem cooEntry_eq_sum (t : List (Nat × Nat × K)) (i j : Nat) :
    cooEntry t i j = (t.map (fun q => if q.1 = i ∧ q.2.1 = j then q.2.2 else 0)).sum := by
  induction t with
  | nil => rfl
  | cons q t ih => rw [cooEntry_cons, ih]; rfl

theorem cooEntry_row {d : Dict Nat K} (hd : (d.map Prod.fst).Nodup) (r i j : Nat) :
    cooEntry (d.map (fun kv => (r, kv.1, kv.2))) i j = if r = i then d.val j else 0 := by
  induction d with
  | nil => simp [cooEntry, Dict.val, Dict.get?]
  | cons p d ih =>
    obtain ⟨k, v⟩ := p
    simp only [List.map_cons, List.nodup_cons] at hd
    rw [List.map_cons, cooEntry_cons, ih hd.2]
    simp only [Dict.val, Dict.get?]
    by_cases hr : r = i
    · by_cases hk : k = j
      · subst hk
        have : Dict.get? d k = none := (get?_eq_none_iff d k).2 hd.1
        simp [hr, this]
      · simp [hr, hk]
    · simp [hr]

end GGCE
