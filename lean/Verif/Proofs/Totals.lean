import Verif.Spec.Rhs
import Verif.Proofs.History
import Mathlib.Algebra.BigOperators.Group.Finset.Basic
import Mathlib.Algebra.BigOperators.Intervals
import Mathlib.Order.Interval.Finset.Nat
import Mathlib.Data.Int.Interval

/-! Phonon totals as sums over the infinite chain. -/

namespace GGCE
open Spec Arr

theorem sum_getD_range (l : List Int) (n : Nat) (h : l.length ≤ n) :
    l.sum = ∑ x ∈ Finset.range n, l.getD x 0 := by
  induction l generalizing n with
  | nil => simp
  | cons v l ih =>
    cases n with
    | zero => simp at h
    | succ n =>
      rw [Finset.sum_range_succ', List.sum_cons, ih n (by simpa using h)]
      simp [add_comm]

theorem sum_Ico_zero (n : Nat) (f : Int → Int) :
    ∑ y ∈ Finset.Ico (0 : Int) n, f y = ∑ x ∈ Finset.range n, f x := by
  induction n with
  | zero => simp
  | succ n ih =>
    rw [Finset.sum_range_succ, ← ih]
    have : Finset.Ico (0 : Int) ((n + 1 : Nat) : Int) = insert (n : Int) (Finset.Ico (0 : Int) n) := by
      ext y; simp only [Finset.mem_Ico, Finset.mem_insert]; omega
    rw [this, Finset.sum_insert (by simp)]
    exact add_comm _ _

theorem typeTotal_eq_sum {a : Arr} (h : a.WF) (t : Nat) {lo hi : Int} (hlo : lo ≤ 0)
    (hhi : (a.len : Int) ≤ hi) :
    typeTotal a t = ∑ y ∈ Finset.Ico lo hi, chain a t y := by
  have h1 : typeTotal a t = ∑ x ∈ Finset.range a.len, a.get t x := by
    unfold typeTotal Arr.get
    apply sum_getD_range
    by_cases ht : t < a.rows.length
    · rw [List.getD_eq_getElem?_getD, List.getElem?_eq_getElem ht]
      exact (h _ (List.getElem_mem ht)).le
    · rw [List.getD_eq_getElem?_getD, List.getElem?_eq_none (by omega)]; simp
  rw [h1, ← Finset.sum_congr rfl (fun x _ => get_eq_chain a t x),
    ← sum_Ico_zero a.len (fun y => chain a t y)]
  apply Finset.sum_subset
  · intro y hy; simp only [Finset.mem_Ico] at *; omega
  · intro y hy hy'
    simp only [Finset.mem_Ico, not_and, not_lt] at *
    rw [chain_eq]
    split
    · exact WF.get_oob h _ (by omega)
    · rfl

theorem typeTotal_acted {a b : Arr} {d : Dag} {t : Nat} {γ o : Int} (ha : a.WF) (hb : b.WF)
    (h : Acted a d t γ b o) (t' : Nat) :
    typeTotal b t' = typeTotal a t' + if t' = t then Dag.delta d else 0 := by
  obtain ⟨-, h2⟩ := h
  let lo : Int := min (min 0 o) γ
  let hi : Int := max (max (a.len : Int) (b.len + o)) (γ + 1)
  have hb1 := typeTotal_eq_sum hb t' (lo := lo - o) (hi := hi - o) (by omega) (by omega)
  have ha1 := typeTotal_eq_sum ha t' (lo := lo) (hi := hi) (by omega) (by omega)
  rw [hb1, ha1]
  have h3 : ∑ y ∈ Finset.Ico (lo - o) (hi - o), chain b t' y =
      ∑ y ∈ Finset.Ico lo hi, chain b t' (y - o) := by
    apply Finset.sum_bij' (fun y _ => y + o) (fun y _ => y - o)
    · intro y hy; simp only [Finset.mem_Ico] at *; omega
    · intro y hy; simp only [Finset.mem_Ico] at *; omega
    · intro y _; simp
    · intro y _; simp
    · intro y _; simp
  rw [h3, Finset.sum_congr rfl (fun y _ => h2 t' y), Finset.sum_add_distrib]
  congr 1
  by_cases ht : t' = t
  · simp only [ht, true_and, if_true]
    rw [Finset.sum_ite_eq' (Finset.Ico lo hi) γ (fun _ => Dag.delta d), if_pos]
    simp only [Finset.mem_Ico]; omega
  · simp [ht]

theorem phonons_eq_sum (a : Arr) : phonons a = ∑ t ∈ Finset.range a.rows.length, typeTotal a t := by
  unfold phonons typeTotal
  rw [sum_getD_range _ a.rows.length (by simp)]
  apply Finset.sum_congr rfl
  intro t ht
  have := Finset.mem_range.1 ht
  simp [this]

theorem phonons_acted {a b : Arr} {d : Dag} {t : Nat} {γ o : Int} (ha : a.WF) (hb : b.WF)
    (h : Acted a d t γ b o) (ht : t < a.rows.length) :
    phonons b = phonons a + Dag.delta d := by
  rw [phonons_eq_sum, phonons_eq_sum, h.1,
    Finset.sum_congr rfl (fun t' _ => typeTotal_acted ha hb h t'), Finset.sum_add_distrib]
  congr 1
  rw [Finset.sum_ite_eq' (Finset.range a.rows.length) t (fun _ => Dag.delta d), if_pos]
  simpa using ht

end GGCE
