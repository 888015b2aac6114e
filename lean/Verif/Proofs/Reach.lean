import Verif.Spec.Powers
import Verif.Proofs.Powers
import Verif.Proofs.Untruncated
import Verif.Proofs.Blueprint

/-! Which occupations are reached from the bare electron in `j` steps. -/

set_option linter.unusedSectionVars false

namespace GGCE
open Spec Complex ComplexConjugate

variable {m m' : Model ℝ} {ae : ℤ} {k : ℝ} {c : ℤ} {n : Occ}

open Classical in
theorem iter_powers : ∀ (j : ℕ), (hops m k).iter j = powers m k j
  | 0 => rfl
  | j + 1 => by
    funext n
    show (hops m k).act (Conceivable m) ((hops m k).iter j) n = if Conceivable m n then frameAll m k (powers m k j) n else 0
    rw [iter_powers j]
    by_cases hn : Conceivable m n
    · rw [if_pos hn, hops_act_all _ hn]
    · rw [if_neg hn]; exact Hops.act_off hn _

/-- the electron and all phonons are in an interval of `j + 1` sites -/
def Narrow (j : ℕ) (n : Occ) : Prop :=
  ∃ l : ℤ, l ≤ 0 ∧ 0 ≤ l + j ∧ ∀ t x, n t x ≠ 0 → l ≤ x ∧ x ≤ l + j

theorem Narrow.succ {j : ℕ} (h : Narrow j n) : Narrow (j + 1) n := by
  obtain ⟨l, h1, h2, h3⟩ := h
  refine ⟨l, h1, by push_cast; omega, fun t x hx => ?_⟩
  have := h3 t x hx
  push_cast
  omega

theorem narrow_shift {j : ℕ} {s : ℤ} (hs : |s| ≤ 1) (h : Narrow j (n.shift s)) : Narrow (j + 1) n := by
  obtain ⟨l, h1, h2, h3⟩ := h
  have hx : ∀ t x, n t x ≠ 0 → l ≤ x + s ∧ x + s ≤ l + j := fun t x hx => h3 t (x + s) (by
    show n t (x + s - s) ≠ 0
    rwa [add_sub_cancel_right])
  have hs' := abs_le.1 hs
  rcases lt_or_ge 0 s with hs0 | hs0
  · refine ⟨l - s, by omega, by push_cast; omega, fun t x hne => ?_⟩
    have := hx t x hne
    push_cast
    omega
  · rcases eq_or_lt_of_le hs0 with hs0 | hs0
    · refine ⟨l, by omega, by push_cast; omega, fun t x hne => ?_⟩
      have := hx t x hne
      push_cast
      omega
    · refine ⟨l, by omega, by push_cast; omega, fun t x hne => ?_⟩
      have := hx t x hne
      push_cast
      omega

theorem narrow_jump {j : ℕ} {h : SingleTerm ℝ} (hA : Adjacent h) (hn : Narrow j (jump h n)) : Narrow (j + 1) n := by
  obtain ⟨l, h1, h2, h3⟩ := hn
  obtain ⟨hs, hb⟩ := hA
  set s := electronSite h 0 with hsd
  have hx : ∀ t x, n t x ≠ 0 → x ≠ bosonSite h 0 → l ≤ x - s ∧ x - s ≤ l + j := fun t x hne hxb => by
    refine h3 t (x - s) ?_
    show (n.act h.dag h.phononIndex (bosonSite h 0)) t (x - s - -(electronSite h 0)) ≠ 0
    rw [← hsd, sub_neg_eq_add, sub_add_cancel]
    show n t x + (if t = h.phononIndex ∧ x = bosonSite h 0 then Dag.delta h.dag else 0) ≠ 0
    rwa [if_neg (fun q => hxb q.2), add_zero]
  have hs' := abs_le.1 hs
  have key : ∃ l' : ℤ, l' ≤ 0 ∧ 0 ≤ l' + (j + 1) ∧ l' ≤ s ∧ s ≤ l' + (j + 1) ∧ l' ≤ l + s ∧ l + s + j ≤ l' + (j + 1) := by
    rcases lt_or_ge 0 s with hs0 | hs0
    · exact ⟨l + s - 1, by omega, by omega, by omega, by omega, by omega, by omega⟩
    · exact ⟨l + s, by omega, by omega, by omega, by omega, by omega, by omega⟩
  obtain ⟨l', a1, a2, a3, a4, a5, a6⟩ := key
  refine ⟨l', a1, by push_cast; omega, fun t x hne => ?_⟩
  push_cast
  by_cases hxb : x = bosonSite h 0
  · rcases hb with hb | hb <;> rw [hxb, hb] <;> omega
  · have := hx t x hne hxb
    omega

theorem reach_narrow (hA : ∀ h ∈ m.ham.terms, Adjacent h) : ∀ {j : ℕ} {n : Occ}, (hops m k).Reach j n → Narrow j n
  | 0, n, h => by
    rw [show n = 0 from h]
    exact ⟨0, le_rfl, by simp, fun t x hx => absurd rfl hx⟩
  | j + 1, n, h => by
    rcases h.2 with h2 | ⟨μ, hμ, h2⟩
    · exact (reach_narrow hA h2).succ
    · have h3 := reach_narrow hA h2
      rcases List.mem_cons.1 hμ with rfl | hμ
      · exact narrow_shift (by norm_num) h3
      · rcases List.mem_cons.1 hμ with rfl | hμ
        · exact narrow_shift (by norm_num) h3
        · obtain ⟨t, ht, rfl⟩ := List.mem_map.1 hμ
          exact narrow_jump (hA t ht) h3

/-- the occupations reached in `J` steps are inside all limits of at least `J + 1` -/
theorem reach_allowed {e' c' : ℝ} (hQ : (hops m k).Ok e' c') (hA : ∀ h ∈ m.ham.terms, Adjacent h)
    (ht : m'.nTypes = m.nTypes) {J : ℕ} (hB : LimitsAtLeast (J + 1) m' ae) {n : Occ} (h : (hops m k).Reach J n) :
    Allowed m' ae n := by
  obtain ⟨l, -, -, hl⟩ := reach_narrow hA h
  have hc : Conceivable m n := Hops.reach_S hQ h
  have hN : phononCount m n ≤ J := by
    have := (Hops.reach_upto hQ h).2
    have h2 : ((phononCount m n : ℤ) : ℝ) ≤ (J : ℝ) := this
    exact_mod_cast h2
  have hw : ∀ M : ℤ, J + 1 ≤ M → ∀ t x t' y, n t x ≠ 0 → n t' y ≠ 0 → y - x + 1 ≤ M := by
    intro M hM t x t' y h1 h2
    have a1 := hl t x h1
    have a2 := hl t' y h2
    omega
  refine ⟨hc.nonneg, fun t x hne => ht ▸ hc.types t x hne, fun c hcap t x => ?_, hw ae hB.window, ?_, ?_⟩
  · have a1 := (hc.le_total t x).trans (hc.total_le t)
    have a2 := hB.cap c hcap
    omega
  · intro t M hM x y h1 h2
    exact hw M (hB.extent M (List.mem_of_getElem? hM)) t x t y h1 h2
  · intro t N hN'
    have a1 := hc.total_le t
    have a2 := hB.number N (List.mem_of_getElem? hN')
    omega

/-! ### the built-in couplings -/

theorem termsOf_adjacent {ct : String} (g : ℝ) (i : ℕ) (f : ℝ) {h : SingleTerm ℝ} (hh : h ∈ termsOf ct g i f) : Adjacent h := by
  unfold termsOf termShapes at hh
  unfold Adjacent electronSite bosonSite
  split_ifs at hh <;> simp at hh <;> (try rcases hh with rfl | rfl | rfl | rfl | rfl | rfl | rfl | rfl) <;>
    (try rcases hh with rfl | rfl | rfl | rfl) <;> (try rcases hh with rfl | rfl) <;> simp [Num.int]

theorem blueprint_adjacent {hopping lattice T : ℝ} {cap : Option Int} {ds : List (Part ℝ)} :
    ∀ h ∈ (blueprint hopping lattice T cap ds).ham.terms, Adjacent h := by
  intro h hh
  obtain ⟨q, -, hq⟩ := List.mem_flatMap.1 (show h ∈ partTerms ds 0 from hh)
  exact termsOf_adjacent _ _ _ hq

end GGCE
