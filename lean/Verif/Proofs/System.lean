import Verif.Spec.WellFormed
import Verif.Proofs.Rhs
import Verif.Proofs.Enum
import Verif.Proofs.FArgs

/-! Construction of the closed system. -/

set_option linter.unusedSectionVars false

namespace GGCE
open Spec Arr Dict

variable {R : Type} [Field R] [LinearOrder R]

/-! #### members of a right-hand side -/

theorem forall₂_exists_left {α β : Type _} {Q : α → β → Prop} {xs : List α} {ys : List β}
    (h : List.Forall₂ Q xs ys) {y : β} (hy : y ∈ ys) : ∃ x ∈ xs, Q x y := by
  induction h with
  | nil => simp at hy
  | cons h1 _ ih =>
    rcases List.mem_cons.1 hy with rfl | hy
    · exact ⟨_, List.mem_cons_self, h1⟩
    · obtain ⟨x, hx, hq⟩ := ih hy; exact ⟨x, List.mem_cons_of_mem _ hx, hq⟩

theorem forall₂_exists_right {α β : Type _} {Q : α → β → Prop} {xs : List α} {ys : List β}
    (h : List.Forall₂ Q xs ys) {x : α} (hx : x ∈ xs) : ∃ y ∈ ys, Q x y := by
  induction h with
  | nil => simp at hx
  | cons h1 _ ih =>
    rcases List.mem_cons.1 hx with rfl | hx
    · exact ⟨_, List.mem_cons_self, h1⟩
    · obtain ⟨y, hy, hq⟩ := ih hx; exact ⟨y, List.mem_cons_of_mem _ hy, hq⟩

theorem Rhs.mem {m : Model R} {ae : Int} {a : Arr} {hs : List (SingleTerm R)} {ts : List (Term R)}
    (h : Rhs m ae a hs ts) {t : Term R} (ht : t ∈ ts) :
    ∃ h ∈ hs, ∃ γ, Possible m ae a h γ ∧ Produced m ae a h γ t := by
  obtain ⟨tss, rfl, h2⟩ := h
  obtain ⟨th, hth, ht⟩ := List.mem_flatten.1 ht
  obtain ⟨h, hh, ps, -, k2, k3⟩ := forall₂_exists_left h2 hth
  obtain ⟨γ, hγ, hq⟩ := forall₂_exists_left k3 ht
  exact ⟨h, hh, γ, (k2 γ).1 hγ, hq⟩

theorem Rhs.exists {m : Model R} {ae : Int} {a : Arr} {hs : List (SingleTerm R)}
    {ts : List (Term R)} (h : Rhs m ae a hs ts) {x : SingleTerm R} (hx : x ∈ hs) {γ : Int}
    (hp : Possible m ae a x γ) : ∃ t ∈ ts, Produced m ae a x γ t := by
  obtain ⟨tss, rfl, h2⟩ := h
  obtain ⟨th, hth, ps, -, k2, k3⟩ := forall₂_exists_right h2 hx
  obtain ⟨t, ht, hq⟩ := forall₂_exists_right k3 ((k2 γ).2 hp)
  exact ⟨t, List.mem_flatten.2 ⟨th, hth, ht⟩, hq⟩

/-! #### the one-phonon clouds and the Green's function equation -/

/-- one phonon of type `t` among `n` types -/
def single (n t : Nat) : Arr := ⟨(Arr.zeros n 1).rows.set t [1], 1⟩

theorem single_wf (n t : Nat) : (single n t).WF := by
  intro r hr
  rcases List.mem_or_eq_of_mem_set hr with h | rfl
  · rw [Arr.zeros, List.mem_replicate] at h; rw [h.2]; rfl
  · rfl

theorem zeros_wf (n L : Nat) : (Arr.zeros n L).WF := by
  intro r hr
  rw [Arr.zeros, List.mem_replicate] at hr; rw [hr.2]; simp [Arr.zeros]

theorem zeros_get (n L t x : Nat) : (Arr.zeros n L).get t x = 0 := by
  simp only [Arr.zeros, Arr.get, List.getD_eq_getElem?_getD, List.getElem?_replicate]
  split
  · simp [List.getElem?_replicate]; split <;> rfl
  · simp

theorem zeros_vacuum (n : Nat) : Vacuum (Arr.zeros n 1) :=
  ⟨zeros_wf n 1, rfl, fun t x => by
    rw [chain_eq]; split
    · exact zeros_get _ _ _ _
    · rfl⟩

theorem single_rows (n t : Nat) : (single n t).rows.length = n := by simp [single, Arr.zeros]

theorem single_get {n t : Nat} (ht : t < n) (t' x : Nat) :
    (single n t).get t' x = if t' = t ∧ x = 0 then 1 else 0 := by
  simp only [single, Arr.get, List.getD_eq_getElem?_getD, List.getElem?_set]
  by_cases h : t = t'
  · subst h
    have : t < (Arr.zeros n 1).rows.length := by simpa [Arr.zeros] using ht
    simp only [this, if_true, Option.getD_some, true_and]
    cases x <;> simp
  · rw [if_neg h]
    have := zeros_get n 1 t' x
    simp only [Arr.get, List.getD_eq_getElem?_getD] at this
    rw [this, if_neg]
    exact fun hh => h hh.1.symm

theorem single_chain {n t : Nat} (ht : t < n) (t' : Nat) (x : Int) :
    chain (single n t) t' x = if t' = t ∧ x = 0 then 1 else 0 := by
  rw [chain_eq]
  by_cases h : 0 ≤ x
  · rw [if_pos h, single_get ht]
    have : (x.toNat = 0) = (x = 0) := by apply propext; omega
    simp only [this]
  · rw [if_neg h, if_neg]; omega

theorem single_cloud {n t : Nat} (ht : t < n) : Cloud (single n t) := by
  refine cloud_of_get (proper_of_get (single_wf n t) ?_) (by simp [single]) ⟨t, ?_⟩ ⟨t, ?_⟩
  · intro t' x; rw [single_get ht]; split <;> omega
  · rw [single_get ht]; simp
  · rw [single_get ht]; simp [single]

theorem single_typeTotal {n t : Nat} (ht : t < n) (t' : Nat) :
    typeTotal (single n t) t' = if t' = t then 1 else 0 := by
  rw [typeTotal_eq_sum (single_wf n t) t' (lo := 0) (hi := 1) le_rfl (by simp [single])]
  have : Finset.Ico (0 : Int) 1 = {0} := by ext y; simp; omega
  rw [this, Finset.sum_singleton, single_chain ht]
  simp

theorem single_phonons {n t : Nat} (ht : t < n) : phonons (single n t) = 1 := by
  rw [phonons_eq_sum, single_rows, Finset.sum_congr rfl (fun t' _ => single_typeTotal ht t'),
    Finset.sum_ite_eq' (Finset.range n) t (fun _ => (1 : Int)), if_pos (by simpa using ht)]

theorem single_bounded {m : Model R} {ae : Int} (hm : Bounded m ae) {t : Nat}
    (ht : t < m.nTypes) : InTruncation m ae (single m.nTypes t) := by
  refine ⟨by have := hm.aePos; simpa [single] using this, single_rows _ _, single_cloud ht, ?_, ?_, ?_⟩
  · intro c hc t' x
    rw [single_chain ht]
    have := hm.capPos c hc
    split <;> omega
  · intro M hM t' ht'
    cases hM
    rw [single_rows] at ht'
    have hl : t' < m.extent.length := by rw [hm.ext]; exact ht'
    have h1 := hm.extPos _ (List.getElem_mem hl)
    refine ⟨m.extent[t'], List.getElem?_eq_getElem hl, by omega, ?_⟩
    intro x y hx hy
    rw [single_chain ht] at hx hy
    split at hx
    · split at hy
      · omega
      · exact absurd rfl hy
    · exact absurd rfl hx
  · intro N hN t' ht'
    cases hN
    rw [single_rows] at ht'
    have hl : t' < m.number.length := by rw [hm.num]; exact ht'
    have h1 := hm.numPos _ (List.getElem_mem hl)
    refine ⟨m.number[t'], List.getElem?_eq_getElem hl, ?_⟩
    rw [single_typeTotal ht]
    split <;> omega

theorem Spec.Shaped.bounded {m : Model R} {ae : Int} (hm : Shaped m ae) : Bounded m ae :=
  ⟨hm.toListsOk, hm.absExtent, hm.dim, hm.types, hm.aePos, hm.extPos, hm.numPos, hm.capPos, hm.index⟩

theorem single_truncation {m : Model R} {ae : Int} (hm : Shaped m ae) {t : Nat}
    (ht : t < m.nTypes) : InTruncation m ae (single m.nTypes t) := single_bounded hm.bounded ht

/-- the term of the Green's function equation for the creation term `h` -/
def eomOf (m : Model R) (h : SingleTerm R) : Term R :=
  { kind := .eom, config := single m.nTypes h.phononIndex, hterm := h, pref := h.coupling,
    expShift := h.psi.sub h.phi, fArg := h.phi, gArg := none, freqShift := 0 }

/-- the right-hand side of the Green's function equation -/
def greenTerms (m : Model R) : List (Term R) :=
  (m.ham.terms.filter (fun h => h.dag = .plus)).map (eomOf m)

theorem mkGreen_ok {m : Model R} (hidx : ∀ h ∈ m.ham.terms, h.phononIndex < m.nTypes) :
    mkGreen m = .ok ⟨true, Arr.zeros m.nTypes 1, none, greenTerms m, populate (greenTerms m)⟩ := by
  have h0 : (Arr.zeros m.nTypes 1).validate = .ok () :=
    (validate_ok_iff (zeros_wf _ _) (by simp [Arr.zeros])).2
      (Or.inl ⟨proper_of_vacuum (zeros_vacuum _), total_of_vacuum (zeros_vacuum _)⟩)
  have h1 : collectM (mkEOM m) m.ham.terms = .ok (greenTerms m) := by
    rw [collectM_ok (g := fun h => if h.dag = .plus then some (eomOf m h) else none)]
    · congr 1
      unfold greenTerms
      rw [← List.filterMap_eq_map, List.filterMap_filter]
      congr 1
      funext h
      by_cases e : h.dag = .plus <;> simp [e]
    · intro h hh
      unfold mkEOM
      have hv := validate_cloud (single_cloud (hidx h hh))
      unfold single at hv
      cases hd : h.dag with
      | minus => simp
      | plus =>
        simp only [hidx h hh, if_true, hv, bind, Except.bind, pure, Except.pure]
        rfl
  simp [mkGreen, h0, h1, bind, Except.bind, pure, Except.pure]

/-! #### reachability -/

/-- every cloud of the truncated space with at least two phonons occurs on the right-hand side of
the equation of a cloud with one phonon less -/
theorem exists_parent {m : Model R} {ae : Int} {a : Arr} (ha : InTruncation m ae a)
    (h2 : 2 ≤ phonons a) : ∃ b t γ o, InTruncation m ae b ∧ Acted b .plus t γ a o ∧
      t < m.nTypes := by
  have hcl := ha.2.2.toCloud
  obtain ⟨t, ht⟩ := Cloud.left' hcl
  have hocc : 1 ≤ a.get t 0 := by
    have := Proper.get_nonneg hcl.toProper t 0; omega
  have htlt : t < a.rows.length := by
    by_contra hc; exact ht (get_type_oob (by simpa [nTypes] using hc) 0)
  obtain ⟨c', s, -, k2, k3, -, -, -, k7⟩ :=
    Config.removePhonon_spec (c := ⟨a, 1, 0⟩) (t := t) (x := 0) hcl (by simp) hocc
  have hact : Acted a .minus t 0 c'.arr s := by
    refine ⟨k3, fun t' y => ?_⟩
    rw [k7]; split <;> simp_all [Dag.delta]; omega
  have hcl' : Cloud c'.arr := by
    rcases k2 with k2 | k2
    · exact k2
    · exfalso
      have := phonons_acted hcl.wf k2.wf hact htlt
      have h0 : phonons c'.arr = 0 := total_of_vacuum k2
      simp only [Dag.delta] at this
      omega
  refine ⟨c'.arr, t, -s, -s, truncation_of_removed ha hact hcl', ⟨k3.symm, fun t' y => ?_⟩,
    by rw [← ha.2.1]; exact htlt⟩
  have := hact.2 t' (y + s)
  rw [show y + s - s = y by omega] at this
  rw [this, show y - -s = y + s by omega]
  by_cases e : t' = t ∧ y = -s
  · have e' : t' = t ∧ y + s = 0 := ⟨e.1, by omega⟩
    rw [if_pos e, if_pos e']; simp [Dag.delta]
  · have e' : ¬ (t' = t ∧ y + s = 0) := fun h => e ⟨h.1, by omega⟩
    rw [if_neg e, if_neg e']; simp

theorem single_of_phonons_one {m : Model R} {ae : Int} {a : Arr} (ha : InTruncation m ae a)
    (h1 : phonons a = 1) : ∃ t, t < m.nTypes ∧ a = single m.nTypes t := by
  have hcl := ha.2.2.toCloud
  obtain ⟨t, ht⟩ := Cloud.left' hcl
  have hocc : 1 ≤ a.get t 0 := by
    have := Proper.get_nonneg hcl.toProper t 0; omega
  have htlt : t < a.rows.length := by
    by_contra hc; exact ht (get_type_oob (by simpa [nTypes] using hc) 0)
  have htn : t < m.nTypes := by rw [← ha.2.1]; exact htlt
  refine ⟨t, htn, ?_⟩
  obtain ⟨c', s, -, k2, k3, -, -, -, k7⟩ :=
    Config.removePhonon_spec (c := ⟨a, 1, 0⟩) (t := t) (x := 0) hcl (by simp) hocc
  have hact : Acted a .minus t 0 c'.arr s := by
    refine ⟨k3, fun t' y => ?_⟩
    rw [k7]; split <;> simp_all [Dag.delta]; omega
  have hv : ∀ t' y, chain c'.arr t' y = 0 := by
    rcases k2 with k2 | k2
    · exfalso
      have := phonons_acted hcl.wf k2.wf hact htlt
      have h0 : phonons c'.arr ≠ 0 := total_ne_zero_of_cloud k2
      simp only [Dag.delta] at this
      omega
    · exact k2.empty
  refine (cloud_unique (d := 0) hcl (single_cloud htn)
    (by rw [show a.nTypes = m.nTypes from ha.2.1]; exact (single_rows _ _).symm) ?_).2
  intro t' y
  have := hact.2 t' y
  rw [hv] at this
  rw [show y + 0 = y by omega, single_chain htn]
  by_cases e : t' = t ∧ y = 0
  · rw [if_pos e] at this ⊢; simp only [Dag.delta] at this; omega
  · rw [if_neg e] at this ⊢; omega

end GGCE
