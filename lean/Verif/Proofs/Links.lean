import Verif.Proofs.Build
import Verif.Spec.Modes
import Mathlib.Algebra.BigOperators.Finprod
import Mathlib.Data.Nat.Factorial.Basic

/-! Transitions between clouds, in both directions, and the norm of the states they stand for. -/

set_option linter.unusedSectionVars false

namespace GGCE
open Spec Arr

variable {R : Type} [Field R] [LinearOrder R]

/-! #### the norm of an unnormalised phonon state -/

/-- `∏ n!` over all sites and types -/
noncomputable def fact (a : Arr) : ℕ := ∏ᶠ q : ℕ × ℤ, ((chain a q.1 q.2).toNat).factorial

theorem chain_outside {a : Arr} (h : a.WF) {t : ℕ} {x : ℤ} (hx : ¬ (t < a.rows.length ∧ 0 ≤ x ∧ x < a.len)) :
    chain a t x = 0 := by
  unfold chain
  split
  · rename_i h0
    cases hr : a.rows[t]? with
    | none => rfl
    | some row =>
      have hlen := h row (List.mem_of_getElem? hr)
      have ht := (List.getElem?_eq_some_iff.1 hr).1
      have : row[x.toNat]? = none := by
        rw [List.getElem?_eq_none_iff]; omega
      simp [this]
  · rfl

theorem fact_support {a : Arr} (h : a.WF) (o : ℤ) :
    (Function.mulSupport (fun q : ℕ × ℤ => ((chain a q.1 (q.2 - o)).toNat).factorial)).Finite := by
  apply Set.Finite.subset (s := ((Finset.range a.rows.length ×ˢ Finset.Ico o (o + a.len) : Finset (ℕ × ℤ)) : Set (ℕ × ℤ)))
    (Finset.finite_toSet _)
  intro q hq
  by_contra hc
  apply hq
  have : chain a q.1 (q.2 - o) = 0 := by
    apply chain_outside h
    rintro ⟨h1, h2, h3⟩
    apply hc
    simp only [Finset.coe_product, Set.mem_prod, Finset.coe_range, Set.mem_Iio, Finset.coe_Ico, Set.mem_Ico]
    omega
  show ((chain a q.1 (q.2 - o)).toNat).factorial = 1
  rw [this]; rfl

theorem fact_shift (a : Arr) (o : ℤ) :
    fact a = ∏ᶠ q : ℕ × ℤ, ((chain a q.1 (q.2 - o)).toNat).factorial := by
  unfold fact
  rw [← finprod_comp_equiv ((Equiv.refl ℕ).prodCongr (Equiv.subRight o))]
  rfl

theorem fact_pos (a : Arr) : 0 < fact a := by
  unfold fact
  rw [Nat.pos_iff_ne_zero]
  by_cases h : (Function.mulSupport (fun q : ℕ × ℤ => ((chain a q.1 q.2).toNat).factorial)).Finite
  · rw [finprod_eq_prod _ h, Finset.prod_ne_zero_iff]
    intro q _
    exact Nat.factorial_ne_zero _
  · rw [finprod_of_infinite_mulSupport h]; exact one_ne_zero

/-- adding a phonon where there are `n` multiplies the norm by `n + 1` -/
theorem fact_plus {a b : Arr} (ha : Proper a) (hb : b.WF) {t : ℕ} {γ o : ℤ}
    (h : Acted a .plus t γ b o) : (fact b : ℤ) = fact a * chain b t (γ - o) := by
  have key : ∀ q : ℕ × ℤ, ((chain b q.1 (q.2 - o)).toNat).factorial =
      ((chain a q.1 (q.2 - 0)).toNat).factorial *
        (if q = (t, γ) then (chain b t (γ - o)).toNat else 1) := by
    rintro ⟨t', y⟩
    simp only [sub_zero]
    rw [h.2 t' y]
    by_cases e : t' = t ∧ y = γ
    · obtain ⟨rfl, rfl⟩ := e
      rw [if_pos ⟨rfl, rfl⟩, if_pos rfl, h.2, if_pos ⟨rfl, rfl⟩]
      have := chain_nonneg ha t' y
      simp only [Dag.delta]
      rw [show (chain a t' y + 1).toNat = (chain a t' y).toNat + 1 by omega, Nat.factorial_succ, mul_comm]
    · rw [if_neg e, if_neg (by rintro ⟨⟩; exact e ⟨rfl, rfl⟩), add_zero, mul_one]
  have h1 : fact b = fact a * (chain b t (γ - o)).toNat := by
    rw [fact_shift b o, fact_shift a 0, finprod_congr key, finprod_mul_distrib (fact_support ha.wf 0)]
    · congr 1
      rw [finprod_eq_single _ (t, γ) (by intro q hq; rw [if_neg hq]), if_pos rfl]
    · apply Set.Finite.subset (Set.finite_singleton (t, γ))
      intro q hq
      by_contra hc
      exact hq (if_neg hc)
  rw [h1]
  have h2 : 0 ≤ chain b t (γ - o) := by
    rw [h.2, if_pos ⟨rfl, rfl⟩]
    have := chain_nonneg ha t γ
    simp only [Dag.delta]; omega
  push_cast
  rw [Int.toNat_of_nonneg h2]

/-! #### transitions -/

theorem acted_symm' {a b : Arr} {t : Nat} {γ o : Int} (h : Acted a .minus t γ b o) :
    Acted b .plus t (γ - o) a (-o) := by
  refine ⟨h.1.symm, fun t' y => ?_⟩
  have := h.2 t' (y + o)
  rw [show y + o - o = y by omega] at this
  rw [this, show y - -o = y + o by omega]
  by_cases e : t' = t ∧ y + o = γ
  · rw [if_pos e, if_pos ⟨e.1, by omega⟩]; simp [Dag.delta]
  · rw [if_neg e, if_neg (fun h => e ⟨h.1, by omega⟩)]; simp

/-- `h` takes the cloud `a` to the cloud `b` by acting at chain site `γ`, the first site of `b` being at
`o`. By convention both are 0 if one of the clouds is the vacuum. -/
structure Link (m : Model R) (h : SingleTerm R) (a : Arr) (γ : ℤ) (b : Arr) (o : ℤ) : Prop where
  acted : Acted a h.dag h.phononIndex γ b o
  left : a = vac m → γ = 0 ∧ o = 0
  right : b = vac m → γ = 0 ∧ o = 0

theorem Link.symm {m : Model R} {h : SingleTerm R} {a b : Arr} {γ o : ℤ} (hl : Link m h a γ b o) :
    Link m (adjoint h) b (γ - o) a (-o) := by
  refine ⟨?_, fun e => ?_, fun e => ?_⟩
  · have := hl.acted
    unfold adjoint
    cases hd : h.dag with
    | plus => rw [hd] at this; exact acted_symm this
    | minus => rw [hd] at this; exact acted_symm' this
  · have := hl.right e; omega
  · have := hl.left e; omega

theorem adjoint_adjoint (h : SingleTerm R) : adjoint (adjoint h) = h := by
  rcases h with ⟨ct, ⟨a, b⟩, ⟨c, d⟩, dag, g, i, f⟩
  cases dag <;> simp [adjoint]

theorem Link.symm_iff {m : Model R} {h : SingleTerm R} {a b : Arr} {γ o : ℤ} :
    Link m (adjoint h) b (γ - o) a (-o) ↔ Link m h a γ b o := by
  constructor
  · intro hl
    have := hl.symm
    rw [adjoint_adjoint] at this
    simpa using this
  · exact Link.symm

/-- the phonon number factor of a transition -/
def factor (h : SingleTerm R) (a : Arr) (γ : ℤ) : ℤ :=
  match h.dag with
  | .plus => 1
  | .minus => chain a h.phononIndex γ

/-- detailed balance: with the norms as weights, both directions of a transition have the same
amplitude -/
theorem Link.balance {m : Model R} {h : SingleTerm R} {a b : Arr} {γ o : ℤ} (hl : Link m h a γ b o)
    (ha : Proper a) (hb : Proper b) :
    factor h a γ * (fact b : ℤ) = factor (adjoint h) b (γ - o) * (fact a : ℤ) := by
  have hact := hl.acted
  have hi : (adjoint h).phononIndex = h.phononIndex := rfl
  unfold factor
  cases hd : h.dag with
  | plus =>
    have : (adjoint h).dag = .minus := by simp [adjoint, hd]
    rw [this, hi]
    rw [hd] at hact
    simp only
    rw [fact_plus ha hb.wf hact]; ring
  | minus =>
    have : (adjoint h).dag = .plus := by simp [adjoint, hd]
    rw [this]
    rw [hd] at hact
    have h2 := fact_plus hb ha.wf (acted_symm' hact)
    simp only
    rw [h2]
    rw [show γ - o - -o = γ by omega]; ring

/-! #### terms are transitions -/

/-- the first site of the new cloud, read off a term -/
def offT (t : Term R) : ℤ := if t.config.total = 0 ∨ t.kind = .eom then 0 else -t.expShift.tw / 2

theorem Node.proper {m : Model R} {ae : Int} {a : Arr} (h : Node m ae a) : Proper a := by
  rcases h with rfl | h
  · exact proper_of_vacuum (zeros_vacuum _)
  · exact h.2.2.toProper

theorem chain_vac (m : Model R) (t : ℕ) (x : ℤ) : chain (vac m) t x = 0 := (zeros_vacuum _).empty t x

theorem link_of_produced {m : Model R} {ae : Int} {a : Arr} (ha : InTruncation m ae a) {h : SingleTerm R}
    {γ : ℤ} {t : Term R} (hp : Produced m ae a h γ t) : Link m h a γ t.config (offT t) := by
  rcases hp.cloud with ⟨k0, o, k3, k1, k2⟩ | ⟨k0, k3, k1, k2⟩
  · have ho : offT t = o := by
      have hk : t.kind ≠ .eom := by rw [hp.kind]; cases h.dag <;> simp
      unfold offT; rw [if_neg (not_or.2 ⟨total_ne_zero k0, hk⟩)]; omega
    rw [ho]
    refine ⟨k3, fun e => absurd (e ▸ ha) not_vac, fun e => absurd (e ▸ k0) not_vac⟩
  · have ho : offT t = 0 := by unfold offT; rw [if_pos (Or.inl (total_of_vacuum k0))]
    rw [ho]
    refine ⟨k3, fun e => absurd (e ▸ ha) not_vac, fun _ => ⟨?_, rfl⟩⟩
    obtain ⟨t', ht'⟩ := ha.2.2.left
    have := k3.2 t' 0
    rw [k0.empty] at this
    by_contra hγ
    rw [if_neg (fun h => hγ h.2.symm)] at this
    omega
where
  not_vac : ¬ InTruncation m ae (vac m) := fun h => total_ne_zero h (vac_total m)

theorem link_unique {m : Model R} {h : SingleTerm R} {ae : Int} {a b c : Arr} {γ o o' : ℤ}
    (hb : Node m ae b) (hc : Node m ae c)
    (h1 : Link m h a γ b o) (h2 : Link m h a γ c o') : b = c ∧ o = o' := by
  have key : ∀ {b c : Arr} {o o' : ℤ}, Link m h a γ b o → Link m h a γ c o' → c = vac m → 
      InTruncation m ae b → False := by
    intro b c o o' h1 h2 hc hb
    obtain ⟨t, ht⟩ := hb.2.2.left
    have e1 := h1.acted.2 t (0 + o)
    have e2 := h2.acted.2 t (0 + o)
    rw [hc, chain_vac] at e2
    rw [show (0 : ℤ) + o - o = 0 by omega] at e1
    omega
  rcases hb with hb | hb <;> rcases hc with hc | hc
  · rw [hb, hc, (h1.right hb).2, (h2.right hc).2]; exact ⟨rfl, rfl⟩
  · exact (key h2 h1 hb hc).elim
  · exact (key h1 h2 hc hb).elim
  · exact acted_unique h1.acted h2.acted hb.2.2.toCloud hc.2.2.toCloud

theorem possible_of_link {m : Model R} {ae : Int} {a : Arr} {h : SingleTerm R} {γ o : ℤ} {b : Arr}
    (hb : Node m ae b) (hl : Link m h a γ b o) : Possible m ae a h γ := by
  refine ⟨fun hd => ?_, b, o, hl.acted, ?_⟩
  · have := hl.acted.2 h.phononIndex γ
    rw [if_pos ⟨rfl, rfl⟩, hd] at this
    have h0 := chain_nonneg hb.proper h.phononIndex (γ - o)
    simp only [Dag.delta] at this
    omega
  · rcases hb with rfl | hb
    · exact Or.inl (zeros_vacuum _)
    · exact Or.inr hb

/-- the terms of `h` in the equation of `a`, as a finite set of transitions -/
theorem produced_sum {m : Model R} {ae : Int} {a : Arr} (ha : InTruncation m ae a) {h : SingleTerm R}
    {A : Type} [AddCommMonoid A] (f : Term R → A) (v : ℤ → Arr → ℤ → A)
    {ps : List ℤ} {ts : List (Term R)}
    (hf : ∀ γ, ∀ t ∈ ts, Produced m ae a h γ t → f t = v γ t.config (offT t))
    (hps : ps.Pairwise (· < ·)) (hts : List.Forall₂ (Produced m ae a h) ps ts) :
    ∃ S : Finset (ℤ × Arr × ℤ),
      (∀ x, x ∈ S ↔ x.1 ∈ ps ∧ Node m ae x.2.1 ∧ Link m h a x.1 x.2.1 x.2.2) ∧
      (ts.map f).sum = ∑ x ∈ S, v x.1 x.2.1 x.2.2 := by
  induction hts with
  | nil => exact ⟨∅, by simp, by simp⟩
  | @cons γ t ps ts hp _ ih =>
    obtain ⟨S, h1, h2⟩ := ih (fun γ t ht => hf γ t (List.mem_cons_of_mem _ ht)) (List.pairwise_cons.1 hps).2
    have hlt := (List.pairwise_cons.1 hps).1
    have hl := link_of_produced ha hp
    have hn : (γ, t.config, offT t) ∉ S := by
      intro hx
      have := hlt _ ((h1 _).1 hx).1
      simp at this
    refine ⟨Finset.cons _ S hn, ?_, ?_⟩
    · rintro ⟨γ', b, o⟩
      rw [Finset.mem_cons, h1]
      simp only [List.mem_cons, Prod.mk.injEq]
      constructor
      · rintro (⟨rfl, rfl, rfl⟩ | ⟨k1, k2⟩)
        · exact ⟨Or.inl rfl, hp.node ha, hl⟩
        · exact ⟨Or.inr k1, k2⟩
      · rintro ⟨rfl | k1, k2, k3⟩
        · obtain ⟨e1, e2⟩ := link_unique k2 (hp.node ha) k3 hl
          exact Or.inl ⟨rfl, e1, e2⟩
        · exact Or.inr ⟨k1, k2, k3⟩
    · rw [Finset.sum_cons, List.map_cons, List.sum_cons, hf _ _ List.mem_cons_self hp, h2]

open Classical in
/-- the transitions of `h` from `a` within the truncated space -/
noncomputable def links (m : Model R) (ae : Int) (a : Arr) (h : SingleTerm R) : Finset (ℤ × Arr × ℤ) :=
  if hf : {x : ℤ × Arr × ℤ | Node m ae x.2.1 ∧ Link m h a x.1 x.2.1 x.2.2}.Finite then hf.toFinset else ∅

theorem links_eq {m : Model R} {ae : Int} {a : Arr} {h : SingleTerm R} {S : Finset (ℤ × Arr × ℤ)}
    (hS : ∀ x, x ∈ S ↔ Node m ae x.2.1 ∧ Link m h a x.1 x.2.1 x.2.2) : links m ae a h = S := by
  have hf : {x : ℤ × Arr × ℤ | Node m ae x.2.1 ∧ Link m h a x.1 x.2.1 x.2.2}.Finite :=
    S.finite_toSet.subset (fun x hx => (hS x).2 hx)
  unfold links
  rw [dif_pos hf]
  ext x
  rw [Set.Finite.mem_toFinset, hS]; rfl

/-- the transition behind a term: a term of the equation of a cloud, or of the Green's function -/
def From (m : Model R) (ae : Int) (a : Arr) (h : SingleTerm R) (γ : ℤ) (t : Term R) : Prop :=
  (InTruncation m ae a ∧ Produced m ae a h γ t) ∨ (a = vac m ∧ h.dag = .plus ∧ γ = 0 ∧ t = eomOf m h)

theorem links_vac_minus {m : Model R} {ae : Int} {h : SingleTerm R} (hd : h.dag = .minus)
    (x : ℤ × Arr × ℤ) : x ∈ (∅ : Finset (ℤ × Arr × ℤ)) ↔
      Node m ae x.2.1 ∧ Link m h (vac m) x.1 x.2.1 x.2.2 := by
  revert x
  rintro ⟨γ, b, o⟩
  simp only [Finset.notMem_empty, false_iff, not_and]
  intro hb hl
  have := (possible_of_link hb hl).1 hd
  rw [chain_vac] at this
  omega

theorem links_vac_plus {m : Model R} {ae : Int} (hm : Shaped m ae) {h : SingleTerm R} (hh : h ∈ m.ham.terms)
    (hd : h.dag = .plus) (x : ℤ × Arr × ℤ) :
    x ∈ ({(0, single m.nTypes h.phononIndex, 0)} : Finset (ℤ × Arr × ℤ)) ↔
      Node m ae x.2.1 ∧ Link m h (vac m) x.1 x.2.1 x.2.2 := by
  revert x
  have hidx := hm.index h hh
  have hl : Link m h (vac m) 0 (single m.nTypes h.phononIndex) 0 := by
    refine ⟨⟨?_, ?_⟩, fun _ => ⟨rfl, rfl⟩, fun _ => ⟨rfl, rfl⟩⟩
    · rw [single_rows]; simp [vac, Arr.zeros]
    · intro t y
      rw [chain_vac, sub_zero, single_chain hidx, hd]
      simp [Dag.delta]
  have hn : Node m ae (single m.nTypes h.phononIndex) := Or.inr (single_bounded hm.bounded hidx)
  rintro ⟨γ, b, o⟩
  rw [Finset.mem_singleton]
  simp only [Prod.mk.injEq]
  constructor
  · rintro ⟨rfl, rfl, rfl⟩; exact ⟨hn, hl⟩
  · rintro ⟨k1, k2⟩
    obtain ⟨rfl, rfl⟩ := k2.left rfl
    obtain ⟨e1, -⟩ := link_unique k1 hn k2 hl
    exact ⟨rfl, e1, rfl⟩

/-- a sum over the terms of an equation is a sum over transitions -/
theorem Layout.Ok.sum_terms {L : Layout R} {m : Model R} {ae : Int} (hm : Shaped m ae) (hL : L.Ok m ae)
    {a : Arr} (ha : Node m ae a) {A : Type} [AddCommMonoid A] (f : Term R → A)
    (v : SingleTerm R → ℤ → Arr → ℤ → A)
    (hf : ∀ h ∈ m.ham.terms, ∀ γ, ∀ t ∈ (L.eqn a).terms, From m ae a h γ t →
      f t = v h γ t.config (offT t)) :
    ((L.eqn a).terms.map f).sum =
      (m.ham.terms.map (fun h => ∑ x ∈ links m ae a h, v h x.1 x.2.1 x.2.2)).sum := by
  rcases ha with rfl | ha
  · rw [hL.eqn_vac] at hf ⊢
    show ((greenTerms m).map f).sum = _
    unfold greenTerms
    have : ∀ hs : List (SingleTerm R), (∀ h ∈ hs, h ∈ m.ham.terms) →
        (((hs.filter (fun h => h.dag = .plus)).map (eomOf m)).map f).sum =
          (hs.map (fun h => ∑ x ∈ links m ae (vac m) h, v h x.1 x.2.1 x.2.2)).sum := by
      intro hs hsub
      induction hs with
      | nil => rfl
      | cons h hs ih =>
        have ih := ih (fun x hx => hsub x (List.mem_cons_of_mem _ hx))
        have hh := hsub h List.mem_cons_self
        cases hd : h.dag with
        | minus =>
          rw [List.filter_cons_of_neg (by simp [hd]), ih, List.map_cons, List.sum_cons, links_eq (links_vac_minus hd),
            Finset.sum_empty, zero_add]
        | plus =>
          rw [List.filter_cons_of_pos (by simp [hd]), List.map_cons, List.map_cons, List.map_cons,
            List.sum_cons, List.sum_cons, ih, links_eq (links_vac_plus hm hh hd), Finset.sum_singleton,
            hf h hh 0 (eomOf m h)
              (List.mem_map_of_mem (List.mem_filter.2 ⟨hh, by simp [hd]⟩)) (Or.inr ⟨rfl, hd, rfl, rfl⟩)]
          have : offT (eomOf m h) = 0 := if_pos (Or.inr rfl)
          rw [this]; rfl
    exact this _ (fun _ h => h)
  · obtain ⟨ts, e1, tss, rfl, e2⟩ := hL.eqn a ha
    rw [e1] at hf ⊢
    simp only at hf ⊢
    clear e1
    have hf' : ∀ h ∈ m.ham.terms, ∀ γ, ∀ t ∈ tss.flatten, Produced m ae a h γ t →
        f t = v h γ t.config (offT t) :=
      fun h hh γ t ht hp => hf h hh γ t ht (Or.inl ⟨ha, hp⟩)
    clear hf
    generalize m.ham.terms = hs at e2 hf' ⊢
    induction e2 with
    | nil => simp
    | @cons h th hs tss hh _ ih =>
      obtain ⟨ps, k1, k2, k3⟩ := hh
      obtain ⟨S, s1, s2⟩ := produced_sum ha f (v h) (fun γ t ht hp =>
        hf' h List.mem_cons_self γ t (by rw [List.flatten_cons]; exact List.mem_append_left _ ht) hp) k1 k3
      have hS : links m ae a h = S := by
        apply links_eq
        intro x
        rw [s1]
        constructor
        · exact fun k => k.2
        · exact fun k => ⟨(k2 _).2 (possible_of_link k.1 k.2), k⟩
      rw [List.flatten_cons, List.map_append, List.sum_append, List.map_cons, List.sum_cons, hS, s2,
        ih (fun x hx γ t ht => hf' x (List.mem_cons_of_mem _ hx) γ t
          (by rw [List.flatten_cons]; exact List.mem_append_right _ ht))]

/-- the transitions from a node form a finite set -/
theorem Layout.Ok.mem_links {L : Layout R} {m : Model R} {ae : Int} (hm : Shaped m ae) (hL : L.Ok m ae)
    {a : Arr} (ha : Node m ae a) {h : SingleTerm R} (hh : h ∈ m.ham.terms) (x : ℤ × Arr × ℤ) :
    x ∈ links m ae a h ↔ Node m ae x.2.1 ∧ Link m h a x.1 x.2.1 x.2.2 := by
  rcases ha with rfl | ha
  · cases hd : h.dag with
    | minus => rw [links_eq (links_vac_minus hd), links_vac_minus hd]
    | plus => rw [links_eq (links_vac_plus hm hh hd), links_vac_plus hm hh hd]
  · obtain ⟨ts, -, tss, rfl, e2⟩ := hL.eqn a ha
    obtain ⟨th, -, ps, k1, k2, k3⟩ := forall₂_exists_right e2 hh
    obtain ⟨S, s1, -⟩ := produced_sum ha (A := ℕ) (fun _ => 0) (fun _ _ _ => 0) (fun _ _ _ _ => rfl) k1 k3
    have hS : ∀ x, x ∈ S ↔ Node m ae x.2.1 ∧ Link m h a x.1 x.2.1 x.2.2 := by
      intro x
      rw [s1]
      constructor
      · exact fun k => k.2
      · exact fun k => ⟨(k2 _).2 (possible_of_link k.1 k.2), k⟩
    rw [links_eq hS, hS]

end GGCE
