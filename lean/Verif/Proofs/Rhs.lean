import Verif.Spec.Rhs
import Verif.Proofs.Basic
import Verif.Proofs.History
import Verif.Proofs.Legal
import Verif.Proofs.Ids
import Verif.Proofs.Totals
import Mathlib.Data.List.Basic

/-! The right-hand side of an equation. -/

set_option linter.unusedSectionVars false

namespace GGCE
open Spec Arr

theorem collectM_sites {α β : Type _} {f : α → Py (Option β)} {P : α → Prop} [DecidablePred P]
    {Q : α → β → Prop} : ∀ {xs : List α},
    (∀ x ∈ xs, (P x → ∃ y, f x = .ok (some y) ∧ Q x y) ∧ (¬ P x → f x = .ok none)) →
    ∃ ys, collectM f xs = .ok ys ∧ List.Forall₂ Q (xs.filter P) ys
  | [], _ => ⟨[], rfl, by simp⟩
  | x :: xs, h => by
    obtain ⟨ys, h1, h2⟩ := collectM_sites (xs := xs) (fun y hy => h y (List.mem_cons_of_mem _ hy))
    obtain ⟨ha, hb⟩ := h x List.mem_cons_self
    by_cases hp : P x
    · obtain ⟨y, hy, hq⟩ := ha hp
      exact ⟨y :: ys, by simp [collectM, hy, h1, bind, Except.bind, pure, Except.pure],
        by simp [hp, hq, h2]⟩
    · exact ⟨ys, by simp [collectM, hb hp, h1, bind, Except.bind, pure, Except.pure],
        by simp [hp, h2]⟩

variable {R : Type} [Field R] [LinearOrder R]

theorem freqShift_ok : ∀ (fs : List R) (ns : List Int), ns.length ≤ fs.length →
    freqShift fs ns = .ok (((List.range ns.length).map
      (fun i => fs.getD i 0 * ((ns.getD i 0 : Int) : R))).sum)
  | fs, [], _ => by cases fs <;> simp [freqShift]
  | [], n :: ns, h => by simp at h
  | f :: fs, n :: ns, h => by
    simp only [freqShift, freqShift_ok fs ns (by simpa using h), bind, Except.bind, pure,
      Except.pure, List.length_cons, List.range_succ_eq_map, List.map_cons, List.sum_cons,
      List.map_map, List.getD_cons_zero]
    rfl

theorem mkNonIndex_ok {m : Model R} {ae : Int} (hm : Sound m ae) {a : Arr}
    (ha : InTruncation m ae a) (kind : Kind) (h : SingleTerm R) (pref : R) :
    mkNonIndex m kind a h pref = .ok
      { kind, config := a, hterm := h, pref, expShift := ⟨true, 0⟩, fArg := h.phi,
        gArg := some (h.psi.sub h.phi), freqShift := energy m a } := by
  have h1 : freqShift m.ham.freqs a.totalPerType = .ok (energy m a) := by
    rw [freqShift_ok]
    · congr 1
      unfold energy
      simp only [totalPerType, List.length_map]
      congr 1
      apply List.map_congr_left
      intro i hi
      have hi' := List.mem_range.1 hi
      simp [typeTotal, hi']
    · simp only [totalPerType, List.length_map]
      rw [ha.2.1]; exact hm.freqs
  simp [mkNonIndex, validate_cloud ha.2.2.toCloud, h1, bind, Except.bind, pure, Except.pure]

/-- removal keeps all limits -/
theorem truncation_of_removed {m : Model R} {ae : Int} {a b : Arr} {t : Nat} {γ o : Int}
    (ha : InTruncation m ae a) (hact : Acted a .minus t γ b o)
    (hb : Cloud b) : InTruncation m ae b := by
  obtain ⟨h1, h2, h3⟩ := ha
  obtain ⟨e1, e2⟩ := hact
  have hle : ∀ t' y, chain b t' (y - o) ≤ chain a t' y := by
    intro t' y; rw [e2]; split <;> simp [Dag.delta]
  have hbnn : ∀ t' y, 0 ≤ chain b t' y := by
    intro t' y; rw [chain_eq]; split
    · exact Proper.get_nonneg hb.toProper _ _
    · exact le_refl _
  have hle' : ∀ t' y, chain b t' y ≤ chain a t' (y + o) := by
    intro t' y; simpa using hle t' (y + o)
  have hocc : ∀ t' y, chain b t' y ≠ 0 → chain a t' (y + o) ≠ 0 := by
    intro t' y h; have := hle' t' y; have := hbnn t' y; omega
  have hin : ∀ t' y, chain a t' y ≠ 0 → 0 ≤ y ∧ y < a.len := by
    intro t' y h
    rw [chain_eq] at h
    split at h
    · refine ⟨by assumption, ?_⟩
      by_contra hc
      exact h (WF.get_oob h3.wf _ (by omega))
    · exact absurd rfl h
  refine ⟨?_, by rw [e1, h2], hb, ?_, ?_, ?_⟩
  · obtain ⟨t1, l1⟩ := hb.left
    obtain ⟨t2, l2⟩ := hb.right
    have := hin _ _ (hocc _ _ l1)
    have := hin _ _ (hocc _ _ l2)
    omega
  · intro c hc t' y
    exact le_trans (hle' _ _) (h3.capOk c hc _ _)
  · intro M hM t' ht'
    obtain ⟨mm, q1, q2, q3⟩ := h3.extentOk M hM t' (by omega)
    refine ⟨mm, q1, q2, ?_⟩
    intro x y hx hy
    have := q3 _ _ (hocc _ _ hx) (hocc _ _ hy)
    omega
  · intro N hN t' ht'
    obtain ⟨n, q1, q2⟩ := h3.numberOk N hN t' (by omega)
    refine ⟨n, q1, le_trans ?_ q2⟩
    rw [typeTotal_acted h3.wf hb.wf ⟨e1, e2⟩ t']
    split <;> simp [Dag.delta]

theorem total_of_vacuum {a : Arr} (h : Vacuum a) : a.total = 0 :=
  (total_nonneg_iff (fun t x => by rw [get_of_chain, h.empty])).2.2
    (fun t x => by rw [get_of_chain, h.empty])

theorem proper_of_vacuum {a : Arr} (h : Vacuum a) : Proper a :=
  proper_of_get h.wf (fun t x => by rw [get_of_chain, h.empty])

/-- the filter after a step, on a cloud -/
theorem finishTerm_cloud {m : Model R} (hm : ListsOk m) {t : Term R}
    (hc : Cloud t.config) (hn : t.config.rows.length = m.nTypes) :
    (Legal m.maxPerSite (some m.extent) none t.config → finishTerm m t = .ok (some t)) ∧
    (¬ Legal m.maxPerSite (some m.extent) none t.config → finishTerm m t = .ok none) := by
  have h1 : simplifyGreen t = .ok t := by
    unfold simplifyGreen
    rw [if_neg]
    rw [configId_eq_G]
    exact fun h => total_ne_zero_of_cloud hc h.1
  obtain ⟨b, hb1, hb2⟩ := configLegal_ok hc.wf hc.pos m.maxPerSite (some m.extent) none true
    (by intro M hM; cases hM; rw [hn, hm.ext]) (by simp)
  have h0 : phonons t.config ≠ 0 := total_ne_zero_of_cloud hc
  simp only [h0, and_false, false_or] at hb2
  constructor
  · intro hl
    simp [finishTerm, h1, validate_cloud hc, hb1, hb2.2 hl, bind, Except.bind, pure, Except.pure]
  · intro hl
    have : b = false := by
      cases b
      · rfl
      · exact absurd (hb2.1 rfl) hl
    simp [finishTerm, h1, validate_cloud hc, hb1, this, bind, Except.bind, pure, Except.pure]

/-- the filter after a step that reached the vacuum -/
theorem finishTerm_vacuum {m : Model R} {t : Term R}
    (hv : Vacuum t.config) (he : t.expShift.flt = true) :
    ∃ t', finishTerm m t = .ok (some t') ∧ t'.fArg.tw = 0 ∧
      t'.expShift.tw = t.expShift.tw + t.fArg.tw ∧ t'.config = t.config ∧ t'.kind = t.kind ∧
      t'.hterm = t.hterm ∧ t'.pref = t.pref ∧ t'.gArg = t.gArg ∧ t'.freqShift = t.freqShift ∧
      t'.fArg.flt = t.fArg.flt := by
  have h0 := total_of_vacuum hv
  have hval : t.config.validate = .ok () :=
    (validate_ok_iff hv.wf (by rw [hv.len]; omega)).2 (Or.inl ⟨proper_of_vacuum hv, h0⟩)
  have hleg : t.config.configLegal m.maxPerSite (some m.extent) none true = .ok true := by
    simp [configLegal, h0]
  by_cases hf : t.fArg.tw = 0
  · refine ⟨t, ?_, hf, by omega, rfl, rfl, rfl, rfl, rfl, rfl, rfl⟩
    have h1 : simplifyGreen t = .ok t := by
      unfold simplifyGreen
      rw [if_neg]; exact fun h => h.2 hf
    simp [finishTerm, h1, hval, hleg, bind, Except.bind, pure, Except.pure]
  · refine ⟨{ t with expShift := ⟨t.expShift.flt, t.expShift.tw + t.fArg.tw⟩,
                     fArg := t.fArg.zerosLike }, ?_, rfl, rfl, rfl, rfl, rfl, rfl, rfl, rfl, rfl⟩
    have h1 : simplifyGreen t = .ok { t with
        expShift := ⟨t.expShift.flt, t.expShift.tw + t.fArg.tw⟩, fArg := t.fArg.zerosLike } := by
      unfold simplifyGreen
      rw [if_pos ⟨(configId_eq_G _).2 h0, hf⟩]
      simp [Num.iadd, he, bind, Except.bind, pure, Except.pure]
    simp [finishTerm, h1, hval, hleg, bind, Except.bind, pure, Except.pure]

/-- What a term produced by `h` looks like, with the dtype of its arguments (used for the later
in-place increments). -/
structure Produced (m : Model R) (ae : Int) (a : Arr) (h : SingleTerm R) (γ : Int) (t : Term R) :
    Prop extends TermOk m ae a h γ t where
  fflt : t.fArg.flt = h.phi.flt
  gflt : ∀ g, t.gArg = some g → g.flt = (h.psi.flt || h.phi.flt)

theorem annTerms_ok {m : Model R} {ae : Int} (hm : Sound m ae) {a : Arr}
    (ha : InTruncation m ae a) {h : SingleTerm R} (hd : h.dag = .minus) {row : List Int}
    (hrow : a.rows[h.phononIndex]? = some row) :
    ∃ (ps : List Int) (ts : List (Term R)), annTerms m a h row = .ok ts ∧
      ps.Pairwise (· < ·) ∧ (∀ γ, γ ∈ ps ↔ Possible m ae a h γ) ∧
      List.Forall₂ (Produced m ae a h) ps ts := by
  classical
  have hcl := ha.2.2.toCloud
  have hlt : h.phononIndex < a.rows.length := by
    by_contra hc; rw [List.getElem?_eq_none (by omega)] at hrow; cases hrow
  have hget : ∀ x : Nat, row.getD x 0 = a.get h.phononIndex x := by
    intro x; simp [Arr.get, List.getD_eq_getElem?_getD, hrow]
  have hlen : row.length = a.len := hcl.wf _ (List.mem_of_getElem? hrow)
  -- removal at an occupied site is always possible
  have hposs : ∀ γ, Possible m ae a h γ ↔ 1 ≤ chain a h.phononIndex γ := by
    intro γ
    constructor
    · exact fun hp => hp.1 hd
    · intro hp
      refine ⟨fun _ => hp, ?_⟩
      have h0 : 0 ≤ γ := by
        by_contra hc; rw [chain_of_neg _ _ (by omega)] at hp; omega
      obtain ⟨x, rfl⟩ := Int.eq_ofNat_of_zero_le h0
      obtain ⟨c', s, -, h2, h3, -, -, -, h7⟩ :=
        Config.removePhonon_spec (c := ⟨a, 1, 0⟩) (t := h.phononIndex) (x := x) hcl
          (by simp) (by rw [get_of_chain]; exact hp)
      have hact : Acted a .minus h.phononIndex x c'.arr s := by
        refine ⟨h3, fun t' y => ?_⟩
        rw [h7]; split <;> simp [Dag.delta]; omega
      refine ⟨c'.arr, s, by rw [hd]; exact hact, ?_⟩
      rcases h2 with h2 | h2
      · exact Or.inr (truncation_of_removed ha hact h2)
      · exact Or.inl h2
  have hmain := collectM_sites (P := fun x : Nat => row.getD x 0 ≠ 0)
    (Q := fun (x : Nat) t => Produced m ae a h x t)
    (f := fun (loc : Nat) =>
      let nval := row.getD loc 0
      if nval = 0 then Except.ok none
      else do
        let t ← mkNonIndex m .ann a h (h.coupling * (nval : R))
        let t ← step t (loc : Int)
        finishTerm m t)
    (xs := List.range row.length) ?_
  · obtain ⟨ts, h1, h2⟩ := hmain
    refine ⟨((List.range row.length).filter (fun x : Nat => row.getD x 0 ≠ 0)).map Int.ofNat, ts,
      h1, ?_, ?_, ?_⟩
    · rw [List.pairwise_map]
      exact (List.pairwise_lt_range.filter _).imp (fun h => by simpa using h)
    · intro γ
      rw [hposs]
      simp only [List.mem_map, List.mem_filter, List.mem_range, decide_eq_true_eq]
      constructor
      · rintro ⟨x, ⟨-, hx⟩, rfl⟩
        rw [hget] at hx
        have := Proper.get_nonneg hcl.toProper h.phononIndex x
        show 1 ≤ chain a h.phononIndex (x : Int)
        rw [get_eq_chain]; omega
      · intro hp
        have h0 : 0 ≤ γ := by
          by_contra hc; rw [chain_of_neg _ _ (by omega)] at hp; omega
        obtain ⟨x, rfl⟩ := Int.eq_ofNat_of_zero_le h0
        rw [get_eq_chain] at hp
        refine ⟨x, ⟨?_, by rw [hget]; omega⟩, rfl⟩
        by_contra hc
        rw [WF.get_oob hcl.wf _ (by omega)] at hp; omega
    · rw [List.forall₂_map_left_iff]; exact h2
  · intro x hx
    constructor
    · intro hne
      simp only [hne, if_false]
      have hocc : 1 ≤ a.get h.phononIndex x := by
        rw [hget] at hne
        have := Proper.get_nonneg hcl.toProper h.phononIndex x
        omega
      obtain ⟨c', s, h1, h2, h3, -, -, -, h7⟩ :=
        Config.removePhonon_spec (c := ⟨a, 1, 0⟩) (t := h.phononIndex) (x := x) hcl
          (by simp) hocc
      have hact : Acted a .minus h.phononIndex x c'.arr s := by
        refine ⟨h3, fun t' y => ?_⟩
        rw [h7]; split <;> simp [Dag.delta]; omega
      let t₁ : Term R :=
        { kind := .ann, config := c'.arr, hterm := h, pref := h.coupling * ((row.getD x 0 : Int) : R),
          expShift := ⟨true, 0 - 2 * s⟩, fArg := ⟨h.phi.flt, h.phi.tw - 2 * x + 2 * s⟩,
          gArg := some ⟨h.psi.flt || h.phi.flt, h.psi.tw - h.phi.tw + 2 * x⟩,
          freqShift := energy m a }
      have hstep : (do
          let t ← mkNonIndex m .ann a h (h.coupling * ((row.getD x 0 : Int) : R))
          let t ← step t (x : Int)
          finishTerm m t) = finishTerm m t₁ := by
        rw [mkNonIndex_ok hm ha]
        simp [step, Num.iadd, Num.isub, Num.sub, Num.int, h1, bind, Except.bind, pure, Except.pure,
          t₁]
      rw [hstep]
      have hpref : t₁.pref = h.coupling * ((chain a h.phononIndex x : Int) : R) := by
        rw [get_eq_chain, ← hget]
      rcases h2 with h2 | h2
      · have htr := truncation_of_removed ha hact h2
        have hfin := (finishTerm_cloud hm.toListsOk (t := t₁) h2 htr.2.1).1
          ⟨htr.2.2.toCloud, htr.2.2.capOk, htr.2.2.extentOk, by simp⟩
        refine ⟨t₁, hfin, ⟨rfl, by rw [hd], by rw [hd]; exact hpref,
          ⟨_, rfl, by simp only; omega⟩, rfl, Or.inl ⟨htr, s, by rw [hd]; exact hact, rfl, ?_⟩⟩, rfl, ?_⟩
        · show 0 - 2 * s = -(2 * s); omega
        · intro g hg; cases hg; rfl
      · obtain ⟨t', k1, k2, k3, k4, k5, k6, k7, k8, k9, k10⟩ :=
          finishTerm_vacuum (m := m) (t := t₁) h2 rfl
        refine ⟨t', k1, ⟨by rw [k6], by rw [k5, hd], by rw [k7, hd]; exact hpref,
          ⟨_, k8, by simp only; omega⟩, k9, Or.inr ⟨by rw [k4]; exact h2, ?_, k2, ?_⟩⟩, k10, ?_⟩
        · rw [k4, hd]
          refine ⟨h3, fun t' y => ?_⟩
          have := hact.2 t' y
          rw [h2.empty] at this
          rw [← this, h2.empty]
        · rw [k3]; show 0 - 2 * s + (h.phi.tw - 2 * x + 2 * s) = _; omega
        · intro g hg; rw [k8] at hg; cases hg; rfl
    · intro hz
      have : row.getD x 0 = 0 := not_not.1 hz
      simp only [this, if_true]

theorem chain_nonneg {a : Arr} (h : Proper a) (t : Nat) (y : Int) : 0 ≤ chain a t y := by
  rw [chain_eq]; split
  · exact Proper.get_nonneg h _ _
  · exact le_refl _

theorem creTerms_ok {m : Model R} {ae : Int} (hm : Sound m ae) {a : Arr}
    (ha : InTruncation m ae a) {h : SingleTerm R} (hd : h.dag = .plus) {row : List Int}
    (hrow : a.rows[h.phononIndex]? = some row) :
    ∃ (ps : List Int) (ts : List (Term R)), creTerms m a h row = .ok ts ∧
      ps.Pairwise (· < ·) ∧ (∀ γ, γ ∈ ps ↔ Possible m ae a h γ) ∧
      List.Forall₂ (Produced m ae a h) ps ts := by
  classical
  have hcl := ha.2.2.toCloud
  have hlt : h.phononIndex < a.rows.length := by
    by_contra hc; rw [List.getElem?_eq_none (by omega)] at hrow; cases hrow
  obtain ⟨cap, hcap, hcap'⟩ := ha.2.2.numberOk m.number rfl h.phononIndex hlt
  have hrs : typeTotal a h.phononIndex = row.sum := by
    simp [typeTotal, List.getD_eq_getElem?_getD, hrow]
  have hpos := hcl.pos
  have hlen := ha.1
  -- the result of the addition
  choose c' s a1 a2 a3 a4 a5 a6 a7 a8 using fun γ : Int =>
    Config.addPhonon_spec (c := ⟨a, 1, 0⟩) hcl.wf (by simp) hlt γ
  have hc' : ∀ γ, Cloud (c' γ).arr := fun γ => add_cloud (Or.inl hcl) hlt (a1 γ)
  have hact : ∀ γ, Acted a .plus h.phononIndex γ (c' γ).arr (-(s γ)) := by
    intro γ
    refine ⟨a3 γ, fun t' y => ?_⟩
    rw [show y - -(s γ) = y + s γ by omega, a8]; rfl
  have huniq : ∀ γ b o, Acted a .plus h.phononIndex γ b o → Cloud b →
      b = (c' γ).arr ∧ o = -(s γ) := by
    intro γ b o hb hbc
    obtain ⟨e1, e2⟩ := cloud_unique (d := s γ + o) hbc (hc' γ)
      (by rw [show (c' γ).arr.nTypes = a.rows.length from a3 γ]; exact hb.1) (by
        intro t y
        have h1 := (hact γ).2 t (y + o)
        have h2 := hb.2 t (y + o)
        rw [show y + o - o = y by omega] at h2
        rw [h2, ← h1]
        congr 1; omega)
    exact ⟨e2, by omega⟩
  have hnum : ∀ γ t', typeTotal (c' γ).arr t' =
      typeTotal a t' + if t' = h.phononIndex then 1 else 0 :=
    fun γ t' => typeTotal_acted hcl.wf (hc' γ).wf (hact γ) t'
  have hposs : ∀ γ, Possible m ae a h γ ↔ row.sum + 1 ≤ cap ∧ (a.len : Int) - ae ≤ γ ∧
      γ ≤ ae - 1 ∧ Legal m.maxPerSite (some m.extent) none (c' γ).arr := by
    intro γ
    have ha7 := a7 γ
    simp only at ha7
    constructor
    · rintro ⟨-, b, o, hb, hvt⟩
      rw [hd] at hb
      have hbt : InTruncation m ae b := by
        rcases hvt with hv | hv
        · exfalso
          have h1 := hb.2 h.phononIndex γ
          rw [hv.empty] at h1
          simp only [and_self, if_true, Dag.delta] at h1
          have := chain_nonneg hcl.toProper h.phononIndex γ
          omega
        · exact hv
      obtain ⟨rfl, rfl⟩ := huniq γ b o hb hbt.2.2.toCloud
      obtain ⟨l1, l2, l3⟩ := hbt
      obtain ⟨n, n1, n2⟩ := l3.numberOk _ rfl h.phononIndex (by rw [l2]; rw [← ha.2.1]; exact hlt)
      rw [hcap] at n1; cases n1
      rw [hnum, if_pos rfl, hrs] at n2
      exact ⟨n2, by omega, by omega, l3.toCloud, l3.capOk, l3.extentOk, by simp⟩
    · rintro ⟨p1, p2, p3, p4⟩
      refine ⟨by rw [hd]; simp, (c' γ).arr, -(s γ), by rw [hd]; exact hact γ, Or.inr ⟨by omega,
        by rw [(hact γ).1, ha.2.1], p4.toCloud, p4.capOk, p4.extentOk, ?_⟩⟩
      intro N hN t' ht'
      cases hN
      obtain ⟨n, n1, n2⟩ := ha.2.2.numberOk m.number rfl t' (by rw [← (hact γ).1]; exact ht')
      refine ⟨n, n1, ?_⟩
      rw [hnum]
      by_cases e : t' = h.phononIndex
      · subst e
        rw [hcap] at n1; cases n1
        rw [if_pos rfl, hrs]; exact p1
      · rw [if_neg e]; omega
  have hunf : creTerms m a h row = if row.sum + 1 > cap then .ok [] else
      collectM (fun (i : Nat) => do
            let t ← mkNonIndex m .cre a h h.coupling
            let t ← step t ((i : Int) - ae + a.len)
            finishTerm m t) (List.range (2 * ae - a.len).toNat) := by
    unfold creTerms
    rw [hcap, hm.absExtent]
    simp only
    rw [if_neg (by omega : ¬ (a.len : Int) > ae)]
  by_cases hgt : row.sum + 1 > cap
  · refine ⟨[], [], by rw [hunf, if_pos hgt], List.Pairwise.nil, ?_, List.Forall₂.nil⟩
    intro γ
    rw [hposs]
    constructor
    · intro h; simp at h
    · rintro ⟨h1, -⟩; omega
  · have hmain := collectM_sites
      (P := fun i : Nat => Possible m ae a h ((i : Int) - ae + a.len))
      (Q := fun (i : Nat) t => Produced m ae a h ((i : Int) - ae + a.len) t)
      (f := fun (i : Nat) => do
            let t ← mkNonIndex m .cre a h h.coupling
            let t ← step t ((i : Int) - ae + a.len)
            finishTerm m t)
      (xs := List.range (2 * ae - a.len).toNat) ?_
    · obtain ⟨ts, h1, h2⟩ := hmain
      refine ⟨((List.range (2 * ae - a.len).toNat).filter
        (fun i : Nat => Possible m ae a h ((i : Int) - ae + a.len))).map
          (fun i : Nat => (i : Int) - ae + a.len), ts, by rw [hunf, if_neg hgt]; exact h1,
        ?_, ?_, ?_⟩
      · rw [List.pairwise_map]
        exact (List.pairwise_lt_range.filter _).imp (fun h => by omega)
      · intro γ
        simp only [List.mem_map, List.mem_filter, List.mem_range, decide_eq_true_eq]
        constructor
        · rintro ⟨i, ⟨-, hi⟩, rfl⟩; exact hi
        · intro hp
          have hp' := (hposs γ).1 hp
          refine ⟨(γ + ae - a.len).toNat, ⟨by omega, ?_⟩, by omega⟩
          rwa [show (((γ + ae - a.len).toNat : Nat) : Int) - ae + a.len = γ by omega]
      · rw [List.forall₂_map_left_iff]; exact h2
    · intro i hi
      have hi' := List.mem_range.1 hi
      generalize hγ : (i : Int) - ae + a.len = γ
      let t₁ : Term R :=
        { kind := .cre, config := (c' γ).arr, hterm := h, pref := h.coupling,
          expShift := .int (s γ), fArg := ⟨h.phi.flt, h.phi.tw - 2 * γ - 2 * s γ⟩,
          gArg := some ⟨h.psi.flt || h.phi.flt, h.psi.tw - h.phi.tw + 2 * γ⟩,
          freqShift := energy m a }
      have hstep : (do
          let t ← mkNonIndex m .cre a h h.coupling
          let t ← step t γ
          finishTerm m t) = finishTerm m t₁ := by
        rw [mkNonIndex_ok hm ha]
        simp [step, Num.iadd, Num.isub, Num.sub, Num.int, a1, bind, Except.bind, pure, Except.pure,
          t₁]
      rw [hstep]
      have hn : (c' γ).arr.rows.length = m.nTypes := by rw [(hact γ).1, ha.2.1]
      obtain ⟨f1, f2⟩ := finishTerm_cloud hm.toListsOk (t := t₁) (hc' γ) hn
      constructor
      · intro hp
        refine ⟨t₁, f1 ((hposs γ).1 hp).2.2.2, ⟨rfl, by rw [hd], by rw [hd],
          ⟨_, rfl, by simp only; omega⟩, rfl, Or.inl ⟨?_, -(s γ), by rw [hd]; exact hact γ, ?_, ?_⟩⟩,
          rfl, ?_⟩
        · obtain ⟨-, b, o, hb, hvt⟩ := hp
          rw [hd] at hb
          rcases hvt with hv | hv
          · exfalso
            have h1 := hb.2 h.phononIndex γ
            rw [hv.empty] at h1
            simp only [and_self, if_true, Dag.delta] at h1
            have := chain_nonneg hcl.toProper h.phononIndex γ
            omega
          · obtain ⟨rfl, -⟩ := huniq γ b o hb hv.2.2.toCloud
            exact hv
        · show h.phi.tw - 2 * γ - 2 * s γ = h.phi.tw - 2 * γ + 2 * -(s γ); omega
        · show 2 * s γ = -(2 * -(s γ)); omega
        · intro g hg; cases hg; rfl
      · intro hnp
        apply f2
        intro hl
        exact hnp ((hposs γ).2 ⟨by omega, by omega, by omega, hl⟩)

/-- the right-hand side, Hamiltonian term by Hamiltonian term -/
def Rhs (m : Model R) (ae : Int) (a : Arr) (hs : List (SingleTerm R)) (ts : List (Term R)) : Prop :=
  ∃ tss : List (List (Term R)), ts = tss.flatten ∧
    List.Forall₂ (fun h th => ∃ ps : List Int, ps.Pairwise (· < ·) ∧
      (∀ γ, γ ∈ ps ↔ Possible m ae a h γ) ∧ List.Forall₂ (Produced m ae a h) ps th) hs tss

theorem initTerms_ok {m : Model R} {ae : Int} (hm : Sound m ae) {a : Arr}
    (ha : InTruncation m ae a) : ∀ (hs : List (SingleTerm R)), (∀ h ∈ hs, h.phononIndex < m.nTypes) →
    ∃ ts, initTerms m a hs = .ok ts ∧ Rhs m ae a hs ts
  | [], _ => ⟨[], rfl, [], rfl, List.Forall₂.nil⟩
  | h :: hs, hidx => by
    obtain ⟨ts, h1, tss, h2, h3⟩ := initTerms_ok hm ha hs (fun x hx => hidx x (List.mem_cons_of_mem _ hx))
    have hlt : h.phononIndex < a.rows.length := by
      rw [ha.2.1]; exact hidx h List.mem_cons_self
    have hrow := List.getElem?_eq_getElem hlt
    have hex : ∃ (ps : List Int) (th : List (Term R)),
        (match h.dag with
          | .minus => annTerms m a h (a.rows[h.phononIndex]'hlt)
          | .plus => creTerms m a h (a.rows[h.phononIndex]'hlt)) = .ok th ∧
        ps.Pairwise (· < ·) ∧ (∀ γ, γ ∈ ps ↔ Possible m ae a h γ) ∧
        List.Forall₂ (Produced m ae a h) ps th := by
      cases hd : h.dag with
      | minus => exact annTerms_ok hm ha hd hrow
      | plus => exact creTerms_ok hm ha hd hrow
    obtain ⟨ps, th, k1, k2, k3, k4⟩ := hex
    refine ⟨th ++ ts, ?_, th :: tss, by simp [h2], List.Forall₂.cons ⟨ps, k2, k3, k4⟩ h3⟩
    simp only [initTerms, hrow]
    cases hd : h.dag <;> simp only [hd] at k1 <;>
      simp [k1, h1, bind, Except.bind, pure, Except.pure]

theorem mkEquation_ok {m : Model R} {ae : Int} (hm : Sound m ae) {a : Arr}
    (ha : InTruncation m ae a) :
    ∃ ts, mkEquation m a = .ok ⟨false, a, none, ts, populate ts⟩ ∧ Rhs m ae a m.ham.terms ts := by
  obtain ⟨ts, h1, h2⟩ := initTerms_ok hm ha m.ham.terms hm.index
  exact ⟨ts, by simp [mkEquation, validate_cloud ha.2.2.toCloud, h1, bind, Except.bind, pure,
    Except.pure], h2⟩

end GGCE
