import Verif.Proofs.RhsND

/-! The equations in `d` dimensions. -/

set_option linter.unusedSectionVars false

namespace GGCE
open Spec NArr
variable {d : Nat} {R : Type} [Field R] [LinearOrder R]

/-- removal of an existing phonon, on the lattice -/
theorem removedND {a : NArr d} (hc : CloudND a) {t : Nat} {γ : Fin d → Int}
    (hocc : 1 ≤ lattice a t γ) :
    ∃ c' r, NConfig.removePhonon ⟨a, 1, 0⟩ ((t : Int) :: List.ofFn γ) = .ok (c', r) ∧
      ActedND a .minus t γ c'.arr (r.getD (fun _ => 0)) ∧
      (CloudND c'.arr ∨ (VacuumND c'.arr ∧ r = none)) := by
  obtain ⟨c', r, h1, h2, -, -, -, h3, h4⟩ :=
    nRemovePhonon_spec (c := ⟨a, 1, 0⟩) hc (by simp) (t := t) (x := γ) (by omega : lattice a t γ ≠ 0)
  refine ⟨c', r, h1, ⟨h2, fun t' y => ?_⟩, h4.imp And.left id⟩
  rw [h3]; split <;> simp [Dag.delta]; omega

theorem possibleND_minus {m : Model R} {ae : Int} {a : NArr d} (ha : InTruncationND m ae a)
    {h : SingleTerm R} (hdag : h.dag = .minus) (γ : Fin d → Int) :
    PossibleND m ae a h γ ↔ 1 ≤ lattice a h.phononIndex γ := by
  constructor
  · exact fun hp => hp.1 hdag
  · intro hp
    obtain ⟨c', r, -, h2, h3⟩ := removedND ha.2.2.toCloudND hp
    refine ⟨fun _ => hp, c'.arr, _, by rw [hdag]; exact h2, ?_⟩
    rcases h3 with h3 | h3
    · exact Or.inr (truncationND_of_removed ha h2 h3)
    · exact Or.inl h3.1

theorem annTermsND_ok (hd : 0 < d) {m : Model R} {ae : Int} (hm : SoundND m d ae) {a : NArr d}
    (ha : InTruncationND m ae a) {h : SingleTerm R} (hh : h ∈ m.ham.terms) (hdag : h.dag = .minus) :
    ∃ (ps : List (Fin d → Int)) (ts : List (NTerm R d)),
      annTermsND m a (HTerm.ofSingle m.ham.dimension h) = .ok ts ∧
      ps.Nodup ∧ (∀ γ, γ ∈ ps ↔ PossibleND m ae a h γ) ∧
      List.Forall₂ (TermOkND m ae a h) ps ts := by
  classical
  have hcl := ha.2.2.toCloudND
  have hbase : (HTerm.ofSingle m.ham.dimension h).base = h := by
    unfold HTerm.ofSingle; split <;> rfl
  have hlt : h.phononIndex < a.types := by rw [ha.2.1]; exact hm.index h hh
  unfold annTermsND
  rw [hbase]
  have hmain := collectM_sites (P := fun i : Fin d → Nat => a.val h.phononIndex i ≠ 0)
    (Q := fun (i : Fin d → Nat) t => TermOkND m ae a h (fun j => (i j : Int)) t)
    (f := fun (loc : Fin d → Nat) =>
      let nval := a.val h.phononIndex loc
      if nval = 0 then Except.ok none
      else do
        let t ← mkNonIndexND m .ann a (HTerm.ofSingle m.ham.dimension h) (h.coupling * (nval : R))
        let t ← stepND t (fun j => (loc j : Int))
        finishTermND m t)
    (xs := indices a.shape) ?_
  · obtain ⟨ts, h1, h2⟩ := hmain
    refine ⟨((indices a.shape).filter (fun i => a.val h.phononIndex i ≠ 0)).map
      (fun i j => ((i j : Nat) : Int)), ts, h1, ?_, ?_, ?_⟩
    · refine List.Nodup.map ?_ ((nodup_indices _).filter _)
      intro i i' e
      funext j
      simpa using congrFun e j
    · intro γ
      rw [possibleND_minus ha hdag]
      simp only [List.mem_map, List.mem_filter, decide_eq_true_eq, mem_indices]
      constructor
      · rintro ⟨i, ⟨hi, hv⟩, rfl⟩
        have e := lattice_nat a hlt (mem_sites.2 hi)
        have := hcl.nonneg h.phononIndex (fun j => (i j : Int))
        omega
      · intro hp
        obtain ⟨i, hi, -, rfl, ev⟩ := lattice_site (show lattice a h.phononIndex γ ≠ 0 by omega)
        exact ⟨i, ⟨mem_sites.1 hi, by omega⟩, rfl⟩
    · rw [List.forall₂_map_left_iff]; exact h2
  · intro i hi
    have hi' : i ∈ sites a.shape := mem_sites.2 (mem_indices.1 hi)
    have hval := lattice_nat a hlt hi'
    constructor
    · intro hne
      simp only [hne, if_false]
      have hocc : 1 ≤ lattice a h.phononIndex (fun j => (i j : Int)) := by
        have := hcl.nonneg h.phononIndex (fun j => (i j : Int))
        omega
      obtain ⟨c', r, h1, hact, h2⟩ := removedND hcl hocc
      let t₁ : NTerm R d :=
        { kind := .ann, config := c'.arr, hterm := HTerm.ofSingle m.ham.dimension h,
          pref := h.coupling * ((a.val h.phononIndex i : Int) : R),
          expShift := ⟨true, fun j => 0 - 2 * r.getD (fun _ => 0) j⟩,
          fArg := ⟨false, fun j => 0 - 2 * (i j : Int) + 2 * r.getD (fun _ => 0) j⟩,
          gArg := ⟨false, fun j => 0 + 2 * (i j : Int)⟩,
          freqShift := energyND m a }
      have hstep : (do
          let t ← mkNonIndexND m .ann a (HTerm.ofSingle m.ham.dimension h)
            (h.coupling * ((a.val h.phononIndex i : Int) : R))
          let t ← stepND t (fun j => (i j : Int))
          finishTermND m t) = finishTermND m t₁ := by
        rw [mkNonIndexND_ok hm hd ha _ hh]
        simp [stepND, NNum.iadd, NNum.isub, NNum.int, hbase, h1, bind, Except.bind, pure,
          Except.pure, t₁]
      rw [hstep]
      have hpref : t₁.pref =
          h.coupling * ((lattice a h.phononIndex (fun j => (i j : Int)) : Int) : R) := by
        rw [hval]
      rcases h2 with h2 | ⟨h2, hr⟩
      · have htr := truncationND_of_removed ha hact h2
        have hfin := (finishTermND_cloud hd hm.toListsOk (t := t₁) h2 htr.2.1).1
          ⟨htr.2.2.toCloudND, htr.2.2.capOk, htr.2.2.extentOk, by simp⟩
        refine ⟨t₁, hfin, hbase, by rw [hdag], by rw [hdag]; exact hpref, ?_, rfl,
          Or.inl ⟨htr, _, by rw [hdag]; exact hact, ?_, ?_⟩⟩
        · intro j; show 0 + 2 * (i j : Int) = _; omega
        · intro j; show 0 - 2 * (i j : Int) + 2 * _ = _; omega
        · intro j; show 0 - 2 * _ = _; omega
      · subst hr
        obtain ⟨t', k1, k2, k3, k4, k5, k6, k7, k8, k9⟩ :=
          finishTermND_vacuum hd (m := m) (t := t₁) h2 rfl
        refine ⟨t', k1, by rw [k6]; exact hbase, by rw [k5, hdag], by rw [k7, hdag]; exact hpref,
          ?_, k9, Or.inr ⟨by rw [k4]; exact h2, by rw [k4, hdag]; exact hact, k2, ?_⟩⟩
        · intro j; rw [k8]; show 0 + 2 * (i j : Int) = _; omega
        · intro j; rw [k3]
          show 0 - 2 * (0 : Int) + (0 - 2 * (i j : Int) + 2 * 0) = _; omega
    · intro hz
      have : a.val h.phononIndex i = 0 := not_not.1 hz
      simp only [this, if_true]

theorem creTermsND_ok (hd : 0 < d) {m : Model R} {ae : Int} (hm : SoundND m d ae) {a : NArr d}
    (ha : InTruncationND m ae a) {h : SingleTerm R} (hh : h ∈ m.ham.terms) (hdag : h.dag = .plus) :
    ∃ (ps : List (Fin d → Int)) (ts : List (NTerm R d)),
      creTermsND m a (HTerm.ofSingle m.ham.dimension h) = .ok ts ∧
      ps.Nodup ∧ (∀ γ, γ ∈ ps ↔ PossibleND m ae a h γ) ∧
      List.Forall₂ (TermOkND m ae a h) ps ts := by
  classical
  have hcl := ha.2.2.toCloudND
  have hbase : (HTerm.ofSingle m.ham.dimension h).base = h := by
    unfold HTerm.ofSingle; split <;> rfl
  have hlt : h.phononIndex < a.types := by rw [ha.2.1]; exact hm.index h hh
  obtain ⟨cap, hcap, hcap'⟩ := ha.2.2.numberOk m.number rfl h.phononIndex hlt
  have hrs := typeTotalND_eq a hlt
  have hlen := ha.1
  choose c' s a1 a2 a3 a4 a5 a6 a7 using fun γ : Fin d → Int =>
    nAddPhonon_spec (c := ⟨a, 1, 0⟩) (by simp) hlt γ
  have hc' : ∀ γ, CloudND (c' γ).arr := fun γ => nAdd_cloud hcl (a6 γ) (a5 γ) (a7 γ)
  have hact : ∀ γ, ActedND a .plus h.phononIndex γ (c' γ).arr (fun j => -(s γ j)) := by
    intro γ
    refine ⟨a2 γ, fun t' y => ?_⟩
    simp only [sub_neg_eq_add]
    rw [a7]; rfl
  have huniq : ∀ γ b o, ActedND a .plus h.phononIndex γ b o → CloudND b →
      SameND b (c' γ).arr := by
    intro γ b o hb hbc
    have key : ∀ t y, lattice (c' γ).arr t (fun j => y j + (o j + s γ j)) = lattice b t y := by
      intro t y
      have h1 := (hact γ).2 t (fun j => y j + o j)
      have h2 := hb.2 t (fun j => y j + o j)
      simp only [add_sub_cancel_right, sub_neg_eq_add] at h1 h2
      rw [h2, ← h1]
      congr 1; funext j; omega
    obtain ⟨e1, e2⟩ := cloudND_unique hbc (hc' γ) key
    refine ⟨by rw [hb.1, (hact γ).1], e2, fun t x => ?_⟩
    rw [← key]
    congr 1; funext j; rw [e1]; omega
  have hnum : ∀ γ t', typeTotalND (c' γ).arr t' =
      typeTotalND a t' + if t' = h.phononIndex then 1 else 0 :=
    fun γ t' => typeTotalND_acted (hact γ) t'
  have hposs : ∀ γ, PossibleND m ae a h γ ↔ InTruncationND m ae (c' γ).arr := by
    intro γ
    constructor
    · rintro ⟨-, b, o, hb, hvt⟩
      rw [hdag] at hb
      rcases hvt with hv | hv
      · exfalso
        have h1 := hb.2 h.phononIndex γ
        rw [hv.empty] at h1
        simp only [and_self, if_true, Dag.delta] at h1
        have := hcl.nonneg h.phononIndex γ
        omega
      · exact inTruncationND_same (huniq γ b o hb hv.2.2.toCloudND) hv
    · intro hp
      exact ⟨by rw [hdag]; simp, (c' γ).arr, _, by rw [hdag]; exact hact γ, Or.inr hp⟩
  have htr : ∀ γ, InTruncationND m ae (c' γ).arr ↔ typeTotalND a h.phononIndex + 1 ≤ cap ∧
      (∀ j, (a.shape j : Int) - ae ≤ γ j ∧ γ j ≤ ae - 1) ∧
      LegalND firstAxis m.maxPerSite (some m.extent) none (c' γ).arr := by
    intro γ
    have ha6 := a6 γ
    simp only at ha6
    constructor
    · rintro ⟨l1, l2, l3⟩
      obtain ⟨n, n1, n2⟩ := l3.numberOk _ rfl h.phononIndex (by rw [l2, ← ha.2.1]; exact hlt)
      rw [hcap] at n1; cases n1
      rw [hnum, if_pos rfl] at n2
      refine ⟨n2, fun j => ?_, l3.toCloudND, l3.capOk, l3.extentOk, by simp⟩
      have := ha6 j; have := l1 j
      omega
    · rintro ⟨p1, p2, p4⟩
      refine ⟨fun j => ?_, by rw [(hact γ).1, ha.2.1], p4.toCloudND, p4.capOk, p4.extentOk, ?_⟩
      · have := ha6 j; have := p2 j; have := hlen j
        have := cloudND_pos hcl j
        omega
      · intro N hN t' ht'
        cases hN
        obtain ⟨n, n1, n2⟩ := ha.2.2.numberOk m.number rfl t' (by rw [← (hact γ).1]; exact ht')
        refine ⟨n, n1, ?_⟩
        rw [hnum]
        by_cases e : t' = h.phononIndex
        · subst e
          rw [hcap] at n1; cases n1
          rw [if_pos rfl]; exact p1
        · rw [if_neg e]; omega
  have hunf : creTermsND m a (HTerm.ofSingle m.ham.dimension h) =
      if typeTotalND a h.phononIndex + 1 > cap then .ok [] else
      collectM (fun i => do
            let t ← mkNonIndexND m .cre a (HTerm.ofSingle m.ham.dimension h) h.coupling
            let t ← stepND t (fun j => (i j : Int) - ae + a.shape j)
            finishTermND m t) (indices (fun j => (2 * ae - a.shape j).toNat)) := by
    unfold creTermsND
    rw [hbase, hcap, hm.absExtent, hrs]
    simp only
    rw [if_neg (by push Not; exact hlen : ¬ ∃ j, (a.shape j : Int) > ae)]
  by_cases hgt : typeTotalND a h.phononIndex + 1 > cap
  · refine ⟨[], [], by rw [hunf, if_pos hgt], List.nodup_nil, ?_, List.Forall₂.nil⟩
    intro γ
    rw [hposs, htr]
    constructor
    · intro h; simp at h
    · rintro ⟨h1, -⟩; omega
  · have hmain := collectM_sites
      (P := fun i : Fin d → Nat => PossibleND m ae a h (fun j => (i j : Int) - ae + a.shape j))
      (Q := fun (i : Fin d → Nat) t => TermOkND m ae a h (fun j => (i j : Int) - ae + a.shape j) t)
      (f := fun (i : Fin d → Nat) => do
            let t ← mkNonIndexND m .cre a (HTerm.ofSingle m.ham.dimension h) h.coupling
            let t ← stepND t (fun j => (i j : Int) - ae + a.shape j)
            finishTermND m t)
      (xs := indices (fun j => (2 * ae - a.shape j).toNat)) ?_
    · obtain ⟨ts, h1, h2⟩ := hmain
      refine ⟨((indices (fun j => (2 * ae - a.shape j).toNat)).filter
        (fun i : Fin d → Nat => PossibleND m ae a h (fun j => (i j : Int) - ae + a.shape j))).map
          (fun i j => (i j : Int) - ae + a.shape j), ts, by rw [hunf, if_neg hgt]; exact h1,
        ?_, ?_, ?_⟩
      · refine List.Nodup.map ?_ ((nodup_indices _).filter _)
        intro i i' e
        funext j
        have := congrFun e j
        simp only at this
        omega
      · intro γ
        simp only [List.mem_map, List.mem_filter, mem_indices, decide_eq_true_eq]
        constructor
        · rintro ⟨i, ⟨-, hi⟩, rfl⟩; exact hi
        · intro hp
          have hp' := ((htr γ).1 ((hposs γ).1 hp)).2.1
          have e : (fun j => (((γ j + ae - a.shape j).toNat : Nat) : Int) - ae + a.shape j) = γ := by
            funext j; have := hp' j; omega
          refine ⟨fun j => (γ j + ae - a.shape j).toNat, ⟨fun j => ?_, by rw [e]; exact hp⟩, e⟩
          have := hp' j; have := hlen j; simp only; omega
      · rw [List.forall₂_map_left_iff]; exact h2
    · intro i hi
      have hi' := mem_indices.1 hi
      have hrange : ∀ j, (a.shape j : Int) - ae ≤ (fun j => (i j : Int) - ae + a.shape j) j ∧
          (fun j => (i j : Int) - ae + a.shape j) j ≤ ae - 1 := by
        intro j; have := hi' j; simp only; omega
      generalize (fun j => (i j : Int) - ae + a.shape j) = γ at hrange ⊢
      let t₁ : NTerm R d :=
        { kind := .cre, config := (c' γ).arr, hterm := HTerm.ofSingle m.ham.dimension h,
          pref := h.coupling, expShift := .int (s γ),
          fArg := ⟨false, fun j => 0 - 2 * γ j - 2 * s γ j⟩,
          gArg := ⟨false, fun j => 0 + 2 * γ j⟩, freqShift := energyND m a }
      have hstep : (do
          let t ← mkNonIndexND m .cre a (HTerm.ofSingle m.ham.dimension h) h.coupling
          let t ← stepND t γ
          finishTermND m t) = finishTermND m t₁ := by
        rw [mkNonIndexND_ok hm hd ha _ hh]
        simp [stepND, NNum.iadd, NNum.isub, NNum.int, hbase, a1, bind, Except.bind, pure,
          Except.pure, t₁]
      rw [hstep]
      have hn : (c' γ).arr.types = m.nTypes := by rw [(hact γ).1, ha.2.1]
      obtain ⟨f1, f2⟩ := finishTermND_cloud hd hm.toListsOk (t := t₁) (hc' γ) hn
      constructor
      · intro hp
        have hp' := (hposs γ).1 hp
        refine ⟨t₁, f1 ((htr γ).1 hp').2.2, hbase, by rw [hdag], by rw [hdag], ?_, rfl,
          Or.inl ⟨hp', _, by rw [hdag]; exact hact γ, ?_, ?_⟩⟩
        · intro j; show 0 + 2 * γ j = _; omega
        · intro j; show 0 - 2 * γ j - 2 * s γ j = 2 * (-(s γ j) - γ j); omega
        · intro j; show 2 * s γ j = -(2 * -(s γ j)); omega
      · intro hnp
        apply f2
        intro hl
        exact hnp ((hposs γ).2 ((htr γ).2 ⟨by omega, hrange, hl⟩))

/-- the right-hand side, Hamiltonian term by Hamiltonian term -/
def RhsND (m : Model R) (ae : Int) (a : NArr d) (hs : List (SingleTerm R))
    (ts : List (NTerm R d)) : Prop :=
  ∃ tss : List (List (NTerm R d)), ts = tss.flatten ∧
    List.Forall₂ (fun h th => ∃ ps : List (Fin d → Int), ps.Nodup ∧
      (∀ γ, γ ∈ ps ↔ PossibleND m ae a h γ) ∧ List.Forall₂ (TermOkND m ae a h) ps th) hs tss

theorem initTermsND_ok (hd : 0 < d) {m : Model R} {ae : Int} (hm : SoundND m d ae) {a : NArr d}
    (ha : InTruncationND m ae a) : ∀ (hs : List (SingleTerm R)), (∀ h ∈ hs, h ∈ m.ham.terms) →
    ∃ ts, initTermsND m a (hs.map (HTerm.ofSingle m.ham.dimension)) = .ok ts ∧ RhsND m ae a hs ts
  | [], _ => ⟨[], rfl, [], rfl, List.Forall₂.nil⟩
  | h :: hs, hin => by
    obtain ⟨ts, h1, tss, h2, h3⟩ :=
      initTermsND_ok hd hm ha hs (fun x hx => hin x (List.mem_cons_of_mem _ hx))
    have hh := hin h List.mem_cons_self
    have hlt : h.phononIndex < a.types := by rw [ha.2.1]; exact hm.index h hh
    have hbase : (HTerm.ofSingle m.ham.dimension h).base = h := by
      unfold HTerm.ofSingle; split <;> rfl
    have hex : ∃ (ps : List (Fin d → Int)) (th : List (NTerm R d)),
        (match h.dag with
          | .minus => annTermsND m a (HTerm.ofSingle m.ham.dimension h)
          | .plus => creTermsND m a (HTerm.ofSingle m.ham.dimension h)) = .ok th ∧
        ps.Nodup ∧ (∀ γ, γ ∈ ps ↔ PossibleND m ae a h γ) ∧
        List.Forall₂ (TermOkND m ae a h) ps th := by
      cases hdag : h.dag with
      | minus => exact annTermsND_ok hd hm ha hh hdag
      | plus => exact creTermsND_ok hd hm ha hh hdag
    obtain ⟨ps, th, k1, k2, k3, k4⟩ := hex
    refine ⟨th ++ ts, ?_, th :: tss, by simp [h2], List.Forall₂.cons ⟨ps, k2, k3, k4⟩ h3⟩
    simp only [List.map_cons, initTermsND, hbase, hlt, if_true]
    cases hdag : h.dag <;> simp only [hdag] at k1 <;>
      simp [k1, h1, bind, Except.bind, pure, Except.pure]

theorem mkEquationND_ok (hd : 0 < d) {m : Model R} {ae : Int} (hm : SoundND m d ae) {a : NArr d}
    (ha : InTruncationND m ae a) :
    ∃ ts, mkEquationND m a = .ok ts ∧ RhsND m ae a m.ham.terms ts := by
  obtain ⟨ts, h1, h2⟩ := initTermsND_ok hd hm ha m.ham.terms (fun _ h => h)
  have hcl := ha.2.2.toCloudND
  have hv := (nValidate_spec hd a (cloudND_pos hcl)).1 (Or.inl hcl)
  exact ⟨ts, by simp [mkEquationND, hv, h1, bind, Except.bind], h2⟩

/-! ### shifts of the wrong length -/

theorem mkNonIndexND_error {m : Model R} {kind : Kind} {a : NArr d} {h : HTerm R} {pref : R}
    (hl : h.phi.tw.length ≠ d) {t : NTerm R d} : mkNonIndexND m kind a h pref ≠ .ok t := by
  unfold mkNonIndexND
  cases a.validate with
  | error e => simp [bind, Except.bind]
  | ok u => simp [Vec.fit, hl, bind, Except.bind]

theorem collectM_fails {α β : Type _} {f : α → Py (Option β)} {x : α} : ∀ {xs : List α}, x ∈ xs →
    (∀ y, f x ≠ .ok y) → ∀ ys, collectM f xs ≠ .ok ys
  | y :: xs, hx, hf, ys => by
    rcases List.mem_cons.1 hx with rfl | hx
    · cases hfx : f x with
      | error e => simp [collectM, hfx, bind, Except.bind]
      | ok z => exact absurd hfx (hf z)
    · cases hfy : f y with
      | error e => simp [collectM, hfy, bind, Except.bind]
      | ok z =>
        cases hc : collectM f xs with
        | error e => simp [collectM, hfy, hc, bind, Except.bind]
        | ok zs => exact absurd hc (collectM_fails hx hf zs)

theorem initTermsND_fails {m : Model R} {a : NArr d} {h : HTerm R} : ∀ {hs : List (HTerm R)},
    h ∈ hs → (∀ ts, (match h.base.dag with
        | .minus => annTermsND m a h
        | .plus => creTermsND m a h) ≠ .ok ts) → ∀ ts, initTermsND m a hs ≠ .ok ts
  | g :: hs, hx, hf, ts => by
    unfold initTermsND
    split
    · rcases List.mem_cons.1 hx with rfl | hx
      · revert hf
        cases h.base.dag <;> intro hf <;> simp only at hf ⊢
        · cases hc : creTermsND m a h with
          | error e => simp [bind, Except.bind]
          | ok z => exact absurd hc (hf z)
        · cases hc : annTermsND m a h with
          | error e => simp [bind, Except.bind]
          | ok z => exact absurd hc (hf z)
      · cases g.base.dag <;> simp only
        · cases creTermsND m a g with
          | error e => simp [bind, Except.bind]
          | ok z =>
            cases hc : initTermsND m a hs with
            | error e => simp [bind, Except.bind]
            | ok zs => exact absurd hc (initTermsND_fails hx hf zs)
        · cases annTermsND m a g with
          | error e => simp [bind, Except.bind]
          | ok z =>
            cases hc : initTermsND m a hs with
            | error e => simp [bind, Except.bind]
            | ok zs => exact absurd hc (initTermsND_fails hx hf zs)
    · simp

theorem annTermsND_fails {m : Model R} {a : NArr d} {h : HTerm R}
    (hl : h.phi.tw.length ≠ d) {i : Fin d → Nat} (hi : i ∈ sites a.shape)
    (hocc : a.val h.base.phononIndex i ≠ 0) : ∀ ts, annTermsND m a h ≠ .ok ts := by
  unfold annTermsND
  refine collectM_fails (x := i) (mem_indices.2 (mem_sites.1 hi)) ?_
  intro y
  simp only [hocc, if_false]
  cases hc : mkNonIndexND m .ann a h (h.base.coupling * ((a.val h.base.phononIndex i : Int) : R)) with
  | error e => simp [bind, Except.bind]
  | ok t => exact absurd hc (mkNonIndexND_error hl)

/-! ### the Green's function -/

theorem lattice_one (n k : Nat) (hk : k < n) (t : Nat) (x : Fin d → Int) :
    lattice (⟨n, fun _ => 1, fun t _ => if t = k then 1 else 0⟩ : NArr d) t x =
      if t = k ∧ x = (fun _ => 0) then 1 else 0 := by
  unfold lattice
  simp only
  by_cases h : t < n ∧ ∀ j, 0 ≤ x j ∧ x j < ((1 : Nat) : Int)
  · rw [if_pos h]
    have hx : x = fun _ => 0 := by funext j; have := h.2 j; omega
    simp [hx]
  · rw [if_neg h, if_neg]
    rintro ⟨rfl, rfl⟩
    exact h ⟨hk, fun j => by simp⟩

theorem cloud_one (n k : Nat) (hk : k < n) :
    CloudND (⟨n, fun _ => 1, fun t _ => if t = k then 1 else 0⟩ : NArr d) := by
  have h0 : lattice (⟨n, fun _ => 1, fun t _ => if t = k then 1 else 0⟩ : NArr d) k
      (fun _ => 0) ≠ 0 := by rw [lattice_one n k hk]; simp
  refine ⟨fun t x => ?_, fun j => ⟨k, _, h0, rfl⟩, fun j => ⟨k, _, h0, rfl⟩⟩
  rw [lattice_one n k hk]; split <;> simp

theorem mkGreenND_ok {m : Model R} (hd : 0 < m.ham.dimension)
    (hidx : ∀ h ∈ m.ham.terms, h.phononIndex < m.nTypes) :
    ∃ ts, mkGreenND m = .ok ts ∧ List.Forall₂ (fun (h : SingleTerm R) t =>
      h ∈ m.ham.terms ∧ t = (⟨⟨m.nTypes, fun _ => 1, fun t _ => if t = h.phononIndex then 1 else 0⟩,
        HTerm.ofSingle m.ham.dimension h, h.coupling,
        (HTerm.ofSingle m.ham.dimension h).psi.sub (HTerm.ofSingle m.ham.dimension h).phi,
        (HTerm.ofSingle m.ham.dimension h).phi⟩ : NEom R m.ham.dimension))
      (m.ham.terms.filter (fun h => h.dag = .plus)) ts := by
  have hbase : ∀ h : SingleTerm R, (HTerm.ofSingle m.ham.dimension h).base = h := by
    intro h; unfold HTerm.ofSingle; split <;> rfl
  have hv : (⟨m.nTypes, fun _ => 1, fun _ _ => 0⟩ : NArr m.ham.dimension).validate = .ok () := by
    refine (nValidate_spec hd _ (fun _ => by simp)).1 (Or.inr fun t x => ?_)
    unfold lattice; split <;> rfl
  have hcomp : ∀ hs : List (SingleTerm R),
      collectM (mkEOMND m) (hs.map (HTerm.ofSingle m.ham.dimension)) =
      collectM (fun h => mkEOMND m (HTerm.ofSingle m.ham.dimension h)) hs := by
    intro hs
    induction hs with
    | nil => rfl
    | cons h hs ih => simp [collectM, ih]
  obtain ⟨ts, h1, h2⟩ := collectM_sites (xs := m.ham.terms)
    (P := fun h : SingleTerm R => h.dag = .plus)
    (f := fun h => mkEOMND m (HTerm.ofSingle m.ham.dimension h))
    (Q := fun (h : SingleTerm R) t =>
      h ∈ m.ham.terms ∧ t = (⟨⟨m.nTypes, fun _ => 1, fun t _ => if t = h.phononIndex then 1 else 0⟩,
        HTerm.ofSingle m.ham.dimension h, h.coupling,
        (HTerm.ofSingle m.ham.dimension h).psi.sub (HTerm.ofSingle m.ham.dimension h).phi,
        (HTerm.ofSingle m.ham.dimension h).phi⟩ : NEom R m.ham.dimension)) (by
      intro h hh
      constructor
      · intro hp
        have hv' := (nValidate_spec hd (⟨m.nTypes, fun _ => 1,
          fun t _ => if t = h.phononIndex then 1 else 0⟩ : NArr m.ham.dimension)
          (fun _ => by simp)).1 (Or.inl (cloud_one _ _ (hidx h hh)))
        refine ⟨_, ?_, hh, rfl⟩
        simp [mkEOMND, hbase, hp, hidx h hh, hv', bind, Except.bind, pure, Except.pure]
      · intro hp
        have : h.dag = .minus := by cases hdg : h.dag <;> simp_all
        simp [mkEOMND, hbase, this])
  exact ⟨ts, by simp [mkGreenND, hv, hcomp, h1, bind, Except.bind], h2⟩

/-! ### one dimension -/

theorem typeTotal_toND {a : Arr} (h : a.WF) (t : Nat) : typeTotalND a.toND t = typeTotal a t := by
  rw [typeTotalND_finsum, typeTotal_eq_sum h t (lo := 0) (hi := a.len) le_rfl le_rfl]
  simp only [lattice_toND h]
  rw [show (fun x : Fin 1 → Int => chain a t (x 0)) =
    fun x => chain a t (Equiv.funUnique (Fin 1) Int x) from rfl,
    finsum_comp_equiv (Equiv.funUnique (Fin 1) Int) (f := fun y => chain a t y)]
  refine finsum_eq_sum_of_support_subset _ ?_
  intro y hy
  have := lattice_ne (a := a.toND) (t := t) (x := fun _ => y) (by rw [lattice_toND h]; exact hy)
  have := this.2 0
  simp only [Arr.toND] at this
  simpa using this

theorem inTruncation_toND {m : Model R} {ae : Int} {a : Arr} (ha : Cloud a) :
    InTruncationND m ae a.toND ↔ InTruncation m ae a := by
  have hl := lattice_toND ha.wf
  have hspan : ∀ t mm, (∀ j : Fin 1, firstAxis j → SpanOkND a.toND j t mm) ↔ SpanOk a t mm := by
    intro t mm
    rw [forall_firstAxis (by decide : 0 < 1)]
    unfold SpanOkND SpanOk
    simp only [hl]
    refine and_congr Iff.rfl ⟨fun h x y hx hy => ?_, fun h x y hx hy => h _ _ hx hy⟩
    exact h (fun _ => x) (fun _ => y) hx hy
  constructor
  · rintro ⟨h1, h2, h3⟩
    refine ⟨h1 0, h2, ha, fun c hc t x => ?_, fun M hM t ht => ?_, fun N hN t ht => ?_⟩
    · have := h3.capOk c hc t (fun _ => x)
      rwa [hl] at this
    · obtain ⟨mm, e1, e2⟩ := h3.extentOk M hM t ht
      exact ⟨mm, e1, (hspan t mm).1 e2⟩
    · obtain ⟨n, e1, e2⟩ := h3.numberOk N hN t ht
      exact ⟨n, e1, by rw [← typeTotal_toND ha.wf]; exact e2⟩
  · rintro ⟨h1, h2, h3⟩
    refine ⟨fun _ => h1, h2, cloud_toND ha, fun c hc t x => ?_, fun M hM t ht => ?_,
      fun N hN t ht => ?_⟩
    · rw [hl]; exact h3.capOk c hc t _
    · obtain ⟨mm, e1, e2⟩ := h3.extentOk M hM t ht
      exact ⟨mm, e1, (hspan t mm).2 e2⟩
    · obtain ⟨n, e1, e2⟩ := h3.numberOk N hN t ht
      exact ⟨n, e1, by rw [typeTotal_toND ha.wf]; exact e2⟩

end GGCE
