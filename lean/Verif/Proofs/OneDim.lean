import Verif.Spec.OneDim
import Verif.Proofs.EquationsND
import Verif.Props.ConfigND
import Verif.Proofs.Scale
import Verif.Proofs.System

/-! With one axis the general equations are those of the one-dimensional model. -/

set_option linter.unusedSectionVars false

namespace GGCE
open Spec Arr

variable {R : Type} [Field R] [LinearOrder R]

theorem legal_toND {a : Arr} (ha : Cloud a) {cap : Option Int} {M N : Option (List Int)} :
    LegalND firstAxis cap M N a.toND ↔ Legal cap M N a := by
  have hl := lattice_toND ha.wf
  have hspan : ∀ t mm, (∀ j : Fin 1, firstAxis j → SpanOkND a.toND j t mm) ↔ SpanOk a t mm := by
    intro t mm
    rw [forall_firstAxis (by decide : 0 < 1)]
    unfold SpanOkND SpanOk
    simp only [hl]
    refine and_congr Iff.rfl ⟨fun h x y hx hy => ?_, fun h x y hx hy => h _ _ hx hy⟩
    exact h (fun _ => x) (fun _ => y) hx hy
  constructor
  · intro h3
    refine ⟨ha, fun c hc t x => ?_, fun M hM t ht => ?_, fun N hN t ht => ?_⟩
    · have := h3.capOk c hc t (fun _ => x)
      rwa [hl] at this
    · obtain ⟨mm, e1, e2⟩ := h3.extentOk M hM t ht
      exact ⟨mm, e1, (hspan t mm).1 e2⟩
    · obtain ⟨n, e1, e2⟩ := h3.numberOk N hN t ht
      exact ⟨n, e1, by rw [← typeTotal_toND ha.wf]; exact e2⟩
  · intro h3
    refine ⟨cloud_toND ha, fun c hc t x => ?_, fun M hM t ht => ?_, fun N hN t ht => ?_⟩
    · rw [hl]; exact h3.capOk c hc t _
    · obtain ⟨mm, e1, e2⟩ := h3.extentOk M hM t ht
      exact ⟨mm, e1, (hspan t mm).2 e2⟩
    · obtain ⟨n, e1, e2⟩ := h3.numberOk N hN t ht
      exact ⟨n, e1, by rw [typeTotal_toND ha.wf]; exact e2⟩

theorem totalPerType_toND {a : Arr} (h : a.WF) : a.toND.totalPerType = a.totalPerType := by
  unfold NArr.totalPerType totalPerType
  apply List.ext_getElem
  · simp [Arr.toND]
  · intro i h1 h2
    have hi : i < a.rows.length := by simpa using h2
    simp only [List.getElem_map, List.getElem_range]
    rw [← typeTotalND_eq a.toND hi, typeTotal_toND h]
    simp [typeTotal, List.getD_eq_getElem?_getD, hi]

/-- results of the two models: both are present and equal, or both are absent -/
def SameOpt (x : Option (Term R)) (y : Option (NTerm R 1)) : Prop :=
  match x, y with
  | some t, some n => SameTerm t n
  | none, none => True
  | _, _ => False

theorem collectM_same {α : Type} {f : α → Py (Option (Term R))} {g : α → Py (Option (NTerm R 1))} :
    ∀ {xs : List α}, (∀ x ∈ xs, ∃ a b, f x = .ok a ∧ g x = .ok b ∧ SameOpt a b) →
      ∃ ts ns, collectM f xs = .ok ts ∧ collectM g xs = .ok ns ∧ List.Forall₂ SameTerm ts ns
  | [], _ => ⟨[], [], rfl, rfl, .nil⟩
  | x :: xs, h => by
    obtain ⟨ts, ns, h1, h2, h3⟩ := collectM_same (xs := xs)
      (fun y hy => h y (List.mem_cons_of_mem _ hy))
    obtain ⟨a, b, ha, hb, hab⟩ := h x List.mem_cons_self
    cases a with
    | none =>
      cases b with
      | none => exact ⟨ts, ns, by simp [collectM, ha, h1, bind, Except.bind, pure, Except.pure],
          by simp [collectM, hb, h2, bind, Except.bind, pure, Except.pure], h3⟩
      | some b => exact hab.elim
    | some a =>
      cases b with
      | none => exact hab.elim
      | some b => exact ⟨a :: ts, b :: ns,
          by simp [collectM, ha, h1, bind, Except.bind, pure, Except.pure],
          by simp [collectM, hb, h2, bind, Except.bind, pure, Except.pure], .cons hab h3⟩

theorem simplify_same {t : Term R} {n : NTerm R 1} (h : SameTerm t n)
    (hz : n.config.total = 0 ↔ t.config.total = 0)
    (he : t.config.total = 0 → t.expShift.flt = true) :
    ∃ t' n', simplifyGreen t = .ok t' ∧ simplifyGreenND n = .ok n' ∧ SameTerm t' n' ∧
      t'.config = t.config ∧ n'.config = n.config := by
  have hf : (∃ j, n.fArg.tw j ≠ 0) ↔ t.fArg.tw ≠ 0 := by
    rw [h.fArg]; simp [Num.toND]
  by_cases hc : t.config.total = 0 ∧ t.fArg.tw ≠ 0
  · have h1 : simplifyGreen t = .ok { t with
        expShift := ⟨t.expShift.flt, t.expShift.tw + t.fArg.tw⟩, fArg := t.fArg.zerosLike } := by
      unfold simplifyGreen
      rw [if_pos ⟨(configId_eq_G _).2 hc.1, hc.2⟩]
      simp [Num.iadd, he hc.1, bind, Except.bind, pure, Except.pure]
    have h2 : simplifyGreenND n = .ok { n with
        expShift := ⟨n.expShift.flt, fun j => n.expShift.tw j + n.fArg.tw j⟩,
        fArg := n.fArg.zerosLike } := by
      unfold simplifyGreenND
      rw [if_pos ⟨(nStr_G _).2 (hz.2 hc.1), hf.2 hc.2⟩]
      have : n.expShift.flt = true := by rw [h.expShift]; exact he hc.1
      simp [NNum.iadd, this, bind, Except.bind, pure, Except.pure]
    exact ⟨_, _, h1, h2, ⟨h.kind, h.config, h.hterm, h.pref, by simp only [h.expShift, h.fArg]; rfl,
      by simp only [h.fArg]; rfl, h.gArg, h.freqShift⟩, rfl, rfl⟩
  · refine ⟨t, n, ?_, ?_, h, rfl, rfl⟩
    · unfold simplifyGreen
      rw [if_neg]
      rw [configId_eq_G]; exact hc
    · unfold simplifyGreenND
      rw [if_neg]
      rw [nStr_G, hz, hf]; exact hc

/-- the filter after a step -/
theorem finish_same {m : Model R} (hm : ListsOk m) {t : Term R} {n : NTerm R 1} (h : SameTerm t n)
    (hn : t.config.rows.length = m.nTypes)
    (hc : Cloud t.config ∨ (Vacuum t.config ∧ t.expShift.flt = true)) :
    ∃ a b, finishTerm m t = .ok a ∧ finishTermND m n = .ok b ∧ SameOpt a b := by
  rcases hc with hc | ⟨hv, he⟩
  · have hcn : CloudND n.config := cloudND_same (sameND_symm h.config) (cloud_toND hc)
    have hnn : n.config.types = m.nTypes := by rw [h.config.types]; exact hn
    obtain ⟨f1, f2⟩ := finishTerm_cloud hm (t := t) hc hn
    obtain ⟨g1, g2⟩ := finishTermND_cloud (by decide : 0 < 1) hm (t := n) hcn hnn
    have hiff : LegalND firstAxis m.maxPerSite (some m.extent) none n.config ↔
        Legal m.maxPerSite (some m.extent) none t.config := by
      rw [← legal_toND hc]
      exact ⟨legalND_same h.config, legalND_same (sameND_symm h.config)⟩
    by_cases hl : Legal m.maxPerSite (some m.extent) none t.config
    · exact ⟨_, _, f1 hl, g1 (hiff.2 hl), h⟩
    · exact ⟨_, _, f2 hl, g2 (fun x => hl (hiff.1 x)), trivial⟩
  · have h0 := total_of_vacuum hv
    have hz : ∀ t' x, lattice n.config t' x = 0 := by
      intro t' x
      rw [h.config.entries, lattice_toND hv.wf, hv.empty]
    have hn0 : n.config.total = 0 := (nTotal_zero_iff (fun t x => (hz t x).ge)).2 hz
    obtain ⟨t', n', s1, s2, s3, s4, s5⟩ := simplify_same h (by rw [h0, hn0]) (fun _ => he)
    have hval : t.config.validate = .ok () := by
      exact (validate_ok_iff hv.wf (by rw [hv.len]; omega)).2 (Or.inl ⟨proper_of_vacuum hv, h0⟩)
    have hval' : n.config.validate = .ok () := by
      refine (nValidate_spec (by decide) n.config (fun j => ?_)).1 (Or.inr hz)
      rw [h.config.shape]; simp only [Arr.toND]; rw [hv.len]; omega
    refine ⟨some t', some n', ?_, ?_, s3⟩
    · simp [finishTerm, s1, hval, s4, configLegal, h0, bind, Except.bind, pure, Except.pure]
    · simp [finishTermND, s2, hval', s5, NArr.configLegal, hn0, bind, Except.bind, pure,
        Except.pure]

/-- the shifts of the Holstein terms -/
def HolsteinShifts (m : Model R) : Prop :=
  ∀ h ∈ m.ham.terms, h.ctype = "Holstein" → h.psi = .int 0 ∧ h.phi = .int 0

theorem ofSingle_one {h : SingleTerm R}
    (hs : h.ctype = "Holstein" → h.psi = .int 0 ∧ h.phi = .int 0) :
    HTerm.ofSingle 1 h = ⟨h, ⟨h.psi.flt, [h.psi.tw]⟩, ⟨h.phi.flt, [h.phi.tw]⟩⟩ := by
  unfold HTerm.ofSingle
  split
  · rename_i hc
    rw [(hs hc).1, (hs hc).2]; rfl
  · rfl

theorem mkNonIndex_same {m : Model R} {ae : Int} (hm : Sound m ae) {a : Arr}
    (ha : InTruncation m ae a) (kind : Kind) {h : SingleTerm R}
    (hs : h.ctype = "Holstein" → h.psi = .int 0 ∧ h.phi = .int 0) (pref : R) :
    mkNonIndexND m kind a.toND (HTerm.ofSingle 1 h) pref = .ok
      { kind, config := a.toND, hterm := HTerm.ofSingle 1 h, pref, expShift := ⟨true, fun _ => 0⟩,
        fArg := h.phi.toND, gArg := (h.psi.sub h.phi).toND, freqShift := energy m a } := by
  have hcl := ha.2.2.toCloud
  have h1 : freqShift m.ham.freqs a.toND.totalPerType = .ok (energy m a) := by
    rw [totalPerType_toND hcl.wf]
    have := mkNonIndex_ok hm ha kind h pref
    simp only [mkNonIndex, validate_cloud hcl, bind, Except.bind, pure, Except.pure] at this
    cases hf : freqShift m.ham.freqs a.totalPerType with
    | error e => rw [hf] at this; simp at this
    | ok x => rw [hf] at this; simp at this; rw [this]
  have h2 := (nValidate_spec (by decide : 1 ≤ 1) a.toND (cloudND_pos (cloud_toND hcl))).1
    (Or.inl (cloud_toND hcl))
  have e1 : ∀ x : Num, Vec.fit 1 ⟨x.flt, [x.tw]⟩ = .ok x.toND := by
    intro x
    simp [Vec.fit, Num.toND]
  have e2 : Vec.sub ⟨h.psi.flt, [h.psi.tw]⟩ ⟨h.phi.flt, [h.phi.tw]⟩ =
      ⟨(h.psi.sub h.phi).flt, [(h.psi.sub h.phi).tw]⟩ := rfl
  rw [ofSingle_one hs]
  simp only [mkNonIndexND, h2, e1, e2, h1, bind, Except.bind, pure, Except.pure]

theorem base_ofSingle (n : Nat) (h : SingleTerm R) : (HTerm.ofSingle n h).base = h := by
  unfold HTerm.ofSingle; split <;> rfl

theorem ann_same {m : Model R} {ae : Int} (hm : Sound m ae) {a : Arr}
    (ha : InTruncation m ae a) {h : SingleTerm R}
    (hs : h.ctype = "Holstein" → h.psi = .int 0 ∧ h.phi = .int 0) (pref : R) {x : Nat}
    (hidx : h.phononIndex < a.rows.length) (hx : a.get h.phononIndex x ≠ 0) :
    ∃ o p, (do
        let t ← mkNonIndex m .ann a h pref
        let t ← step t (x : Int)
        finishTerm m t) = .ok o ∧
      (do
        let t ← mkNonIndexND m .ann a.toND (HTerm.ofSingle 1 h) pref
        let t ← stepND t (fun _ => (x : Int))
        finishTermND m t) = .ok p ∧ SameOpt o p := by
  have hcl := ha.2.2.toCloud
  obtain ⟨c', n, r, s, h1, h2, h3, h4⟩ := (Props.C62_one_dimension ⟨a, 1, 0⟩ hcl (by simp)
    h.phononIndex hidx).2 x (by rw [get_eq_chain]; exact hx)
  have hr : r.getD (fun _ => 0) = fun _ : Fin 1 => s := by
    funext j; rw [Subsingleton.elim j 0, h3]
  have hpos : 1 ≤ a.get h.phononIndex x := by
    have := Proper.get_nonneg hcl.toProper h.phononIndex x
    omega
  obtain ⟨c'', s', k1, k2, k3, -⟩ := Config.removePhonon_spec (c := ⟨a, 1, 0⟩) hcl (by simp) hpos
  rw [k1] at h1
  obtain ⟨rfl, rfl⟩ : c'' = c' ∧ s' = s := by simpa using h1
  let t₁ : Term R :=
    { kind := .ann, config := c''.arr, hterm := h, pref := pref,
      expShift := ⟨true, 0 - 2 * s'⟩, fArg := ⟨h.phi.flt, h.phi.tw - 2 * x + 2 * s'⟩,
      gArg := some ⟨h.psi.flt || h.phi.flt, h.psi.tw - h.phi.tw + 2 * x⟩,
      freqShift := energy m a }
  let n₁ : NTerm R 1 :=
    { kind := .ann, config := n.arr, hterm := HTerm.ofSingle 1 h, pref := pref,
      expShift := t₁.expShift.toND, fArg := t₁.fArg.toND,
      gArg := ⟨h.psi.flt || h.phi.flt, fun _ => h.psi.tw - h.phi.tw + 2 * x⟩,
      freqShift := energy m a }
  have e1 : (do
        let t ← mkNonIndex m .ann a h pref
        let t ← step t (x : Int)
        finishTerm m t) = finishTerm m t₁ := by
    rw [mkNonIndex_ok hm ha]
    simp [step, Num.iadd, Num.isub, Num.sub, Num.int, k1, bind, Except.bind, pure, Except.pure, t₁]
  have e2 : (do
        let t ← mkNonIndexND m .ann a.toND (HTerm.ofSingle 1 h) pref
        let t ← stepND t (fun _ => (x : Int))
        finishTermND m t) = finishTermND m n₁ := by
    rw [mkNonIndex_same hm ha _ hs]
    have h2' : NConfig.removePhonon ⟨a.toND, 1, 0⟩ [(h.phononIndex : Int), (x : Int)] =
      .ok (n, r) := h2
    simp [stepND, NNum.iadd, NNum.isub, NNum.int, Num.toND, Num.sub, base_ofSingle, h2', hr, bind,
      Except.bind, pure, Except.pure, t₁, n₁]
  rw [e1, e2]
  refine finish_same hm.toListsOk ⟨rfl, h4, base_ofSingle _ _, rfl, rfl, rfl, rfl, rfl⟩
    (by show c''.arr.rows.length = _; rw [← ha.2.1]; exact k3) ?_
  rcases k2 with k2 | k2
  · exact Or.inl k2
  · exact Or.inr ⟨k2, rfl⟩

theorem cre_same {m : Model R} {ae : Int} (hm : Sound m ae) {a : Arr}
    (ha : InTruncation m ae a) {h : SingleTerm R}
    (hs : h.ctype = "Holstein" → h.psi = .int 0 ∧ h.phi = .int 0) (x : Int)
    (hidx : h.phononIndex < a.rows.length) :
    ∃ o p, (do
        let t ← mkNonIndex m .cre a h h.coupling
        let t ← step t x
        finishTerm m t) = .ok o ∧
      (do
        let t ← mkNonIndexND m .cre a.toND (HTerm.ofSingle 1 h) h.coupling
        let t ← stepND t (fun _ => x)
        finishTermND m t) = .ok p ∧ SameOpt o p := by
  have hcl := ha.2.2.toCloud
  obtain ⟨c', n, s, h1, h2, h4⟩ := (Props.C62_one_dimension ⟨a, 1, 0⟩ hcl (by simp)
    h.phononIndex hidx).1 x
  obtain ⟨c'', s', k1, k2, k3, -⟩ :=
    Config.addPhonon_spec (c := ⟨a, 1, 0⟩) hcl.wf (by simp) hidx x
  rw [k1] at h1
  obtain ⟨rfl, rfl⟩ : c'' = c' ∧ s' = s := by simpa using h1
  have hc : Cloud c''.arr := add_cloud (Or.inl hcl) hidx k1
  let t₁ : Term R :=
    { kind := .cre, config := c''.arr, hterm := h, pref := h.coupling,
      expShift := .int s', fArg := ⟨h.phi.flt, h.phi.tw - 2 * x - 2 * s'⟩,
      gArg := some ⟨h.psi.flt || h.phi.flt, h.psi.tw - h.phi.tw + 2 * x⟩,
      freqShift := energy m a }
  let n₁ : NTerm R 1 :=
    { kind := .cre, config := n.arr, hterm := HTerm.ofSingle 1 h, pref := h.coupling,
      expShift := t₁.expShift.toND, fArg := t₁.fArg.toND,
      gArg := ⟨h.psi.flt || h.phi.flt, fun _ => h.psi.tw - h.phi.tw + 2 * x⟩,
      freqShift := energy m a }
  have e1 : (do
        let t ← mkNonIndex m .cre a h h.coupling
        let t ← step t x
        finishTerm m t) = finishTerm m t₁ := by
    rw [mkNonIndex_ok hm ha]
    simp [step, Num.iadd, Num.isub, Num.sub, Num.int, k1, bind, Except.bind, pure, Except.pure, t₁]
  have e2 : (do
        let t ← mkNonIndexND m .cre a.toND (HTerm.ofSingle 1 h) h.coupling
        let t ← stepND t (fun _ => x)
        finishTermND m t) = finishTermND m n₁ := by
    rw [mkNonIndex_same hm ha _ hs]
    have h2' : NConfig.addPhonon ⟨a.toND, 1, 0⟩ [(h.phononIndex : Int), x] =
      .ok (n, some (fun _ => s')) := h2
    simp [stepND, NNum.iadd, NNum.isub, NNum.int, Num.int, Num.toND, Num.sub, base_ofSingle, h2',
      bind, Except.bind, pure, Except.pure, t₁, n₁]
  rw [e1, e2]
  exact finish_same hm.toListsOk ⟨rfl, h4, base_ofSingle _ _, rfl, rfl, rfl, rfl, rfl⟩
    (by show c''.arr.rows.length = _; rw [← ha.2.1]; exact k3) (Or.inl hc)

theorem indices_one (L : Nat) :
    NArr.indices (fun _ : Fin 1 => L) = (List.range L).map (fun p _ => p) := by
  simp only [NArr.indices, List.map_cons, List.map_nil]
  rw [List.map_eq_flatMap]
  congr 1
  funext p
  congr 1
  funext j
  refine Fin.cases rfl (fun i => i.elim0) j

theorem annTerms_same {m : Model R} {ae : Int} (hm : Sound m ae) {a : Arr}
    (ha : InTruncation m ae a) {h : SingleTerm R}
    (hs : h.ctype = "Holstein" → h.psi = .int 0 ∧ h.phi = .int 0) {row : List Int}
    (hrow : a.rows[h.phononIndex]? = some row) :
    ∃ ts ns, annTerms m a h row = .ok ts ∧ annTermsND m a.toND (HTerm.ofSingle 1 h) = .ok ns ∧
      List.Forall₂ SameTerm ts ns := by
  have hidx : h.phononIndex < a.rows.length := by
    by_contra hc; rw [List.getElem?_eq_none (by omega)] at hrow; cases hrow
  have hget : ∀ x : Nat, row.getD x 0 = a.get h.phononIndex x := by
    intro x; simp [Arr.get, List.getD_eq_getElem?_getD, hrow]
  have hlen : row.length = a.len := ha.2.2.toCloud.wf _ (List.mem_of_getElem? hrow)
  unfold annTerms annTermsND
  rw [show a.toND.shape = fun _ => a.len from rfl, indices_one, collectM_mapIn, hlen]
  refine collectM_same (fun x _ => ?_)
  simp only [base_ofSingle]
  rw [show a.toND.val h.phononIndex (fun _ => x) = a.get h.phononIndex x from rfl, hget]
  by_cases hx : a.get h.phononIndex x = 0
  · simp only [hx, if_true]
    exact ⟨none, none, rfl, rfl, trivial⟩
  · simp only [hx, if_false]
    exact ann_same hm ha hs _ hidx hx

theorem creTerms_same {m : Model R} {ae : Int} (hm : Sound m ae) {a : Arr}
    (ha : InTruncation m ae a) {h : SingleTerm R}
    (hs : h.ctype = "Holstein" → h.psi = .int 0 ∧ h.phi = .int 0) {row : List Int}
    (hrow : a.rows[h.phononIndex]? = some row) :
    ∃ ts ns, creTerms m a h row = .ok ts ∧ creTermsND m a.toND (HTerm.ofSingle 1 h) = .ok ns ∧
      List.Forall₂ SameTerm ts ns := by
  have hidx : h.phononIndex < a.rows.length := by
    by_contra hc; rw [List.getElem?_eq_none (by omega)] at hrow; cases hrow
  have hcl := ha.2.2.toCloud
  obtain ⟨cap, hcap, -⟩ := ha.2.2.numberOk m.number rfl h.phononIndex hidx
  have hsum : ∑ i ∈ NArr.sites a.toND.shape, a.toND.val h.phononIndex i = row.sum := by
    rw [← typeTotalND_eq a.toND hidx, typeTotal_toND hcl.wf]
    simp [typeTotal, List.getD_eq_getElem?_getD, hrow]
  unfold creTerms creTermsND
  rw [base_ofSingle, hcap]
  simp only [hsum]
  by_cases hgt : row.sum + 1 > cap
  · rw [if_pos hgt, if_pos hgt]
    exact ⟨[], [], rfl, rfl, .nil⟩
  · rw [if_neg hgt, if_neg hgt, hm.absExtent]
    simp only
    rw [if_neg (by have := ha.1; omega : ¬ (a.len : Int) > ae), if_neg (by
      rintro ⟨j, hj⟩
      have := ha.1
      simp only [Arr.toND] at hj
      omega)]
    rw [show (fun j => (2 * ae - (a.toND.shape j : Int)).toNat) =
      fun _ : Fin 1 => (2 * ae - (a.len : Int)).toNat from rfl, indices_one, collectM_mapIn]
    exact collectM_same (fun i _ => cre_same hm ha hs ((i : Int) - ae + a.len) hidx)

theorem initTerms_same {m : Model R} {ae : Int} (hm : Sound m ae) {a : Arr}
    (ha : InTruncation m ae a) : ∀ (hs : List (SingleTerm R)),
    (∀ h ∈ hs, h.phononIndex < m.nTypes) →
    (∀ h ∈ hs, h.ctype = "Holstein" → h.psi = .int 0 ∧ h.phi = .int 0) →
    ∃ ts ns, initTerms m a hs = .ok ts ∧
      initTermsND m a.toND (hs.map (HTerm.ofSingle 1)) = .ok ns ∧ List.Forall₂ SameTerm ts ns
  | [], _, _ => ⟨[], [], rfl, rfl, .nil⟩
  | h :: hs, hidx, hH => by
    obtain ⟨ts, ns, h1, h2, h3⟩ := initTerms_same hm ha hs
      (fun x hx => hidx x (List.mem_cons_of_mem _ hx))
      (fun x hx => hH x (List.mem_cons_of_mem _ hx))
    have hlt : h.phononIndex < a.rows.length := by
      rw [ha.2.1]; exact hidx h List.mem_cons_self
    have hrow := List.getElem?_eq_getElem hlt
    have hx : ∃ us vs,
        (match h.dag with
          | .minus => annTerms m a h (a.rows[h.phononIndex]'hlt)
          | .plus => creTerms m a h (a.rows[h.phononIndex]'hlt)) = .ok us ∧
        (match h.dag with
          | .minus => annTermsND m a.toND (HTerm.ofSingle 1 h)
          | .plus => creTermsND m a.toND (HTerm.ofSingle 1 h)) = .ok vs ∧
        List.Forall₂ SameTerm us vs := by
      cases h.dag
      · exact creTerms_same hm ha (hH h List.mem_cons_self) hrow
      · exact annTerms_same hm ha (hH h List.mem_cons_self) hrow
    obtain ⟨us, vs, g1, g2, g3⟩ := hx
    refine ⟨us ++ ts, vs ++ ns, ?_, ?_, List.rel_append g3 h3⟩
    · cases hdag : h.dag <;> rw [hdag] at g1 <;> simp only at g1 <;>
        simp only [initTerms, hrow, hdag, g1, h1, bind, Except.bind, pure, Except.pure]
    · have hlt' : h.phononIndex < a.toND.types := hlt
      cases hdag : h.dag <;> rw [hdag] at g2 <;> simp only at g2 <;>
        simp only [List.map_cons, initTermsND, base_ofSingle, hlt', if_true, hdag, g2, h2, bind,
          Except.bind, pure, Except.pure]

theorem mkEquation_same {m : Model R} {ae : Int} (hm : Sound m ae) (hd : m.ham.dimension = 1)
    (hH : HolsteinShifts m) {a : Arr} (ha : InTruncation m ae a) :
    ∃ e ns, mkEquation m a = .ok e ∧ mkEquationND m a.toND = .ok ns ∧
      List.Forall₂ SameTerm e.terms ns := by
  obtain ⟨ts, ns, h1, h2, h3⟩ := initTerms_same hm ha m.ham.terms hm.index hH
  have hcl := ha.2.2.toCloud
  have hv := (nValidate_spec (by decide : 1 ≤ 1) a.toND (cloudND_pos (cloud_toND hcl))).1
    (Or.inl (cloud_toND hcl))
  exact ⟨⟨false, a, none, ts, populate ts⟩, ns,
    by simp [mkEquation, validate_cloud hcl, h1, bind, Except.bind, pure, Except.pure],
    by simp only [mkEquationND, hv, hd, h2, bind, Except.bind], h3⟩

theorem mkGreen_same {m : Model R} (hidx : ∀ h ∈ m.ham.terms, h.phononIndex < m.nTypes)
    (hd : m.ham.dimension = 1) (hH : HolsteinShifts m) :
    ∃ e ns, mkGreen m = .ok e ∧ mkGreenND m = .ok ns ∧ List.Forall₂ SameEom e.terms ns := by
  obtain ⟨ns, h1, h2⟩ := mkGreenND_ok (by omega : 0 < m.ham.dimension) hidx
  refine ⟨_, ns, mkGreen_ok hidx, h1, ?_⟩
  simp only [greenTerms]
  rw [List.forall₂_map_left_iff]
  refine h2.imp ?_
  rintro h n ⟨hh, rfl⟩
  have e : HTerm.ofSingle m.ham.dimension h =
      ⟨h, ⟨h.psi.flt, [h.psi.tw]⟩, ⟨h.phi.flt, [h.phi.tw]⟩⟩ := by
    rw [hd, ofSingle_one (hH h hh)]
  refine ⟨rfl, (single_rows _ _).symm, fun j => rfl, fun t' y => ?_, base_ofSingle _ _, rfl,
    by rw [e]; rfl, by rw [e]; rfl⟩
  rw [lattice_one _ _ (hidx h hh)]
  simp only [eomOf]
  rw [single_chain (hidx h hh)]
  have hz : ((fun _ : Fin m.ham.dimension => y) = fun _ => 0) ↔ y = 0 := by
    constructor
    · intro h; exact congrFun h ⟨0, by omega⟩
    · rintro rfl; rfl
  simp only [hz]

end GGCE
