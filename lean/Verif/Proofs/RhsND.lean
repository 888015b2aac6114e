import Verif.Proofs.LegalND
import Mathlib.Algebra.BigOperators.Finprod

/-! The right-hand side of an equation in `d` dimensions. -/

set_option linter.unusedSectionVars false

namespace GGCE
open Spec NArr
variable {d : Nat} {R : Type} [Field R] [LinearOrder R]

/-! ### counting -/

theorem lattice_support (a : NArr d) (t : Nat) :
    (Function.support (fun x : Fin d → Int => lattice a t x)).Finite := by
  refine Set.Finite.subset ((sites a.shape).finite_toSet.image (fun i j => ((i j : Nat) : Int))) ?_
  intro x hx
  obtain ⟨i, hi, -, rfl, -⟩ := lattice_site hx
  exact ⟨i, hi, rfl⟩

theorem typeTotalND_finsum (a : NArr d) (t : Nat) :
    typeTotalND a t = ∑ᶠ x : Fin d → Int, lattice a t x := by
  have hinj : Function.Injective (fun (i : Fin d → Nat) (j : Fin d) => ((i j : Nat) : Int)) := by
    intro i i' h
    funext j
    have := congrFun h j
    simpa using this
  rw [finsum_eq_sum_of_support_subset (s := (sites a.shape).map ⟨_, hinj⟩)]
  · rw [Finset.sum_map]; rfl
  · intro x hx
    obtain ⟨i, hi, -, rfl, -⟩ := lattice_site hx
    simp only [Finset.coe_map, Function.Embedding.coeFn_mk, Set.mem_image]
    exact ⟨i, hi, rfl⟩

theorem typeTotalND_acted {a b : NArr d} {dg : Dag} {t : Nat} {γ o : Fin d → Int}
    (h : ActedND a dg t γ b o) (t' : Nat) :
    typeTotalND b t' = typeTotalND a t' + if t' = t then Dag.delta dg else 0 := by
  rw [typeTotalND_finsum, typeTotalND_finsum, ← finsum_comp_equiv (Equiv.subRight o)]
  have e1 : ∀ y : Fin d → Int, lattice b t' (Equiv.subRight o y) =
      lattice a t' y + if t' = t ∧ y = γ then Dag.delta dg else 0 := fun y => h.2 t' y
  simp only [e1]
  have hfin : (Function.support (fun y : Fin d → Int =>
      if t' = t ∧ y = γ then Dag.delta dg else 0)).Finite := by
    refine Set.Finite.subset (Set.finite_singleton γ) ?_
    intro y hy
    by_contra hc
    exact hy (if_neg (fun h => hc h.2))
  rw [finsum_add_distrib (lattice_support a t') hfin]
  congr 1
  rw [finsum_eq_single _ γ (fun y hy => if_neg (fun h => hy h.2))]
  simp

theorem typeTotalND_same {a b : NArr d} (h : SameND a b) (t : Nat) :
    typeTotalND a t = typeTotalND b t := by
  rw [typeTotalND_finsum, typeTotalND_finsum]
  exact finsum_congr (fun x => h.entries t x)

/-! ### the truncation -/

theorem sameND_symm {a b : NArr d} (h : SameND a b) : SameND b a :=
  ⟨h.types.symm, fun j => (h.shape j).symm, fun t x => (h.entries t x).symm⟩

theorem cloudND_same {a b : NArr d} (h : SameND a b) (ha : CloudND a) : CloudND b := by
  refine ⟨fun t x => by rw [← h.entries]; exact ha.nonneg t x, fun j => ?_, fun j => ?_⟩
  · obtain ⟨t, x, hx, e⟩ := ha.first j
    exact ⟨t, x, by rw [← h.entries]; exact hx, e⟩
  · obtain ⟨t, x, hx, e⟩ := ha.last j
    exact ⟨t, x, by rw [← h.entries]; exact hx, by rw [e, h.shape]⟩

theorem legalND_same {a b : NArr d} (h : SameND a b) {ax cap M N}
    (ha : LegalND ax cap M N a) : LegalND ax cap M N b := by
  refine ⟨cloudND_same h ha.toCloudND, ?_, ?_, ?_⟩
  · intro c hc t x
    rw [← h.entries]; exact ha.capOk c hc t x
  · intro M hM t ht
    obtain ⟨m, h1, h2⟩ := ha.extentOk M hM t (by rw [h.types]; exact ht)
    refine ⟨m, h1, fun j hj => ⟨(h2 j hj).1, fun x y hx hy => ?_⟩⟩
    rw [← h.entries] at hx hy
    exact (h2 j hj).2 x y hx hy
  · intro N hN t ht
    obtain ⟨n, h1, h2⟩ := ha.numberOk N hN t (by rw [h.types]; exact ht)
    exact ⟨n, h1, by rw [← typeTotalND_same h]; exact h2⟩

theorem inTruncationND_same {m : Model R} {ae : Int} {a b : NArr d} (h : SameND a b)
    (ha : InTruncationND m ae a) : InTruncationND m ae b :=
  ⟨fun j => by rw [← h.shape]; exact ha.1 j, by rw [← h.types]; exact ha.2.1,
    legalND_same h ha.2.2⟩

/-- removal keeps all limits -/
theorem truncationND_of_removed {m : Model R} {ae : Int} {a b : NArr d} {t : Nat}
    {γ o : Fin d → Int} (ha : InTruncationND m ae a) (hact : ActedND a .minus t γ b o)
    (hb : CloudND b) : InTruncationND m ae b := by
  obtain ⟨h1, h2, h3⟩ := ha
  have hle : ∀ t' y, lattice b t' y ≤ lattice a t' (fun j => y j + o j) := by
    intro t' y
    have := hact.2 t' (fun j => y j + o j)
    simp only [add_sub_cancel_right] at this
    rw [this]; split <;> simp [Dag.delta]
  have hocc : ∀ t' y, lattice b t' y ≠ 0 → lattice a t' (fun j => y j + o j) ≠ 0 := by
    intro t' y h
    have := hle t' y; have := hb.nonneg t' y; omega
  refine ⟨?_, by rw [hact.1, h2], hb, ?_, ?_, ?_⟩
  · intro j
    obtain ⟨t1, x1, l1, e1⟩ := hb.first j
    obtain ⟨t2, x2, l2, e2⟩ := hb.last j
    have := (lattice_ne (hocc _ _ l1)).2 j
    have := (lattice_ne (hocc _ _ l2)).2 j
    have := h1 j
    omega
  · intro c hc t' y
    exact le_trans (hle _ _) (h3.capOk c hc _ _)
  · intro M hM t' ht'
    obtain ⟨mm, q1, q2⟩ := h3.extentOk M hM t' (by rw [← hact.1]; exact ht')
    refine ⟨mm, q1, fun j hj => ⟨(q2 j hj).1, fun x y hx hy => ?_⟩⟩
    have := (q2 j hj).2 _ _ (hocc _ _ hx) (hocc _ _ hy)
    omega
  · intro N hN t' ht'
    obtain ⟨n, q1, q2⟩ := h3.numberOk N hN t' (by rw [← hact.1]; exact ht')
    refine ⟨n, q1, le_trans ?_ q2⟩
    rw [typeTotalND_acted hact t']
    split <;> simp [Dag.delta]

/-! ### terms -/

theorem fit_holstein (b : Bool) :
    Vec.fit d ⟨b, List.replicate d 0⟩ = .ok ⟨b, fun _ => 0⟩ := by
  unfold Vec.fit
  rw [if_pos (by simp)]
  congr 2
  funext j
  simp [List.getD_eq_getElem?_getD]

theorem sub_holstein : Vec.sub ⟨false, List.replicate d 0⟩ ⟨false, List.replicate d 0⟩ =
    ⟨false, List.replicate d 0⟩ := by
  simp [Vec.sub]

theorem mkNonIndexND_ok {m : Model R} {ae : Int} (hm : SoundND m d ae) (hd : 0 < d) {a : NArr d}
    (ha : InTruncationND m ae a) (kind : Kind) {h : SingleTerm R} (hh : h ∈ m.ham.terms) (pref : R) :
    mkNonIndexND m kind a (HTerm.ofSingle m.ham.dimension h) pref = .ok
      { kind, config := a, hterm := HTerm.ofSingle m.ham.dimension h, pref,
        expShift := ⟨true, fun _ => 0⟩, fArg := ⟨false, fun _ => 0⟩,
        gArg := ⟨false, fun _ => 0⟩, freqShift := energyND m a } := by
  have hcl := ha.2.2.toCloudND
  have h1 : freqShift m.ham.freqs a.totalPerType = .ok (energyND m a) := by
    rw [freqShift_ok]
    · congr 1
      unfold energyND
      simp only [totalPerType, List.length_map, List.length_range]
      congr 1
      apply List.map_congr_left
      intro i hi
      have hi' := List.mem_range.1 hi
      rw [typeTotalND_eq a hi']
      simp [List.getD_eq_getElem?_getD, hi']
    · simp only [totalPerType, List.length_map, List.length_range]
      rw [ha.2.1]; exact hm.freqs
  have h2 := (nValidate_spec hd a (cloudND_pos hcl)).1 (Or.inl hcl)
  have h3 : HTerm.ofSingle m.ham.dimension h =
      ⟨h, ⟨false, List.replicate d 0⟩, ⟨false, List.replicate d 0⟩⟩ := by
    unfold HTerm.ofSingle
    rw [if_pos (hm.holstein h hh), hm.dimension]
  rw [h3]
  simp [mkNonIndexND, h2, fit_holstein, sub_holstein, h1, bind, Except.bind, pure, Except.pure]

theorem nStr_G (a : NArr d) : a.str = ['G'] ↔ a.total = 0 := by
  unfold NArr.str
  constructor
  · intro h
    by_contra hne
    rw [if_neg hne] at h
    simp only [listStr, List.cons_append, List.cons.injEq] at h
    exact absurd h.1 (by decide)
  · intro h; rw [if_pos h]

theorem total_ne_of_cloudND (hd : 0 < d) {a : NArr d} (h : CloudND a) : a.total ≠ 0 := by
  intro h0
  obtain ⟨t, x, hx⟩ := cloudND_site hd h
  exact hx ((nTotal_zero_iff h.nonneg).1 h0 t x)

/-- the filter after a step, on a cloud -/
theorem finishTermND_cloud (hd : 0 < d) {m : Model R} (hm : ListsOk m) {t : NTerm R d}
    (hc : CloudND t.config) (hn : t.config.types = m.nTypes) :
    (LegalND firstAxis m.maxPerSite (some m.extent) none t.config →
      finishTermND m t = .ok (some t)) ∧
    (¬ LegalND firstAxis m.maxPerSite (some m.extent) none t.config →
      finishTermND m t = .ok none) := by
  have h0 := total_ne_of_cloudND hd hc
  have h1 : simplifyGreenND t = .ok t := by
    unfold simplifyGreenND
    rw [if_neg]
    rw [nStr_G]
    exact fun h => h0 h.1
  have hv := (nValidate_spec hd t.config (cloudND_pos hc)).1 (Or.inl hc)
  obtain ⟨b, hb1, hb2⟩ := nConfigLegal_ok hd (cloudND_pos hc) m.maxPerSite (some m.extent) none true
    (by intro M hM; cases hM; rw [hn, hm.ext]) (by simp)
  simp only [h0, and_false, false_or] at hb2
  constructor
  · intro hl
    simp [finishTermND, h1, hv, hb1, hb2.2 hl, bind, Except.bind, pure, Except.pure]
  · intro hl
    have : b = false := by
      cases b
      · rfl
      · exact absurd (hb2.1 rfl) hl
    simp [finishTermND, h1, hv, hb1, this, bind, Except.bind, pure, Except.pure]

theorem total_of_vacuumND {a : NArr d} (h : VacuumND a) : a.total = 0 :=
  (nTotal_zero_iff (fun t x => (h.empty t x).ge)).2 h.empty

/-- the filter after a step that reached the vacuum -/
theorem finishTermND_vacuum (hd : 0 < d) {m : Model R} {t : NTerm R d}
    (hv : VacuumND t.config) (he : t.expShift.flt = true) :
    ∃ t', finishTermND m t = .ok (some t') ∧ (∀ j, t'.fArg.tw j = 0) ∧
      (∀ j, t'.expShift.tw j = t.expShift.tw j + t.fArg.tw j) ∧ t'.config = t.config ∧
      t'.kind = t.kind ∧ t'.hterm = t.hterm ∧ t'.pref = t.pref ∧ t'.gArg = t.gArg ∧
      t'.freqShift = t.freqShift := by
  have h0 := total_of_vacuumND hv
  have hval : t.config.validate = .ok () :=
    (nValidate_spec hd t.config (fun j => by rw [hv.shape]; omega)).1 (Or.inr hv.empty)
  have hleg : t.config.configLegal m.maxPerSite (some m.extent) none true = .ok true := by
    simp [NArr.configLegal, h0]
  by_cases hf : ∃ j, t.fArg.tw j ≠ 0
  · refine ⟨{ t with expShift := ⟨t.expShift.flt, fun j => t.expShift.tw j + t.fArg.tw j⟩,
                     fArg := t.fArg.zerosLike }, ?_, fun _ => rfl, fun _ => rfl, rfl, rfl, rfl,
      rfl, rfl, rfl⟩
    have h1 : simplifyGreenND t = .ok { t with
        expShift := ⟨t.expShift.flt, fun j => t.expShift.tw j + t.fArg.tw j⟩,
        fArg := t.fArg.zerosLike } := by
      unfold simplifyGreenND
      rw [if_pos ⟨(nStr_G _).2 h0, hf⟩]
      simp [NNum.iadd, he, bind, Except.bind, pure, Except.pure]
    simp [finishTermND, h1, hval, hleg, bind, Except.bind, pure, Except.pure]
  · have hz : ∀ j, t.fArg.tw j = 0 := by
      intro j; by_contra hc; exact hf ⟨j, hc⟩
    refine ⟨t, ?_, hz, fun j => by rw [hz j]; omega, rfl, rfl, rfl, rfl, rfl, rfl⟩
    have h1 : simplifyGreenND t = .ok t := by
      unfold simplifyGreenND
      rw [if_neg]; exact fun h => hf h.2
    simp [finishTermND, h1, hval, hleg, bind, Except.bind, pure, Except.pure]

end GGCE
