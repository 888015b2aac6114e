import Verif.Proofs.DenseSolve
import Verif.Proofs.Energy

/-! Models with a single phonon: the dense solver's result in closed form, for any hopping and lattice
constant. -/

set_option linter.unusedSectionVars false

namespace GGCE
open Spec Arr Dict

/-- the amplitude to annihilate the phonon left behind by a creation at argument `φ = d/2` -/
noncomputable def oneBack (m : Model ℝ) (p : Point ℝ) (d : ℤ) : ℂ :=
  (m.ham.terms.map (fun h => if h.dag = .minus then (h.coupling : ℂ) * ph m p h.phi.tw *
    realPhys.g0 (((d + (h.psi.tw - h.phi.tw) : ℤ) : ℝ) / 2) (p.w - energy m (single m.nTypes 0))
      m.latticeConstant p.eta m.ham.hopping else 0)).sum

/-- the self-energy of one phonon -/
noncomputable def oneSelf (m : Model ℝ) (p : Point ℝ) : ℂ :=
  (m.ham.terms.map (fun h => if h.dag = .plus then (h.coupling : ℂ) * ph m p (h.psi.tw - h.phi.tw) *
    oneBack m p h.phi.tw else 0)).sum

section
variable {m : Model ℝ} {ae : Int}

theorem links_single_minus (hm : Shaped m ae) (h1 : m.nTypes = 1) {h : SingleTerm ℝ} (hh : h ∈ m.ham.terms)
    (hd : h.dag = .minus) : links m ae (single m.nTypes 0) h = {(0, vac m, 0)} := by
  have hidx := hm.index h hh
  have h0 : h.phononIndex = 0 := by omega
  have hlt : 0 < m.nTypes := by omega
  refine links_eq ?_
  rintro ⟨γ, b, o⟩
  rw [Finset.mem_singleton]
  simp only [Prod.mk.injEq]
  constructor
  · rintro ⟨rfl, rfl, rfl⟩
    refine ⟨Or.inl rfl, ⟨?_, ?_⟩, ?_, ?_⟩
    · rw [single_rows]; simp [vac, Arr.zeros]
    · intro t y
      rw [chain_vac, single_chain hlt, hd, h0]
      split <;> simp [Dag.delta]
    · exact fun _ => ⟨rfl, rfl⟩
    · exact fun _ => ⟨rfl, rfl⟩
  · rintro ⟨hb, hl⟩
    have hact := hl.acted
    rw [hd, h0] at hact
    have hpr := hb.proper
    have hγ : γ = 0 := by
      have := hact.2 0 γ
      rw [single_chain hlt] at this
      have h2 := chain_nonneg hpr 0 (γ - o)
      simp only [Dag.delta, true_and, and_self, if_true] at this
      by_contra hc
      rw [if_neg hc] at this
      omega
    subst hγ
    have hz : ∀ t x, chain b t x = 0 := by
      intro t x
      have := hact.2 t (x + o)
      rw [single_chain hlt, add_sub_cancel_right] at this
      rw [this]
      split <;> simp [Dag.delta]
    have hv : b = vac m := by
      rcases hb with rfl | hb
      · rfl
      · exfalso
        obtain ⟨t, ht⟩ := hb.2.2.toCloud.left
        exact ht (hz _ _)
    exact ⟨rfl, hv, (hl.right hv).2⟩

theorem back_sum {L : Layout ℝ} (hm : WellFormed m ae) (hL : L.Ok m ae) (h1 : m.nTypes = 1) (p : Point ℝ) (δ : Num) :
    ((full (L.eqn (single m.nTypes 0)) δ).terms.map (fun t =>
      if t.config.total = ((0 : ℕ) : Int) then coefV realPhys m p t * 1 else 0)).sum = oneBack m p δ.tw := by
  have hlt : 0 < m.nTypes := by omega
  have hs : InTruncation m ae (single m.nTypes 0) := single_bounded hm.toShaped.bounded hlt
  have hne : single m.nTypes 0 ≠ vac m := by
    intro e
    have := congrArg (fun a => chain a 0 0) e
    simp only [single_chain hlt, chain_vac] at this
    simp at this
  show (((L.eqn _).terms.map (incr δ)).map _).sum = _
  rw [List.map_map]
  rw [hL.sum_terms hm.toShaped (Or.inr hs) _ (fun h _ _ _ => if h.dag = .minus then (h.coupling : ℂ) * ph m p h.phi.tw *
    realPhys.g0 (((δ.tw + (h.psi.tw - h.phi.tw) : ℤ) : ℝ) / 2) (p.w - energy m (single m.nTypes 0))
      m.latticeConstant p.eta m.ham.hopping else 0)]
  · unfold oneBack
    congr 1
    refine List.map_congr_left (fun h hh => ?_)
    by_cases hd : h.dag = .minus
    · rw [links_single_minus hm.toShaped h1 hh hd, Finset.sum_singleton]
    · rw [if_neg hd]; simp
  · intro h hh γ t ht hf
    have hidx := hm.index h hh
    have h0 : h.phononIndex = 0 := by omega
    rcases hf with ⟨-, hp⟩ | ⟨e, -⟩
    swap
    · exact absurd e hne
    show (if (incr δ t).config.total = ((0 : ℕ) : Int) then coefV realPhys m p (incr δ t) * 1 else 0) = _
    rw [incr_config]
    cases hd : h.dag with
    | plus =>
      rw [if_neg (by simp : ¬ (Dag.plus = Dag.minus))]
      refine if_neg (fun hc => ?_)
      rcases hp.cloud with ⟨hT, -⟩ | ⟨hv, ha, -⟩
      · exact total_ne_zero hT hc
      · have := ha.2 0 γ
        rw [hv.empty, single_chain hlt, hd, h0] at this
        simp only [Dag.delta, true_and, and_self, if_true] at this
        split at this <;> omega
    | minus =>
      rw [if_pos rfl]
      rcases hp.cloud with ⟨hT, o, ha, -⟩ | ⟨hv, ha, hf0, he⟩
      · exfalso
        rw [hd, h0] at ha
        have hγ : γ = 0 := by
          have := ha.2 0 γ
          rw [single_chain hlt] at this
          have h2 := chain_nonneg hT.2.2.toProper 0 (γ - o)
          simp only [Dag.delta, true_and, and_self, if_true] at this
          by_contra hc
          rw [if_neg hc] at this
          omega
        obtain ⟨t', ht'⟩ := hT.2.2.toCloud.left
        apply ht'
        have := ha.2 t' (0 + o)
        rw [single_chain hlt, hγ] at this
        rw [add_sub_cancel_right] at this
        rw [this]
        split <;> simp [Dag.delta]
      · rw [hd, h0] at ha
        have hγ : γ = 0 := by
          have := ha.2 0 γ
          rw [single_chain hlt, hv.empty] at this
          simp only [Dag.delta, true_and, and_self, if_true] at this
          by_contra hc
          rw [if_neg hc] at this
          omega
        subst hγ
        rw [if_pos (by rw [total_of_vacuum hv]; rfl)]
        have := coefV_produced (p := p) (U := fun _ => 1) hp δ
        rw [this]
        obtain ⟨g, hg, hgt⟩ := hp.gArg
        have e1 : gtw t = h.psi.tw - h.phi.tw := by
          unfold gtw; rw [hg]; simp [hgt]; ring
        have e2 : t.pref = h.coupling := by
          rw [hp.pref, hd, h0, single_chain hlt]; simp
        unfold amp
        rw [e1, e2, he]
        simp

open Classical in
/-- The dense solver with one phonon. -/
theorem oneBoson_dense {σ : SetOrder} (hm : WellFormed m ae) {b : Built ℝ} (hb : buildSystem σ m = .ok b)
    (h1 : m.nTypes = 1) (hN : m.number.sum = 1) (p : Point ℝ) :
    denseSolve realPhys m p (localBasis b.eqs) b.eqs =
      if 1 - realPhys.G0 p.k p.w m.latticeConstant p.eta m.ham.hopping * oneSelf m p = 0 then .ok none
      else .ok (some (realPhys.G0 p.k p.w m.latticeConstant p.eta m.ham.hopping /
        (1 - realPhys.G0 p.k p.w m.latticeConstant p.eta m.ham.hopping * oneSelf m p))) := by
  have hr := ready_of_built hm hb
  obtain ⟨b', L, hb', hL, hd⟩ := buildSystem_ok σ hm
  rw [hb] at hb'; cases hb'
  have hlt : 0 < m.nTypes := by omega
  have hN' : m.number.sum.toNat = 1 := by rw [hN]; rfl
  rw [hr.denseSolve_eq realPhys p (by omega)]
  have hfr : ∀ k, k = 0 → fraction (alphaM realPhys m p b.eqs) (betaM realPhys m p b.eqs) k 0 =
      .ok (alphaM realPhys m p b.eqs 0) := by
    rintro k rfl; rfl
  rw [hfr _ (by omega)]
  simp only [bind, Except.bind]
  set G0 := realPhys.G0 p.k p.w m.latticeConstant p.eta m.ham.hopping with hG0
  have hs : InTruncation m ae (single m.nTypes 0) := single_bounded hm.toShaped.bounded hlt
  suffices hD : (betaM realPhys m p b.eqs 0 * alphaM realPhys m p b.eqs 0) hr.i0 hr.i0 = G0 * oneSelf m p by
    rw [hD]
  -- the unknowns after one step
  let Y : ∀ n, Fin (blockDim (localBasis b.eqs) n) → ℂ := fun n =>
    match n with
    | 0 => fun _ => 1
    | 1 => (alphaM realPhys m p b.eqs 0).mulVec (fun _ => 1)
    | _ => fun _ => 0
  let y := GGCE.assemble b.eqs Y
  have hy0 : unknowns b.eqs y 0 = fun _ => 1 := hr.unknowns_assemble Y (by omega)
  have hy1 : unknowns b.eqs y 1 = (alphaM realPhys m p b.eqs 0).mulVec (fun _ => 1) := hr.unknowns_assemble Y (by omega)
  have hmul : (betaM realPhys m p b.eqs 0 * alphaM realPhys m p b.eqs 0) hr.i0 hr.i0 =
      (betaM realPhys m p b.eqs 0).mulVec (unknowns b.eqs y 1) hr.i0 := by
    rw [hy1, Matrix.mulVec_mulVec]
    simp only [Matrix.mulVec, dotProduct, mul_one]
    rw [Finset.sum_eq_single hr.i0]
    · intro j _ hj; exact absurd (hr.eq_i0 j) hj
    · simp
  obtain ⟨g, hv, hg, hgr, hgid, hg0⟩ := hr.vals_zero
  have hi0 : (b.eqs.vals 0)[hr.i0.val]? = some g := by rw [hv]; rfl
  have h2 := hr.fill_apply (n := 0) (n' := 1) (by omega) (by omega) (hr.fillV_entry realPhys p (by omega) (by omega)) y hr.i0 g hi0
  rw [hmul, show betaM realPhys m p b.eqs 0 = toMatrix _ _ (fillV realPhys m p b.eqs 0 1) from rfl, h2]
  -- the Green's function equation
  obtain ⟨a, ha, δ, hδ, hge⟩ := (hL.mem_allEqs hm.toListsOk hd g).1 hg
  have hav : a = vac m := by
    rcases ha with h | h
    · exact h
    · exfalso
      obtain ⟨ts, e1, -⟩ := hL.eqn a h
      rw [hge] at hgr
      simp [full, e1] at hgr
  subst hav
  have hterms : g.terms = greenTerms m := by
    rw [hge, hL.eqn_vac]
    show (greenTerms m).map (incr δ) = _
    conv_rhs => rw [← List.map_id (greenTerms m)]
    refine List.map_congr_left (fun t ht => ?_)
    obtain ⟨h, -, rfl⟩ := List.mem_map.1 ht
    rfl
  -- the value of an unknown with one phonon
  have hval : ∀ h ∈ m.ham.terms, h.dag = .plus → y (eomOf m h).id = oneBack m p h.phi.tw := by
    intro h hh hp
    have hidx := hm.index h hh
    have h0 : h.phononIndex = 0 := by omega
    have hmem : eomOf m h ∈ g.terms := by
      rw [hterms]
      exact List.mem_map_of_mem (List.mem_filter.2 ⟨hh, by simp [hp]⟩)
    have hcov := hL.deltas_cover (vac m) (Or.inl rfl) (eomOf m h) (by rw [hL.eqn_vac]; rw [hterms] at hmem; exact hmem)
    obtain ⟨δ', hδ', htw⟩ := hcov
    have hc : (eomOf m h).config = single m.nTypes 0 := by rw [← h0]; rfl
    rw [hc] at hδ'
    have heq : full (L.eqn (single m.nTypes 0)) δ' ∈ allEqs b.eqs :=
      (hL.mem_allEqs hm.toListsOk hd _).2 ⟨_, Or.inr hs, δ', hδ', rfl⟩
    obtain ⟨ts, e1, -⟩ := hL.eqn _ hs
    have hid : (full (L.eqn (single m.nTypes 0)) δ').id = (eomOf m h).id := by
      rw [Term.id, Equation.id, full, hL.eqn_config (Or.inr hs), hc, termId_eq_iff hs.2.2.wf hs.2.2.wf]
      exact ⟨Or.inr rfl, by simp [htw]⟩
    have htot : (full (L.eqn (single m.nTypes 0)) δ').config.total = ((1 : ℕ) : ℤ) := by
      show (L.eqn _).config.total = _
      rw [e1]
      exact single_phonons hlt
    have hv1 := (hr.mem_vals (n := 1) (by omega)).2 ⟨heq, htot⟩
    obtain ⟨i, hi⟩ := List.mem_iff_getElem?.1 hv1
    have hilt : i < blockDim (localBasis b.eqs) 1 := by
      rw [hr.blockDim (by omega)]; exact (List.getElem?_eq_some_iff.1 hi).1
    have h3 := congrFun hy1 ⟨i, hilt⟩
    have h4 := hr.fill_apply (n := 1) (n' := 0) (by omega) (by omega)
      (hr.fillV_entry realPhys p (by omega) (by omega)) (fun _ => 1) ⟨i, hilt⟩ _ hi
    have h5 : unknowns b.eqs (fun _ => (1 : ℂ)) 0 = fun _ => 1 := by
      funext j
      rw [hr.eq_i0 j]
      unfold unknowns
      rw [hi0]; rfl
    rw [h5] at h4
    rw [show alphaM realPhys m p b.eqs 0 = toMatrix _ _ (fillV realPhys m p b.eqs 1 0) from rfl, h4,
      back_sum hm hL h1, htw] at h3
    rw [← hid, ← show (eomOf m h).fArg.tw = h.phi.tw from rfl, ← h3]
    unfold unknowns
    rw [hi]; rfl
  rw [hterms]
  unfold oneSelf greenTerms
  have hall : ∀ hs : List (SingleTerm ℝ), (∀ h ∈ hs, h ∈ m.ham.terms) →
      ((((hs.filter (fun h => h.dag = .plus)).map (eomOf m))).map (fun t =>
        if t.config.total = ((1 : ℕ) : ℤ) then coefV realPhys m p t * y t.id else 0)).sum =
      G0 * (hs.map (fun h => if h.dag = .plus then (h.coupling : ℂ) * ph m p (h.psi.tw - h.phi.tw) *
        oneBack m p h.phi.tw else 0)).sum := by
    intro hs hsub
    induction hs with
    | nil => simp
    | cons h hs ih =>
      have ih' := ih (fun x hx => hsub x (List.mem_cons_of_mem _ hx))
      rw [List.map_cons, List.sum_cons, mul_add, ← ih']
      by_cases hp : h.dag = .plus
      · rw [List.filter_cons_of_pos (by simpa using hp), List.map_cons, List.map_cons, List.sum_cons, if_pos hp]
        congr 1
        have hidx := hm.index h (hsub h List.mem_cons_self)
        rw [if_pos (by
          show (single m.nTypes h.phononIndex).total = _
          exact single_phonons hidx), hval h (hsub h List.mem_cons_self) hp]
        have : coefV realPhys m p (eomOf m h) = (h.coupling : ℂ) * G0 * ph m p (h.psi.tw - h.phi.tw) := by
          unfold coefV Term.coefficient
          simp only [eomOf]
          rfl
        rw [this]; ring
      · rw [List.filter_cons_of_neg (by simpa using hp), if_neg hp, mul_zero, zero_add]
  exact hall m.ham.terms (fun _ h => h)

end
end GGCE
