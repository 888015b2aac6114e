import Verif.Proofs.OneBoson
import Verif.Proofs.Twin
import Verif.Props.Spectral

/-! Models that differ only in the hopping and the lattice constant. -/

set_option linter.unusedSectionVars false

namespace GGCE
open Spec Arr Dict

section
variable {R K : Type} [Field R] [LinearOrder R] [Field K]

/-- the model with another hopping and lattice constant -/
def withBand (m : Model R) (t a : R) : Model R :=
  { m with ham := { m.ham with hopping := t }, latticeConstant := a }

theorem initTerms_withBand (m : Model R) (t a : R) (c : Arr) (hs : List (SingleTerm R)) :
    initTerms (withBand m t a) c hs = initTerms m c hs := by
  induction hs with
  | nil => rfl
  | cons h hs ih => simp only [initTerms, ih]; rfl

/-- neither enters the equations, only their coefficients -/
theorem buildSystem_withBand (σ : SetOrder) (m : Model R) (t a : R) :
    buildSystem σ (withBand m t a) = buildSystem σ m := by
  have h1 : ∀ c, mkEquation (withBand m t a) c = mkEquation m c := by
    intro c; unfold mkEquation; rw [initTerms_withBand]; rfl
  have h2 : initGeneralized σ (withBand m t a) = initGeneralized σ m := by
    funext confs; unfold initGeneralized; simp only [h1]; rfl
  unfold buildSystem
  rw [h2]; rfl

theorem Spec.WellFormed.withBand {m : Model R} {ae : Int} (hm : WellFormed m ae) (t a : R) :
    WellFormed (withBand m t a) ae where
  ext := hm.ext
  num := hm.num
  absExtent := hm.absExtent
  freqs := hm.freqs
  index := hm.index
  dim := hm.dim
  types := hm.types
  aePos := hm.aePos
  extPos := hm.extPos
  numPos := hm.numPos
  capPos := hm.capPos
  plus := hm.plus
  minus := hm.minus
  dtype := hm.dtype

theorem fraction_congr {d : Nat → Nat} {A A' : ∀ n, Matrix (Fin (d (n + 1))) (Fin (d n)) K}
    {B B' : ∀ n, Matrix (Fin (d n)) (Fin (d (n + 1))) K} (s n : Nat)
    (hA : ∀ k, n ≤ k → k ≤ n + s → A k = A' k) (hB : ∀ k, n < k → k ≤ n + s → B k = B' k) :
    fraction A B s n = fraction A' B' s n := by
  induction s generalizing n with
  | zero => rw [fraction, fraction, hA n le_rfl (by omega)]
  | succ s ih =>
    rw [fraction, fraction, ih (n + 1) (fun k h1 h2 => hA k (by omega) (by omega))
      (fun k h1 h2 => hB k (by omega) (by omega)), hA n le_rfl (by omega), hB (n + 1) (by omega) (by omega)]

/-- If two systems differ only in the free propagator of the Green's function equation, their results differ by
that in `1/G`. -/
theorem dense_shift {m m' : Model R} {eqs : Dict Nat (List (Equation R))} (hr : Ready m eqs) (hr' : Ready m' eqs)
    (hnum : m'.number = m.number) (hN : 1 ≤ m.number.sum.toNat) (F : Phys R K) (p p' : Point R) {g0 g0' : K}
    (hg : F.G0 p.k p.w m.latticeConstant p.eta m.ham.hopping = g0)
    (hg' : F.G0 p'.k p'.w m'.latticeConstant p'.eta m'.ham.hopping = g0') (h0 : g0 ≠ 0) (h0' : g0' ≠ 0)
    (hcl : ∀ e ∈ allEqs eqs, e.config.total ≠ 0 → ∀ t ∈ e.terms, coefV F m' p' t = coefV F m p t)
    (hgr : ∀ e ∈ allEqs eqs, e.config.total = 0 → ∀ t ∈ e.terms, coefV F m' p' t = g0' / g0 * coefV F m p t)
    {G : K} (hG : denseSolve F m p (localBasis eqs) eqs = .ok (some G)) :
    G ≠ 0 ∧ (1 / G + (1 / g0' - 1 / g0) ≠ 0 → denseSolve F m' p' (localBasis eqs) eqs =
      .ok (some (1 / (1 / G + (1 / g0' - 1 / g0))))) := by
  classical
  rw [hr.denseSolve_eq F p hN] at hG
  have hA : ∀ k, k + 1 ≤ m.number.sum.toNat → alphaM F m p eqs k = alphaM F m' p' eqs k := by
    intro k hk
    ext i j
    have hi : i.val < (eqs.vals (k + 1)).length := by rw [← hr.blockDim hk]; exact i.isLt
    have hg := List.getElem?_eq_getElem hi
    have hmem := (hr.mem_vals hk).1 (List.mem_of_getElem? hg)
    show cooEntry _ _ _ = cooEntry _ _ _
    rw [hr.fillV_entry F p hk (by omega) _ _ hg, hr'.fillV_entry F p' (by rw [hnum]; exact hk) (by rw [hnum]; omega) _ _ hg]
    congr 1
    refine List.map_congr_left (fun t ht => ?_)
    rw [hcl _ hmem.1 (by rw [hmem.2]; push_cast; omega) t ht]
  have hB : ∀ k, 0 < k → k + 1 ≤ m.number.sum.toNat → betaM F m p eqs k = betaM F m' p' eqs k := by
    intro k hk0 hk
    ext i j
    have hi : i.val < (eqs.vals k).length := by rw [← hr.blockDim (by omega)]; exact i.isLt
    have hg := List.getElem?_eq_getElem hi
    have hmem := (hr.mem_vals (by omega)).1 (List.mem_of_getElem? hg)
    show cooEntry _ _ _ = cooEntry _ _ _
    rw [hr.fillV_entry F p (by omega) hk _ _ hg, hr'.fillV_entry F p' (by rw [hnum]; omega) (by rw [hnum]; exact hk) _ _ hg]
    congr 1
    refine List.map_congr_left (fun t ht => ?_)
    rw [hcl _ hmem.1 (by rw [hmem.2]; omega) t ht]
  have hB0 : betaM F m' p' eqs 0 = (g0' / g0) • betaM F m p eqs 0 := by
    ext i j
    have hi : i.val < (eqs.vals 0).length := by rw [← hr.blockDim (by omega)]; exact i.isLt
    have hg := List.getElem?_eq_getElem hi
    have hmem := (hr.mem_vals (by omega)).1 (List.mem_of_getElem? hg)
    show cooEntry _ _ _ = (g0' / g0) * cooEntry _ _ _
    rw [hr.fillV_entry F p (by omega) hN _ _ hg, hr'.fillV_entry F p' (by rw [hnum]; omega) (by rw [hnum]; exact hN) _ _ hg,
      ← List.sum_map_mul_left]
    congr 1
    refine List.map_congr_left (fun t ht => ?_)
    rw [hgr _ hmem.1 hmem.2 t ht]
    split
    · split
      · rfl
      · rw [mul_zero]
    · rw [mul_zero]
  have hfr : fraction (alphaM F m p eqs) (betaM F m p eqs) (m.number.sum.toNat - 1) 0 =
      fraction (alphaM F m' p' eqs) (betaM F m' p' eqs) (m.number.sum.toNat - 1) 0 :=
    fraction_congr _ _ (fun k _ h2 => hA k (by omega)) (fun k h1 h2 => hB k h1 (by omega))
  rw [hr'.denseSolve_eq F p' (by rw [hnum]; exact hN), hnum, ← hfr]
  cases hR : fraction (alphaM F m p eqs) (betaM F m p eqs) (m.number.sum.toNat - 1) 0 with
  | error e => rw [hR] at hG; cases hG
  | ok R1 =>
    rw [hR] at hG
    simp only [bind, Except.bind] at hG ⊢
    split at hG
    · cases hG
    · rename_i hD
      rw [hg] at hG
      simp only [Except.ok.injEq, Option.some.injEq] at hG
      have hi : hr'.i0 = hr.i0 := rfl
      rw [hB0, Matrix.smul_mul, Matrix.smul_apply, smul_eq_mul, hi, hg']
      set D := (betaM F m p eqs 0 * R1) hr.i0 hr.i0 with hDd
      have hG0 : G ≠ 0 := by rw [← hG]; exact div_ne_zero h0 hD
      refine ⟨hG0, fun hne => ?_⟩
      have e1 : 1 / G = (1 - D) / g0 := by rw [← hG, one_div, inv_div]
      have e2 : 1 - g0' / g0 * D = g0' * (1 / G + (1 / g0' - 1 / g0)) := by
        rw [e1]; field_simp; ring
      rw [e2, if_neg (mul_ne_zero h0' hne)]
      congr 2
      field_simp

end

theorem Layout.Ok.from_mem {L : Layout ℝ} {m : Model ℝ} {ae : Int} (hL : L.Ok m ae) {a : Arr} (ha : Node m ae a)
    {t : Term ℝ} (ht : t ∈ (L.eqn a).terms) : ∃ h ∈ m.ham.terms, ∃ γ, From m ae a h γ t := by
  rcases ha with rfl | ha
  · rw [hL.eqn_vac] at ht
    obtain ⟨h, hh, rfl⟩ := List.mem_map.1 ht
    obtain ⟨hh, hd⟩ := List.mem_filter.1 hh
    exact ⟨h, hh, 0, Or.inr ⟨rfl, by simpa using hd, rfl, rfl⟩⟩
  · obtain ⟨ts, e1, e2⟩ := hL.eqn a ha
    rw [e1] at ht
    obtain ⟨h, hh, γ, -, hp⟩ := e2.mem ht
    exact ⟨h, hh, γ, Or.inl ⟨ha, hp⟩⟩

/-! ### negative hopping -/

theorem g0R_neg (d w a eta t : ℝ) : g0R d w a eta (-t) = g0R d w a eta t := by
  unfold g0R
  simp only [neg_eq_zero, abs_neg]

/-- the coefficients of the equations of clouds and of the Green's function -/
theorem coef_withBand_neg {σ : SetOrder} {m : Model ℝ} {ae : Int} (hm : WellFormed m ae) {b : Built ℝ}
    (hb : buildSystem σ m = .ok b) (p : Point ℝ) {g0 g0' : ℂ} (h0 : g0 ≠ 0)
    (hg : realPhys.G0 p.k p.w m.latticeConstant p.eta m.ham.hopping = g0)
    (hg' : realPhys.G0 p.k p.w m.latticeConstant p.eta (-m.ham.hopping) = g0') :
    (∀ e ∈ allEqs b.eqs, e.config.total ≠ 0 → ∀ t ∈ e.terms,
      coefV realPhys (withBand m (-m.ham.hopping) m.latticeConstant) p t = coefV realPhys m p t) ∧
    (∀ e ∈ allEqs b.eqs, e.config.total = 0 → ∀ t ∈ e.terms,
      coefV realPhys (withBand m (-m.ham.hopping) m.latticeConstant) p t = g0' / g0 * coefV realPhys m p t) := by
  obtain ⟨b', L, h1, hL, hd⟩ := buildSystem_ok σ hm
  rw [hb] at h1; cases h1
  constructor
  · intro e he h t ht
    obtain ⟨a, ha, δ, hδ, rfl⟩ := (hL.mem_allEqs hm.toListsOk hd e).1 he
    rcases ha with rfl | ha
    · exfalso
      apply h
      show (L.eqn (vac m)).config.total = 0
      rw [hL.eqn_vac]; exact vac_total m
    obtain ⟨t0, ht0, rfl⟩ := List.mem_map.1 ht
    obtain ⟨h', -, γ, hp⟩ := hL.from_mem (Or.inr ha) ht0
    rcases hp with ⟨-, hp⟩ | ⟨e, -⟩
    · have hk : (incr δ t0).kind ≠ .eom := by
        have : (incr δ t0).kind = t0.kind := by unfold incr; split <;> rfl
        rw [this, hp.kind]; cases h'.dag <;> simp
      unfold coefV Term.coefficient
      simp only [withBand]
      cases hkk : (incr δ t0).kind with
      | eom => exact absurd hkk hk
      | _ =>
        cases (incr δ t0).gArg with
        | none => rfl
        | some g =>
          show _ * _ * g0R _ _ _ _ (-_) = _ * _ * g0R _ _ _ _ _
          rw [g0R_neg]
    · exfalso
      subst e
      exact total_ne_zero ha (vac_total m)
  · intro e he h t ht
    obtain ⟨a, ha, δ, hδ, rfl⟩ := (hL.mem_allEqs hm.toListsOk hd e).1 he
    rcases ha with rfl | ha
    · obtain ⟨t0, ht0, rfl⟩ := List.mem_map.1 ht
      rw [hL.eqn_vac] at ht0
      obtain ⟨h', -, rfl⟩ := List.mem_map.1 ht0
      show coefV _ _ _ (eomOf m h') = _ * coefV _ _ _ (eomOf m h')
      unfold coefV Term.coefficient
      simp only [eomOf, withBand]
      rw [hg, hg']
      field_simp
    · exfalso
      obtain ⟨ts, e1, -⟩ := hL.eqn a ha
      apply total_ne_zero ha
      have : (L.eqn a).config.total = 0 := h
      rwa [e1] at this

/-! ### clouds of one site -/

/-- Clouds of one site and couplings on the electron's site: no term has a distance or a phase. -/
theorem local_terms {σ : SetOrder} {m : Model ℝ} (hm : WellFormed m 1) {b : Built ℝ}
    (hb : buildSystem σ m = .ok b) (hs : ∀ h ∈ m.ham.terms, h.psi.tw = 0 ∧ h.phi.tw = 0) :
    ∀ e ∈ allEqs b.eqs, ∀ t ∈ e.terms, t.expShift.tw = 0 ∧ gtw t = 0 := by
  obtain ⟨b', L, h1, hL, hd⟩ := buildSystem_ok σ hm
  rw [hb] at h1; cases h1
  have hlen : ∀ a : Arr, InTruncation m 1 a → ∀ t x, chain a t x ≠ 0 → x = 0 := by
    intro a ha t x hx
    by_contra hc
    apply hx
    refine chain_outside ha.2.2.wf ?_
    rintro ⟨-, h2, h3⟩
    have := ha.1
    omega
  have key : ∀ a, Node m 1 a → ∀ t ∈ (L.eqn a).terms, t.expShift.tw = 0 ∧ t.fArg.tw = 0 ∧ gtw t = 0 := by
    intro a ha t ht
    obtain ⟨h, hh, γ, hf⟩ := hL.from_mem ha ht
    obtain ⟨s1, s2⟩ := hs h hh
    rcases hf with ⟨ha, hp⟩ | ⟨-, -, -, rfl⟩
    · obtain ⟨g, hg, hgt⟩ := hp.gArg
      obtain ⟨ta, hta⟩ := ha.2.2.toCloud.left
      have hgt' : gtw t = 2 * γ := by unfold gtw; rw [hg]; simp [hgt, s1, s2]
      rcases hp.cloud with ⟨hT, o, hact, hfa, hex⟩ | ⟨hv, hact, hfa, hex⟩
      · have hγo : γ = 0 ∧ o = 0 := by
          obtain ⟨tb, htb⟩ := hT.2.2.toCloud.left
          cases hdg : h.dag with
          | plus =>
            rw [hdg] at hact
            have c1 := hact.2 ta 0
            have c2 := hact.2 h.phononIndex γ
            have n1 := chain_nonneg ha.2.2.toProper ta 0
            have n2 := chain_nonneg ha.2.2.toProper h.phononIndex γ
            have o1 : (0 : ℤ) - o = 0 := hlen _ hT ta _ (by
              rw [c1]; simp only [Dag.delta]; split <;> omega)
            have o2 : γ - o = 0 := hlen _ hT h.phononIndex _ (by
              rw [c2, if_pos ⟨rfl, rfl⟩]; simp only [Dag.delta]; omega)
            omega
          | minus =>
            rw [hdg] at hact
            have c2 := hact.2 h.phononIndex γ
            rw [if_pos ⟨rfl, rfl⟩] at c2
            have n2 := chain_nonneg hT.2.2.toProper h.phononIndex (γ - o)
            have g0 : γ = 0 := hlen _ ha h.phononIndex _ (by simp only [Dag.delta] at c2; omega)
            have c1 := hact.2 tb (0 + o)
            rw [add_sub_cancel_right] at c1
            have n1 := chain_nonneg hT.2.2.toProper tb 0
            have o1 : 0 + o = 0 := hlen _ ha tb _ (by
              intro hc
              rw [hc] at c1
              simp only [Dag.delta] at c1
              split at c1 <;> omega)
            omega
        omega
      · have hγ : γ = 0 := by
          cases hdg : h.dag with
          | plus =>
            rw [hdg] at hact
            have c2 := hact.2 h.phononIndex γ
            rw [if_pos ⟨rfl, rfl⟩, hv.empty] at c2
            have n2 := chain_nonneg ha.2.2.toProper h.phononIndex γ
            simp only [Dag.delta] at c2
            omega
          | minus =>
            rw [hdg] at hact
            have c2 := hact.2 h.phononIndex γ
            rw [if_pos ⟨rfl, rfl⟩, hv.empty] at c2
            exact hlen _ ha h.phononIndex _ (by simp only [Dag.delta] at c2; omega)
        omega
    · refine ⟨?_, s2, rfl⟩
      show h.psi.tw - h.phi.tw = 0
      omega
  intro e he t ht
  obtain ⟨a, ha, δ, hδ, rfl⟩ := (hL.mem_allEqs hm.toListsOk hd e).1 he
  obtain ⟨t0, ht0, rfl⟩ := List.mem_map.1 ht
  obtain ⟨a', ha', t', ht', e1, e2⟩ := hL.deltas_sub a ha δ hδ
  have hδ0 : δ.tw = 0 := by rw [← e2]; exact (key a' ha' t' ht').2.1
  obtain ⟨k1, -, k3⟩ := key a ha t0 ht0
  unfold incr
  split
  · exact ⟨k1, k3⟩
  · refine ⟨k1, ?_⟩
    unfold gtw at k3 ⊢
    cases hg : t0.gArg with
    | none => rfl
    | some g => rw [hg] at k3; simp only [Option.map_some, Option.getD_some] at k3 ⊢; omega

/-- Two bands with the same free propagator of the state without phonons, and the same functions in all
coefficients. -/
theorem twin_band {m : Model ℝ} {eqs : Dict Nat (List (Equation ℝ))} {t' a' : ℝ} {p p' : Point ℝ}
    (hw : p'.w = p.w)
    (hG : realPhys.G0 p'.k p'.w a' p'.eta t' = realPhys.G0 p.k p.w m.latticeConstant p.eta m.ham.hopping)
    (hc : ∀ e ∈ allEqs eqs, ∀ t ∈ e.terms,
      realPhys.expI (p'.k * (a' * t.expShift.val)) = realPhys.expI (p.k * (m.latticeConstant * t.expShift.val)) ∧
      ∀ g, t.gArg = some g → ∀ w, realPhys.g0 g.val w a' p'.eta t' = realPhys.g0 g.val w m.latticeConstant p.eta m.ham.hopping) :
    Twin realPhys (fun _ => 1) m (withBand m t' a') p p' (fun t => t) eqs where
  sq _ := one_mul 1
  number := rfl
  config _ := rfl
  fArg _ := rfl
  g0 := hG
  coef e he t ht n n' _ _ := by
    obtain ⟨h1, h2⟩ := hc e he t ht
    rw [hw] at hG
    unfold Term.coefficient
    simp only [withBand, h1, hG, hw]
    cases hk : t.kind with
    | eom => simp [Except.map]
    | _ =>
      cases hg : t.gArg with
      | none => rfl
      | some g => simp only [h2 g hg, Except.map, one_mul]

end GGCE
