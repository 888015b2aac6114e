import Verif.Spec.Size
import Verif.Proofs.Links
import Verif.Spec.Modes
import Verif.Proofs.Basis
import Verif.Proofs.Ready

/-! Counting the equations and the entries of the matrix. -/

set_option linter.unusedSectionVars false

namespace GGCE

open GGCE.Spec Arr

variable {R K : Type} [Field R] [Field K]

/-- a phonon sits within the array -/
theorem chain_inside {a : Arr} (h : a.WF) {t : ℕ} {x : ℤ} (hx : chain a t x ≠ 0) : 0 ≤ x ∧ x < a.len := by
  by_contra hc
  exact hx (chain_outside h fun h' => hc h'.2)

/-- where a creation can act, and where the larger cloud begins -/
theorem acted_plus_bounds {a b : Arr} (ha : Cloud a) (hb : b.WF) {t : ℕ} {γ o : ℤ} (h : Acted a .plus t γ b o) :
    0 ≤ γ - o ∧ γ - o < b.len ∧ o ≤ 0 ∧ a.len - 1 - o < b.len := by
  have hn := fun t y => chain_nonneg ha.toProper t y
  have key : ∀ t' y, chain a t' y ≠ 0 → chain b t' (y - o) ≠ 0 := by
    intro t' y hy
    rw [h.2 t' y]
    have := hn t' y
    split
    · simp only [Dag.delta]; omega
    · omega
  have h1 : chain b t (γ - o) ≠ 0 := by
    rw [h.2 t γ, if_pos ⟨rfl, rfl⟩]
    have := hn t γ
    simp only [Dag.delta]; omega
  obtain ⟨t0, h0⟩ := ha.left
  obtain ⟨t1, h2⟩ := ha.right
  have e0 := chain_inside hb h1
  have e1 := chain_inside hb (key _ _ h0)
  have e2 := chain_inside hb (key _ _ h2)
  omega

/-- a creation acts at one of `2 * ae - 1` sites -/
theorem possible_plus {m : Model R} {ae : ℤ} {a : Arr} (ha : InTruncation m ae a) {h : SingleTerm R} {γ : ℤ}
    (hd : h.dag = .plus) (hp : Possible m ae a h γ) : 1 - ae ≤ γ ∧ γ ≤ ae - 1 := by
  obtain ⟨-, b, o, h1, h2⟩ := hp
  rw [hd] at h1
  have hca := ha.2.2.toCloud
  rcases h2 with h2 | h2
  · have := acted_plus_bounds hca h2.wf h1
    have e := h1.2 h.phononIndex γ
    rw [h2.empty, if_pos ⟨rfl, rfl⟩] at e
    have := chain_nonneg hca.toProper h.phononIndex γ
    simp only [Dag.delta] at e
    omega
  · have := acted_plus_bounds hca h2.2.2.wf h1
    have := hca.pos
    have := h2.1
    omega

/-- a destruction acts at one of `ae` sites -/
theorem possible_minus {m : Model R} {ae : ℤ} {a : Arr} (ha : InTruncation m ae a) {h : SingleTerm R} {γ : ℤ}
    (hd : h.dag = .minus) (hp : Possible m ae a h γ) : 0 ≤ γ ∧ γ ≤ ae - 1 := by
  have h1 := hp.1 hd
  have := chain_inside ha.2.2.wf (t := h.phononIndex) (x := γ) (by omega)
  have := ha.1
  omega

theorem length_le_of_mem_Icc {ps : List ℤ} (h : ps.Pairwise (· < ·)) {lo hi : ℤ} (hp : ∀ γ ∈ ps, lo ≤ γ ∧ γ ≤ hi) :
    ps.length ≤ (hi + 1 - lo).toNat := by
  have hn : ps.Nodup := h.imp fun h => h.ne
  rw [← List.toFinset_card_of_nodup hn, ← Int.card_Icc]
  apply Finset.card_le_card
  intro γ hγ
  rw [Finset.mem_Icc]
  exact hp γ (List.mem_toFinset.1 hγ)

/-- how many terms an equation has -/
theorem Rhs.length_le {m : Model R} {ae : ℤ} {a : Arr} (ha : InTruncation m ae a) :
    ∀ {hs : List (SingleTerm R)} {ts : List (Term R)}, Rhs m ae a hs ts →
      ts.length ≤ (hs.filter (fun h => h.dag = .minus)).length * ae.toNat +
        (hs.filter (fun h => h.dag = .plus)).length * (2 * ae - 1).toNat := by
  rintro hs ts ⟨tss, rfl, h⟩
  induction h with
  | nil => simp
  | @cons h th hs tss hh _ ih =>
    obtain ⟨ps, h1, h2, h3⟩ := hh
    have hlen := h3.length_eq
    rw [List.flatten_cons, List.length_append]
    cases hd : h.dag with
    | plus =>
      have := length_le_of_mem_Icc h1 fun γ hγ => possible_plus ha hd ((h2 γ).1 hγ)
      rw [show ae - 1 + 1 - (1 - ae) = 2 * ae - 1 by ring] at this
      simp only [List.filter_cons, hd, reduceCtorEq, decide_false, decide_true, if_true, Bool.false_eq_true, if_false,
        List.length_cons, Nat.add_mul, one_mul]
      omega
    | minus =>
      have := length_le_of_mem_Icc h1 fun γ hγ => possible_minus ha hd ((h2 γ).1 hγ)
      rw [show ae - 1 + 1 - 0 = ae by ring] at this
      simp only [List.filter_cons, hd, reduceCtorEq, decide_false, decide_true, if_true, Bool.false_eq_true, if_false,
        List.length_cons, Nat.add_mul, one_mul]
      omega

/-- how many terms the equation of a node has -/
theorem Layout.Ok.terms_le {L : Layout R} {m : Model R} {ae : Int} (hm : Shaped m ae) (hL : L.Ok m ae) {a : Arr}
    (ha : Node m ae a) : (L.eqn a).terms.length + 1 ≤ rowBound m ae := by
  have hae := hm.aePos
  rcases ha with rfl | ha
  · rw [hL.eqn_vac]
    have h1 : 1 ≤ (2 * ae - 1).toNat := by omega
    have h2 : (greenEq m).terms.length = dagCount m .plus := by
      simp only [greenEq, greenTerms, dagCount, List.length_map]
    rw [h2, rowBound]
    have := Nat.mul_le_mul_left (dagCount m .plus) h1
    omega
  · obtain ⟨ts, e1, e2⟩ := hL.eqn a ha
    rw [e1, rowBound]
    have := e2.length_le ha
    simp only [dagCount] at *
    omega

/-- the arguments of a cloud are shifts of the Hamiltonian moved by fewer than `ae` sites -/
theorem Layout.Ok.delta_near {L : Layout R} {m : Model R} {ae : Int} (hm : Shaped m ae) (hL : L.Ok m ae) {a : Arr}
    (ha : InTruncation m ae a) {δ : Num} (hδ : δ ∈ L.deltas a) :
    δ.tw ∈ argSet m ae := by
  have mem : ∀ h ∈ m.ham.terms, ∀ j : ℤ, 1 - ae ≤ j → j ≤ ae - 1 → ∀ x, x = h.phi.tw + 2 * j → x ∈ argSet m ae := by
    intro h hh j h1 h2 x hx
    refine Finset.mem_image.2 ⟨(h.phi.tw, j), Finset.mem_product.2 ⟨?_, Finset.mem_Icc.2 ⟨h1, h2⟩⟩, hx.symm⟩
    exact List.mem_toFinset.2 (List.mem_map.2 ⟨h, hh, rfl⟩)
  have hae := hm.aePos
  obtain ⟨c, hc, t, ht, rfl, rfl⟩ := hL.deltas_sub a (Or.inr ha) δ hδ
  rcases hc with rfl | hc
  · rw [hL.eqn_vac] at ht
    obtain ⟨h, hh, rfl⟩ := List.mem_map.1 ht
    have hh := (List.mem_filter.1 hh).1
    exact mem h hh 0 (by omega) (by omega) _ (by simp [eomOf])
  · obtain ⟨ts, e1, e2⟩ := hL.eqn c hc
    rw [e1] at ht
    obtain ⟨tss, rfl, e3⟩ := e2
    obtain ⟨th, hth, ht⟩ := List.mem_flatten.1 ht
    obtain ⟨h, hh, ps, -, -, k3⟩ := forall₂_exists_left e3 hth
    obtain ⟨γ, -, hp⟩ := forall₂_exists_left k3 ht
    rcases hp.cloud with ⟨-, o, k1, k2, -⟩ | ⟨k1, -⟩
    · refine mem h hh (o - γ) ?_ ?_ _ (by rw [k2]; ring)
      all_goals
        have := ha.1
        have := hc.1
        have hca := ha.2.2.toCloud
        have hcc := hc.2.2.toCloud
        cases hd : h.dag with
        | plus =>
          rw [hd] at k1
          have := acted_plus_bounds hcc hca.wf k1
          omega
        | minus =>
          rw [hd] at k1
          have := acted_plus_bounds hca hcc.wf (acted_symm' k1)
          have := hca.pos
          omega
    · obtain ⟨t0, h0⟩ := ha.2.2.toCloud.left
      exact absurd (k1.empty t0 0) h0

/-! ### the arguments of a cloud -/

theorem acted_adjoint {a b : Arr} {h : SingleTerm R} {γ o : Int} (H : Acted a h.dag h.phononIndex γ b o) :
    Acted b (adjoint h).dag (adjoint h).phononIndex (γ - o) a (-o) := by
  unfold adjoint
  cases hd : h.dag with
  | plus => rw [hd] at H; exact acted_symm H
  | minus => rw [hd] at H; exact acted_symm' H

theorem acted_adjoint' {a b : Arr} {h : SingleTerm R} {γ o : Int}
    (H : Acted a (adjoint h).dag (adjoint h).phononIndex γ b o) : Acted b h.dag h.phononIndex (γ - o) a (-o) := by
  unfold adjoint at H
  cases hd : h.dag with
  | plus => rw [hd] at H; exact acted_symm' H
  | minus => rw [hd] at H; exact acted_symm H

theorem occupied_of_acted {a b : Arr} (ha : ∀ t y, 0 ≤ chain a t y) {t : ℕ} {γ o : ℤ} (h : Acted a .plus t γ b o) :
    1 ≤ chain b t (γ - o) := by
  have := ha t γ
  rw [h.2 t γ, if_pos ⟨rfl, rfl⟩]
  simp only [Dag.delta]; omega

/-- the arguments of a cloud: `φ - y` where the adjoint of a Hamiltonian term can act at `y` -/
theorem Layout.Ok.delta_iff [LinearOrder R] {L : Layout R} {m : Model R} {ae : Int} (hm : Shaped m ae) (hL : L.Ok m ae)
    {a : Arr} (ha : InTruncation m ae a) (x : ℤ) : x ∈ (L.deltas a).map Num.tw ↔
      ∃ h ∈ m.ham.terms, ∃ y, Possible m ae a (adjoint h) y ∧ x = h.phi.tw - 2 * y := by
  have hca := ha.2.2.toCloud
  have hvac : ∀ t y, (0 : ℤ) ≤ chain (vac m) t y := fun t y => by rw [chain_vac]
  constructor
  · intro hx
    obtain ⟨δ, hδ, rfl⟩ := List.mem_map.1 hx
    obtain ⟨c, hc, t, ht, h1, h2⟩ := hL.deltas_sub a (Or.inr ha) δ hδ
    rcases hc with rfl | hc
    · rw [hL.eqn_vac] at ht
      obtain ⟨h, hh, rfl⟩ := List.mem_map.1 ht
      obtain ⟨hh, hd⟩ := List.mem_filter.1 hh
      have hd : h.dag = .plus := by simpa using hd
      refine ⟨h, hh, 0, ?_, by rw [← h2]; simp [eomOf]⟩
      have hact : Acted (vac m) .plus h.phononIndex 0 a 0 := by
        subst h1
        refine ⟨by simp [eomOf, single, vac, Arr.zeros], fun t' y => ?_⟩
        rw [chain_vac]
        simp only [eomOf]
        rw [single_chain (hm.index h hh)]
        simp [Dag.delta]
      refine ⟨fun _ => ?_, vac m, 0, ?_, Or.inl (zeros_vacuum _)⟩
      · exact occupied_of_acted hvac hact
      · exact acted_adjoint (h := h) (γ := 0) (o := 0) (by rw [hd]; exact hact)
    · obtain ⟨ts, e1, e2⟩ := hL.eqn c hc
      rw [e1] at ht
      obtain ⟨h, hh, γ, -, hp⟩ := e2.mem ht
      rcases hp.cloud with ⟨-, o, k1, k2, -⟩ | ⟨k1, -⟩
      · rw [h1] at k1
        refine ⟨h, hh, γ - o, ⟨fun hd => ?_, c, -o, acted_adjoint k1, Or.inr hc⟩, by rw [← h2, k2]; ring⟩
        have hd' : h.dag = .plus := by
          unfold adjoint at hd
          cases h' : h.dag with
          | plus => rfl
          | minus => rw [h'] at hd; cases hd
        rw [hd'] at k1
        exact occupied_of_acted (fun t y => chain_nonneg hc.2.2.toProper t y) k1
      · rw [h1] at k1
        obtain ⟨t0, h0⟩ := hca.left
        exact absurd (k1.empty t0 0) h0
  · rintro ⟨h, hh, y, ⟨hocc, c, o, hact, hc⟩, rfl⟩
    have hback := acted_adjoint' hact
    have hcn : ∀ t y, 0 ≤ chain c t y := by
      rcases hc with hc | hc
      · intro t y; rw [hc.empty]
      · exact fun t y => chain_nonneg hc.2.2.toProper t y
    have hcw : c.WF := by
      rcases hc with hc | hc
      · exact hc.wf
      · exact hc.2.2.wf
    have hrows : c.rows.length = m.nTypes := hback.1.symm.trans ha.2.1
    have fin : ∀ b, Node m ae b → ∀ t ∈ (L.eqn b).terms, t.config = a → t.fArg.tw = h.phi.tw - 2 * y →
        h.phi.tw - 2 * y ∈ (L.deltas a).map Num.tw := by
      intro b hb t ht h1 h2
      obtain ⟨δ, hδ, e⟩ := hL.deltas_cover b hb t ht
      rw [h1] at hδ
      exact List.mem_map.2 ⟨δ, hδ, e.trans h2⟩
    rcases hc with hc | hc
    · obtain rfl := vacuum_eq hc hrows
      have hd : h.dag = .plus := by
        cases h' : h.dag with
        | plus => rfl
        | minus =>
          exfalso
          rw [h'] at hback
          have e := hback.2 h.phononIndex (y - o)
          rw [chain_vac, if_pos ⟨rfl, rfl⟩] at e
          have := chain_nonneg hca.toProper h.phononIndex (y - o - -o)
          simp only [Dag.delta] at e
          omega
      rw [hd] at hback
      have hph := phonons_acted hcw hca.wf hback (by rw [hrows]; exact hm.index h hh)
      have h0 : phonons (vac m) = 0 := vac_total m
      rw [h0] at hph
      obtain ⟨t, ht, e⟩ := single_of_phonons_one ha (by simpa [Dag.delta] using hph)
      have e1 := hback.2 h.phononIndex (y - o)
      rw [chain_vac, if_pos ⟨rfl, rfl⟩, e, single_chain ht] at e1
      have e2 : h.phononIndex = t ∧ y = 0 := by
        by_contra hne
        rw [if_neg (by intro h'; exact hne ⟨h'.1, by omega⟩)] at e1
        simp [Dag.delta] at e1
      refine fin (vac m) (Or.inl rfl) (eomOf m h) ?_ ?_ ?_
      · rw [hL.eqn_vac]
        exact List.mem_map.2 ⟨h, List.mem_filter.2 ⟨hh, by simpa using hd⟩, rfl⟩
      · rw [e, ← e2.1]; rfl
      · rw [e2.2]; simp [eomOf]
    · obtain ⟨ts, e1, e2⟩ := hL.eqn c hc
      obtain ⟨t, ht, hp⟩ := e2.exists hh (γ := y - o) ⟨fun hd => by
        rw [hd] at hback
        have := acted_symm' hback
        have := occupied_of_acted (fun t y => chain_nonneg hca.toProper t y) this
        simpa using this, a, -o, hback, Or.inr ha⟩
      rcases hp.cloud with ⟨k0, o', k1, k2, -⟩ | ⟨k0, k1, -⟩
      · obtain ⟨q1, q2⟩ := acted_unique k1 hback k0.2.2.toCloud hca
        exact fin c (Or.inr hc) t (by rw [e1]; exact ht) q1 (by rw [k2, q2]; ring)
      · exfalso
        obtain ⟨t0, h0⟩ := hca.left
        have r1 := hback.2 t0 (-o)
        have r2 := k1.2 t0 (-o)
        rw [show -o - -o = 0 by ring] at r1
        rw [k0.empty, ← r1] at r2
        exact h0 r2.symm

/-- where terms can act if there is one phonon type and no cap: destruction -/
theorem possible_minus_iff [LinearOrder R] {m : Model R} {ae : ℤ} {a : Arr} (ha : InTruncation m ae a) {h : SingleTerm R}
    (hd : h.dag = .minus) (γ : ℤ) : Possible m ae a h γ ↔ 1 ≤ chain a h.phononIndex γ := by
  have hcl := ha.2.2.toCloud
  constructor
  · exact fun hp => hp.1 hd
  · intro hp
    refine ⟨fun _ => hp, ?_⟩
    have h0 : 0 ≤ γ := by
      by_contra hc; rw [chain_of_neg _ _ (by omega)] at hp; omega
    obtain ⟨x, rfl⟩ := Int.eq_ofNat_of_zero_le h0
    obtain ⟨c', s, -, h2, h3, -, -, -, h7⟩ :=
      Config.removePhonon_spec (c := ⟨a, 1, 0⟩) (t := h.phononIndex) (x := x) hcl
        (by simp) (by rw [get_of_chain]; exact hp)
    have hact : Acted a .minus h.phononIndex x c'.arr s := by
      refine ⟨h3, fun t' y => ?_⟩
      rw [h7]; split <;> simp [Dag.delta]; omega
    refine ⟨c'.arr, s, by rw [hd]; exact hact, ?_⟩
    rcases h2 with h2 | h2
    · exact Or.inr (truncation_of_removed ha hact h2)
    · exact Or.inl h2

/-- where terms can act if there is one phonon type and no cap: creation -/
theorem possible_plus_iff [LinearOrder R] {m : Model R} {M N : ℤ} (htypes : m.nTypes = 1) (hM : m.extent = [M]) (hN : m.number = [N])
    (hcap : m.maxPerSite = none) {a : Arr} (ha : InTruncation m M a) {h : SingleTerm R} (hi : h.phononIndex < m.nTypes)
    (hd : h.dag = .plus) (γ : ℤ) :
    Possible m M a h γ ↔ typeTotal a 0 + 1 ≤ N ∧ a.len - M ≤ γ ∧ γ ≤ M - 1 := by
  have hcl := ha.2.2.toCloud
  have h0 : h.phononIndex = 0 := by omega
  have hlen := ha.1
  have hr := ha.2.1
  constructor
  · rintro ⟨-, b, o, h1, h2⟩
    rw [hd, h0] at h1
    rcases h2 with h2 | h2
    · have e := h1.2 0 γ
      rw [h2.empty, if_pos ⟨rfl, rfl⟩] at e
      have := chain_nonneg hcl.toProper 0 γ
      simp only [Dag.delta] at e
      omega
    · have hb := acted_plus_bounds hcl h2.2.2.wf h1
      have hbl := h2.1
      obtain ⟨n, n1, n2⟩ := h2.2.2.numberOk _ rfl 0 (by rw [h2.2.1]; omega)
      rw [hN] at n1
      simp only [List.getElem?_cons_zero, Option.some.injEq] at n1
      rw [typeTotal_acted hcl.wf h2.2.2.wf h1, if_pos rfl] at n2
      simp only [Dag.delta] at n2
      omega
  · rintro ⟨p1, p2, p3⟩
    obtain ⟨c', s, a1, a2, a3, -, -, a6, a7, a8⟩ :=
      Config.addPhonon_spec (c := ⟨a, 1, 0⟩) hcl.wf (by simp) (t := 0) (by show 0 < a.rows.length; omega) γ
    have hc' : Cloud c'.arr := add_cloud (Or.inl hcl) (by show 0 < a.rows.length; omega) a1
    have hact : Acted a .plus 0 γ c'.arr (-s) := by
      refine ⟨a3, fun t' y => ?_⟩
      rw [show y - -s = y + s by omega, a8]; rfl
    simp only at a7
    have hpos := hcl.pos
    have hl' : (c'.arr.len : ℤ) ≤ M := by omega
    refine ⟨by rw [hd]; simp, c'.arr, -s, by rw [hd, h0]; exact hact, Or.inr ⟨hl', hact.1.trans hr, hc', ?_, ?_, ?_⟩⟩
    · rw [hcap]; simp
    · intro E hE t ht
      cases hE
      have ht0 : t = 0 := by have := hact.1; omega
      subst ht0
      refine ⟨M, by rw [hM]; rfl, by omega, fun x y hx hy => ?_⟩
      have := chain_inside hc'.wf hx
      have := chain_inside hc'.wf hy
      omega
    · intro E hE t ht
      cases hE
      have ht0 : t = 0 := by have := hact.1; omega
      subst ht0
      refine ⟨N, by rw [hN]; rfl, ?_⟩
      rw [typeTotal_acted hcl.wf hc'.wf hact, if_pos rfl]
      exact p1

theorem oneArgs_iff [LinearOrder R] {m : Model R} {M N : ℤ} (htypes : m.nTypes = 1) (hM : m.extent = [M]) (hN : m.number = [N])
    (hcap : m.maxPerSite = none) (hi : ∀ h ∈ m.ham.terms, h.phononIndex < m.nTypes) {a : Arr} (ha : InTruncation m M a)
    (x : ℤ) : x ∈ oneArgs m.ham.terms M N a ↔
      ∃ h ∈ m.ham.terms, ∃ y, Possible m M a (adjoint h) y ∧ x = h.phi.tw - 2 * y := by
  rw [oneArgs, List.mem_dedup, List.mem_flatMap]
  refine exists_congr fun h => and_congr_right fun hh => ?_
  have hi' := hi h hh
  have h0 : h.phononIndex = 0 := by omega
  cases hd : h.dag with
  | plus =>
    simp only
    have hd' : (adjoint h).dag = .minus := by simp [adjoint, hd]
    simp only [possible_minus_iff ha hd', List.mem_map, List.mem_filter, List.mem_range, decide_eq_true_eq]
    have e0 : (adjoint h).phononIndex = 0 := h0
    rw [e0]
    constructor
    · rintro ⟨y, ⟨-, h1⟩, rfl⟩; exact ⟨y, h1, rfl⟩
    · rintro ⟨y, h1, rfl⟩
      have := chain_inside ha.2.2.wf (t := 0) (x := y) (by omega)
      obtain ⟨n, rfl⟩ := Int.eq_ofNat_of_zero_le this.1
      exact ⟨n, ⟨by omega, h1⟩, rfl⟩
  | minus =>
    simp only
    have hd' : (adjoint h).dag = .plus := by simp [adjoint, hd]
    have hi'' : (adjoint h).phononIndex < m.nTypes := hi'
    simp only [possible_plus_iff htypes hM hN hcap ha hi'' hd']
    have := ha.1
    by_cases hc : typeTotal a 0 + 1 ≤ N
    · simp only [if_pos hc, List.mem_map, List.mem_range]
      constructor
      · rintro ⟨i, h1, rfl⟩; exact ⟨i + a.len - M, ⟨hc, by omega, by omega⟩, rfl⟩
      · rintro ⟨y, ⟨-, h1, h2⟩, rfl⟩
        exact ⟨(y - a.len + M).toNat, by omega, by omega⟩
    · simp only [if_neg hc, List.not_mem_nil, false_iff]
      rintro ⟨y, ⟨h1, -⟩, -⟩
      exact hc h1

/-- how many arguments a cloud has -/
theorem Layout.Ok.deltas_length {L : Layout R} {m : Model R} {ae : Int} (hm : Shaped m ae) (hL : L.Ok m ae) {a : Arr}
    (ha : InTruncation m ae a) : (L.deltas a).length ≤ (argSet m ae).card := by
  rw [← List.length_map (f := Num.tw), ← List.toFinset_card_of_nodup (hL.deltas_nodup a)]
  apply Finset.card_le_card
  intro x hx
  obtain ⟨δ, hδ, rfl⟩ := List.mem_map.1 (List.mem_toFinset.1 hx)
  exact hL.delta_near hm ha hδ

/-! ### entries -/

theorem addTo_length (d : Dict Nat K) (j : Nat) (v : K) : (addTo d j v).length ≤ d.length + 1 := by
  have : ∀ (d : Dict Nat K) (v : K), (d.set j v).length ≤ d.length + 1 := by
    intro d v
    induction d with
    | nil => simp [Dict.set]
    | cons q d ih =>
      obtain ⟨k, u⟩ := q
      simp only [Dict.set]
      split
      · simp
      · simp only [List.length_cons]; omega
  unfold addTo
  split <;> exact this _ _

theorem rowLoop_length (basis : Dict PyStr Nat) : ∀ (l : List (PyStr × Py K)) (d d' : Dict Nat K),
    rowLoop basis l d = .ok d' → d'.length ≤ d.length + l.length
  | [], d, d', h => by cases h; simp
  | (id, c) :: l, d, d', h => by
    unfold rowLoop at h
    split at h
    · cases h
    · rename_i j _
      cases c with
      | error e => cases h
      | ok v =>
        have h1 := rowLoop_length basis l (addTo d j v) d' h
        have h2 := addTo_length d j v
        simp only [List.length_cons]
        omega

theorem sparseRow_length {F : Phys R K} {m : Model R} {p : Point R} {basis : Dict PyStr Nat} {e : Equation R}
    {r : List (Nat × Nat × K)} (h : sparseRow F m p basis e = .ok r) : r.length ≤ e.terms.length + 1 := by
  unfold sparseRow at h
  split at h
  · cases h
  · cases hd : rowLoop basis (rowTerms F m p e) [] with
    | error x => rw [hd] at h; cases h
    | ok d =>
      rw [hd] at h
      cases h
      have := rowLoop_length _ _ _ _ hd
      simpa [rowTerms] using this

theorem collectM_length {α β : Type} {f : α → Py (Option (List β))} {g : α → ℕ} : ∀ {xs : List α} {ys : List (List β)},
    (∀ x ∈ xs, ∀ y, f x = .ok (some y) → y.length ≤ g x) → collectM f xs = .ok ys →
    ys.flatten.length ≤ (xs.map g).sum
  | [], ys, _, h => by cases h; simp
  | x :: xs, ys, hg, h => by
    unfold collectM at h
    cases hx : f x with
    | error e => rw [hx] at h; cases h
    | ok o =>
      rw [hx] at h
      cases hr : collectM f xs with
      | error e => simp only [bind, Except.bind, hr] at h; cases h
      | ok zs =>
        have ih := collectM_length (fun x hx => hg x (List.mem_cons_of_mem _ hx)) hr
        simp only [bind, Except.bind, hr] at h
        cases o with
        | none => cases h; simp only [List.map_cons, List.sum_cons]; omega
        | some y =>
          cases h
          have := hg x List.mem_cons_self y hx
          simp only [List.map_cons, List.sum_cons, List.flatten_cons, List.length_append]
          omega

/-- how many entries are assembled -/
theorem sparseTriples_length {F : Phys R K} {m : Model R} {p : Point R} {basis : Dict PyStr Nat}
    {eqs : Dict Nat (List (Equation R))} {T : List (Nat × Nat × K)} (h : sparseTriples F m p basis eqs = .ok T) :
    T.length ≤ (((List.range (m.number.sum.toNat + 1)).flatMap (fun n => eqs.vals n)).map
      (fun e => e.terms.length + 1)).sum := by
  unfold sparseTriples at h
  revert h
  generalize hc : collectM _ _ = c
  intro h
  cases c with
  | error e => cases h
  | ok ys =>
    cases h
    rw [List.map_flatMap, List.flatMap_def, List.sum_flatten, List.map_map]
    refine collectM_length ?_ hc
    intro n _ y hy
    split at hy
    · cases hy
    · rename_i es he
      revert hy
      generalize hc' : collectM _ _ = c'
      intro hy
      cases c' with
      | error e => cases hy
      | ok zs =>
        cases hy
        have he' : eqs.vals n = es := by unfold Dict.vals; rw [he]; rfl
        simp only [Function.comp_apply, he']
        refine collectM_length ?_ hc'
        intro e _ y hy
        cases hr : sparseRow F m p basis e with
        | error x => rw [hr] at hy; cases hy
        | ok r => rw [hr] at hy; cases hy; exact sparseRow_length hr

end GGCE
