import Verif.Proofs.Basis
import Mathlib.Algebra.Order.Ring.Rat
import Mathlib.Algebra.Field.Rat

/-!
Properties C12–C18: right-hand sides, closure and numbering of the built system.
-/

set_option linter.unusedSectionVars false

namespace GGCE.Props
open Spec Arr Dict

variable {R : Type} [Field R] [LinearOrder R]

/-- A concrete well-formed model used to show that hypotheses can be met: one Holstein mode
with extent 2 and at most 2 phonons. -/
def exModel : Model ℚ :=
  { latticeConstant := 1, temperature := 0,
    ham := { terms := [⟨"Holstein", .int 0, .int 0, .plus, -1, 0, 2⟩,
                       ⟨"Holstein", .int 0, .int 0, .minus, -1, 0, 2⟩]
             freqs := [2], dimension := 1, hopping := 1 }
    maxPerSite := none, extent := [2], number := [2], absExtentOpt := none, nTypes := 1 }

theorem exModel_wellFormed : WellFormed exModel 2 where
  ext := rfl
  num := rfl
  absExtent := by decide
  freqs := by decide
  index := by decide
  dim := rfl
  types := by decide
  aePos := by decide
  extPos := by decide
  numPos := by decide
  capPos := by simp [exModel]
  plus := by
    intro t ht
    refine ⟨⟨"Holstein", .int 0, .int 0, .plus, -1, 0, 2⟩, by simp [exModel], ?_, rfl⟩
    have : t < 1 := ht
    show 0 = t
    omega
  minus := ⟨⟨"Holstein", .int 0, .int 0, .minus, -1, 0, 2⟩, by simp [exModel], rfl⟩
  dtype := by decide

theorem exCloud : InTruncation exModel 2 ⟨[[1, 1]], 2⟩ := by
  have hc : Cloud ⟨[[1, 1]], 2⟩ :=
    cloud_of_get ⟨by decide, by decide⟩ (by decide) ⟨0, by decide⟩ ⟨0, by decide⟩
  obtain ⟨b, h1, h2⟩ := configLegal_ok hc.wf hc.pos (none : Option Int) (some [2]) (some [2]) false
    (by simp) (by simp)
  have hb : b = true := by
    have h3 : Arr.configLegal ⟨[[1, 1]], 2⟩ none (some [2]) (some [2]) false = .ok true := by decide
    rw [h1] at h3; simpa using h3
  refine ⟨by decide, by decide, ?_⟩
  have h4 := h2.1 hb
  simp only [Bool.false_eq_true, false_and, false_or] at h4
  exact h4

/-! ### C12 -/

/-- C12: for a cloud of the truncated space `Equation.from_config` succeeds, and its right-hand side
lists, Hamiltonian term by Hamiltonian term, exactly one term for each chain site at which that
term can act inside the truncation, in increasing order of the sites. -/
theorem C12_right_hand_side (m : Model R) (ae : Int) (hm : Sound m ae) (a : Arr)
    (ha : InTruncation m ae a) :
    ∃ e, mkEquation m a = .ok e ∧ e.config = a ∧ e.green = false ∧ e.fArg = none ∧
      ∃ tss : List (List (Term R)), e.terms = tss.flatten ∧
        List.Forall₂ (fun h th => ∃ sites : List Int, sites.Pairwise (· < ·) ∧
          (∀ γ, γ ∈ sites ↔ Possible m ae a h γ) ∧ List.Forall₂ (TermOk m ae a h) sites th)
          m.ham.terms tss := by
  obtain ⟨ts, h1, tss, h2, h3⟩ := mkEquation_ok hm ha
  refine ⟨_, h1, rfl, rfl, rfl, tss, h2, h3.imp ?_⟩
  rintro h th ⟨ps, k1, k2, k3⟩
  exact ⟨ps, k1, k2, k3.imp (fun _ _ hp => hp.toTermOk)⟩

example : Sound exModel 2 ∧ InTruncation exModel 2 ⟨[[1, 1]], 2⟩ :=
  ⟨exModel_wellFormed.toSound, exCloud⟩

/-- C12, a removal is possible wherever there is a phonon of the right type: nothing is lost to
the limits. -/
theorem C12_removals_always_possible (m : Model R) (ae : Int) (a : Arr) (ha : InTruncation m ae a)
    (h : SingleTerm R) (hd : h.dag = .minus) (γ : Int) :
    Possible m ae a h γ ↔ 1 ≤ chain a h.phononIndex γ := by
  constructor
  · exact fun hp => hp.1 hd
  · intro hp
    have h0 : 0 ≤ γ := by
      by_contra hc; rw [chain_of_neg _ _ (by omega)] at hp; omega
    obtain ⟨x, rfl⟩ := Int.eq_ofNat_of_zero_le h0
    obtain ⟨c', s, -, h2, h3, -, -, -, h7⟩ :=
      Config.removePhonon_spec (c := ⟨a, 1, 0⟩) (t := h.phononIndex) (x := x) ha.2.2.toCloud
        (by simp) (by rw [get_of_chain]; exact hp)
    have hact : Acted a .minus h.phononIndex x c'.arr s := by
      refine ⟨h3, fun t' y => ?_⟩
      rw [h7]; split <;> simp [Dag.delta]; omega
    refine ⟨fun _ => hp, c'.arr, s, by rw [hd]; exact hact, ?_⟩
    rcases h2 with h2 | h2
    · exact Or.inr (truncation_of_removed ha hact h2)
    · exact Or.inl h2

/-- C12 for the Green's function equation (eq. 13): one term for each creation term, on the
one-phonon cloud of its type, with argument `φ`, phase `ψ - φ` and prefactor `g`. -/
theorem C12_green (m : Model R) (hidx : ∀ h ∈ m.ham.terms, h.phononIndex < m.nTypes) :
    ∃ e, mkGreen m = .ok e ∧ e.green = true ∧ Vacuum e.config ∧
      List.Forall₂ (fun (h : SingleTerm R) (t : Term R) =>
        t.kind = .eom ∧ t.hterm = h ∧ t.pref = h.coupling ∧ t.fArg = h.phi ∧
        t.expShift.tw = h.psi.tw - h.phi.tw ∧ t.gArg = none ∧ Cloud t.config ∧
        (∀ t' x, chain t.config t' x = if t' = h.phononIndex ∧ x = 0 then 1 else 0))
        (m.ham.terms.filter (fun h => h.dag = .plus)) e.terms := by
  refine ⟨_, mkGreen_ok hidx, rfl, zeros_vacuum _, ?_⟩
  simp only [greenTerms]
  rw [List.forall₂_map_right_iff, List.forall₂_same]
  intro h hh
  have hi := hidx h (List.mem_filter.1 hh).1
  exact ⟨rfl, rfl, rfl, rfl, rfl, rfl, single_cloud hi, single_chain hi⟩

/-! ### C16 -/

/-- C16: for every well-formed one-dimensional model and every set iteration order, building the
system succeeds; the identifiers on the left are exactly those on the right. -/
theorem C16_closure (σ : SetOrder) (m : Model R) (ae : Int) (hm : WellFormed m ae) :
    ∃ b, buildSystem σ m = .ok b ∧
      (∀ id, (∃ e ∈ allEqs b.eqs, e.id = id) ↔
        ∃ e ∈ allEqs b.eqs, ∃ t ∈ e.terms, t.id = id) := by
  obtain ⟨b, L, h1, hL, hb⟩ := buildSystem_ok σ hm
  refine ⟨b, h1, fun id => ?_⟩
  constructor
  · rintro ⟨e, he, rfl⟩
    obtain ⟨a, ha, δ, hδ, rfl⟩ := (hL.mem_allEqs hm.toListsOk hb e).1 he
    obtain ⟨c, hc, t, ht, k1, k2⟩ := hL.deltas_sub a ha δ hδ
    obtain ⟨δ', hδ'⟩ := List.exists_mem_of_ne_nil _ (hL.deltas_ne_nil hm.toShaped hc)
    refine ⟨full (L.eqn c) δ', (hL.mem_allEqs hm.toListsOk hb _).2 ⟨c, hc, δ', hδ', rfl⟩,
      incr δ' t, List.mem_map.2 ⟨t, ht, rfl⟩, ?_⟩
    rw [incr_id, Term.id, k1, k2, Equation.id, full, hL.eqn_config ha]
  · rintro ⟨e, he, t', ht', rfl⟩
    obtain ⟨a, ha, δ, hδ, rfl⟩ := (hL.mem_allEqs hm.toListsOk hb e).1 he
    obtain ⟨t, ht, rfl⟩ := List.mem_map.1 ht'
    obtain ⟨δ', k1, k2⟩ := hL.deltas_cover a ha t ht
    have hn := hL.term_node hm.toShaped ha ht
    refine ⟨full (L.eqn t.config) δ',
      (hL.mem_allEqs hm.toListsOk hb _).2 ⟨_, hn, δ', k1, rfl⟩, ?_⟩
    rw [incr_id, Term.id, Equation.id, full, hL.eqn_config hn, termId_eq_iff hn.wf hn.wf]
    exact ⟨Or.inr rfl, by simp [k2]⟩

example : WellFormed exModel 2 := exModel_wellFormed

/-! ### C14 -/

/-- C14: in a built system, every equation other than the Green's function's has a definite argument
`δ`, its index cloud is in the truncated space, and each of its terms comes from a Hamiltonian term
acting at some chain site `γ` with the prefactor, propagator argument `δ + γ - φ + ψ`, energy, cloud
argument and phase of eq. 22; the sum of cloud argument and phase exponent is `φ - γ`. -/
theorem C14_term_arguments (σ : SetOrder) (m : Model R) (ae : Int) (hm : WellFormed m ae)
    (b : Built R) (hb : buildSystem σ m = .ok b) (e : Equation R) (he : e ∈ allEqs b.eqs)
    (hg : e.green = false) :
    InTruncation m ae e.config ∧ ∃ δ, e.fArg = some δ ∧ ∀ t ∈ e.terms,
      ∃ h ∈ m.ham.terms, ∃ γ, Possible m ae e.config h γ ∧
        t.pref = (match h.dag with
          | .plus => h.coupling
          | .minus => h.coupling * ((chain e.config h.phononIndex γ : Int) : R)) ∧
        (∃ g, t.gArg = some g ∧ g.tw = δ.tw + 2 * γ - h.phi.tw + h.psi.tw) ∧
        t.freqShift = energy m e.config ∧
        t.fArg.tw + t.expShift.tw = h.phi.tw - 2 * γ ∧
        ((InTruncation m ae t.config ∧ Acted e.config h.dag h.phononIndex γ t.config
            (-t.expShift.tw / 2) ∧ t.expShift.tw % 2 = 0) ∨
          (Vacuum t.config ∧ t.fArg.tw = 0)) := by
  obtain ⟨b', L, h1, hL, hd⟩ := buildSystem_ok σ hm
  rw [hb] at h1; cases h1
  obtain ⟨a, ha, δ, hδ, rfl⟩ := (hL.mem_allEqs hm.toListsOk hd e).1 he
  rcases ha with rfl | ha
  · rw [hL.eqn_vac] at hg; cases hg
  · obtain ⟨ts, e1, e2⟩ := hL.eqn a ha
    rw [e1]
    refine ⟨ha, δ, rfl, ?_⟩
    intro t' ht'
    obtain ⟨t, ht, rfl⟩ := List.mem_map.1 ht'
    obtain ⟨h, hh, γ, hp, hpr⟩ := e2.mem ht
    obtain ⟨g, hg1, hg2⟩ := hpr.gArg
    have hk : ∀ δ, incr δ t = { t with gArg := some ⟨g.flt, g.tw + δ.tw⟩ } := by
      intro δ
      have := hpr.kind
      unfold incr
      cases hd' : h.dag <;> simp [hd'] at this <;> simp [this, hg1]
    rw [hk]
    refine ⟨h, hh, γ, hp, hpr.pref, ⟨_, rfl, by simp only; omega⟩, hpr.freq, ?_, ?_⟩
    · rcases hpr.cloud with ⟨-, o, -, k1, k2⟩ | ⟨-, -, k1, k2⟩ <;> simp only <;> omega
    · rcases hpr.cloud with ⟨k0, o, k3, k1, k2⟩ | ⟨k0, -, k1, k2⟩
      · refine Or.inl ⟨k0, ?_, by simp only; omega⟩
        simp only
        rw [show -t.expShift.tw / 2 = o by omega]
        exact k3
      · exact Or.inr ⟨k0, k1⟩

/-! ### C13 -/

/-- C13: a right-hand-side term of an equation with `n` phonons has `n - 1` or `n + 1` phonons,
according to its Hamiltonian term; the Green's function equation has one-phonon terms only. -/
theorem C13_phonon_number_step (σ : SetOrder) (m : Model R) (ae : Int) (hm : WellFormed m ae)
    (b : Built R) (hb : buildSystem σ m = .ok b) (e : Equation R) (he : e ∈ allEqs b.eqs)
    (t : Term R) (ht : t ∈ e.terms) :
    (t.kind = .cre ∧ phonons t.config = phonons e.config + 1 ∧ e.green = false) ∨
    (t.kind = .ann ∧ phonons t.config = phonons e.config - 1 ∧ e.green = false) ∨
    (t.kind = .eom ∧ phonons t.config = 1 ∧ phonons e.config = 0 ∧ e.green = true) := by
  obtain ⟨b', L, h1, hL, hd⟩ := buildSystem_ok σ hm
  rw [hb] at h1; cases h1
  obtain ⟨a, ha, δ, hδ, rfl⟩ := (hL.mem_allEqs hm.toListsOk hd e).1 he
  rcases ha with rfl | ha
  · rw [hL.eqn_vac] at ht ⊢
    obtain ⟨t', ht', rfl⟩ := List.mem_map.1 ht
    simp only [greenEq, greenTerms, List.mem_map, List.mem_filter, decide_eq_true_eq] at ht'
    obtain ⟨h, ⟨hh, hd⟩, rfl⟩ := ht'
    exact Or.inr (Or.inr ⟨rfl, single_phonons (hm.index h hh), vac_total m, rfl⟩)
  · obtain ⟨ts, e1, e2⟩ := hL.eqn a ha
    rw [e1] at ht ⊢
    obtain ⟨t, ht', rfl⟩ := List.mem_map.1 ht
    obtain ⟨h, hh, γ, hp, hpr⟩ := e2.mem ht'
    have hi : h.phononIndex < a.rows.length := by rw [ha.2.1]; exact hm.index h hh
    have hact : ∃ o, Acted a h.dag h.phononIndex γ t.config o ∧ t.config.WF := by
      rcases hpr.cloud with ⟨k0, o, k, -⟩ | ⟨k0, k, -⟩
      exacts [⟨o, k, k0.2.2.wf⟩, ⟨0, k, k0.wf⟩]
    obtain ⟨o, ho, hwf⟩ := hact
    have hph := phonons_acted ha.2.2.wf hwf ho hi
    have hk := hpr.kind
    have hkind : (incr δ t).kind = t.kind := by unfold incr; split <;> rfl
    simp only [full, incr_config, hkind]
    cases hdag : h.dag <;> rw [hdag] at hph hk <;> simp only [Dag.delta] at hph
    · exact Or.inl ⟨hk, hph, by simp⟩
    · exact Or.inr (Or.inl ⟨hk, by omega, by simp⟩)

/-! ### C15 -/

/-- C15: every right-hand-side term on the vacuum has argument 0, and the built system has exactly
one equation with zero phonons, the Green's function's, with argument 0. -/
theorem C15_single_green (σ : SetOrder) (m : Model R) (ae : Int) (hm : WellFormed m ae)
    (b : Built R) (hb : buildSystem σ m = .ok b) :
    (∀ e ∈ allEqs b.eqs, ∀ t ∈ e.terms, phonons t.config = 0 → t.fArg.tw = 0) ∧
    ∃ e δ, (allEqs b.eqs).filter (fun e => phonons e.config = 0) = [e] ∧ e.green = true ∧
      e.fArg = some δ ∧ δ.tw = 0 := by
  obtain ⟨b', L, h1, hL, hd⟩ := buildSystem_ok σ hm
  rw [hb] at h1; cases h1
  constructor
  · intro e he t' ht' h0
    obtain ⟨a, ha, δ, hδ, rfl⟩ := (hL.mem_allEqs hm.toListsOk hd e).1 he
    obtain ⟨t, ht, rfl⟩ := List.mem_map.1 ht'
    rw [incr_fArg]
    rw [incr_config] at h0
    refine hL.vac_term hm.toShaped ha ht ?_
    rcases hL.term_node hm.toShaped ha ht with h | h
    · exact h
    · exact absurd h0 (total_ne_zero h)
  · obtain ⟨δ, hδ1, hδ2⟩ := hL.deltas_vac hm.toShaped
    refine ⟨full (greenEq m) δ, δ, ?_, rfl, rfl, hδ2⟩
    rw [hL.allEqs_eq hd, Layout.nodes, List.flatMap_append, List.filter_append]
    have e1 : List.filter (fun e : Equation R => decide (phonons e.config = 0))
        (((List.range m.number.sum.toNat).flatMap (fun i => L.clouds (i + 1))).flatMap
          (fun a => (L.deltas a).map (full (L.eqn a)))) = [] := by
      rw [List.filter_eq_nil_iff]
      intro e he
      obtain ⟨a, ha, he⟩ := List.mem_flatMap.1 he
      obtain ⟨δ', -, rfl⟩ := List.mem_map.1 he
      obtain ⟨i, -, hi⟩ := List.mem_flatMap.1 ha
      have ht := ((hL.mem _ _).1 hi).1
      simp only [full, hL.eqn_config (Or.inr ht), decide_eq_true_eq]
      exact total_ne_zero ht
    rw [e1]
    simp only [List.flatMap_cons, List.flatMap_nil, List.append_nil, hδ1, List.map_cons,
      List.map_nil, hL.eqn_vac, List.nil_append]
    have : phonons (greenEq m).config = 0 := vac_total m
    simp [full, this]

/-! ### C17 -/

/-- C17: no unknown has two equations; the number of equations is the predicted total (the lengths of
the argument lists); and both basis dictionaries number the unknowns bijectively: unknown `id` has
index `i` exactly when the `i`-th equation (of that phonon number) is the equation of `id`. -/
theorem C17_basis (σ : SetOrder) (m : Model R) (ae : Int) (hm : WellFormed m ae)
    (b : Built R) (hb : buildSystem σ m = .ok b) :
    ((allEqs b.eqs).map Equation.id).Nodup ∧
    (allEqs b.eqs).length = (b.fargs.map (fun kv => kv.2.length)).sum ∧
    (∀ id i, (fullBasis b.eqs).get? id = some i ↔ ∃ e, (allEqs b.eqs)[i]? = some e ∧ e.id = id) ∧
    (∀ n eqs, b.eqs.get? n = some eqs → ∃ d, (localBasis b.eqs).get? n = some d ∧
      ∀ id i, d.get? id = some i ↔ ∃ e, eqs[i]? = some e ∧ e.id = id) := by
  obtain ⟨b', L, h1, hL, hd⟩ := buildSystem_ok σ hm
  rw [hb] at h1; cases h1
  have hn := hL.ids_nodup hm.toListsOk hd
  refine ⟨hn, (hL.count hm.toShaped hd).symm, ?_, ?_⟩
  · intro id i
    rw [fullBasis_eq hn, get?_zipIdx hn]
    simp only [List.getElem?_map, Option.map_eq_some_iff]
  · intro n eqs hget
    have hkeys : ∀ (d : Dict Nat (List (Equation R))) (f : List (Equation R) → Dict PyStr Nat) (n : Nat),
        Dict.get? (d.map (fun kv => (kv.1, f kv.2))) n = (d.get? n).map f := by
      intro d f n
      induction d with
      | nil => rfl
      | cons p d ih =>
        simp only [List.map_cons, Dict.get?]
        split
        · rfl
        · exact ih
    refine ⟨(eqs.map Equation.id).zipIdx, ?_, ?_⟩
    · rw [localBasis_eq hn, hkeys b.eqs (fun es => (es.map Equation.id).zipIdx) n, hget]; rfl
    · intro id i
      have hsub : (eqs.map Equation.id).Nodup := by
        refine hn.sublist ?_
        unfold allEqs
        apply List.Sublist.map
        rw [List.flatMap_def]
        exact List.sublist_flatten_of_mem (List.mem_map.2 ⟨_, mem_of_get? hget, rfl⟩)
      rw [get?_zipIdx hsub]
      simp only [List.getElem?_map, Option.map_eq_some_iff]

/-! ### C18 -/

/-- C18: the last equation is the Green's function's, so in the full basis of `N` unknowns the
Green's function has index `N - 1`. -/
theorem C18_green_last (σ : SetOrder) (m : Model R) (ae : Int) (hm : WellFormed m ae)
    (b : Built R) (hb : buildSystem σ m = .ok b) :
    ∃ e, (allEqs b.eqs).getLast? = some e ∧ e.green = true ∧ Vacuum e.config ∧
      (fullBasis b.eqs).get? e.id = some ((allEqs b.eqs).length - 1) ∧
      e.id = "{G}[0.0]".toList := by
  have h17 := (C17_basis σ m ae hm b hb).2.2.1
  obtain ⟨b', L, h1, hL, hd⟩ := buildSystem_ok σ hm
  rw [hb] at h1; cases h1
  obtain ⟨δ, hδ1, hδ2⟩ := hL.deltas_vac hm.toShaped
  have hlast : (allEqs b.eqs).getLast? = some (full (greenEq m) δ) := by
    rw [hL.allEqs_eq hd, Layout.nodes]
    simp [hδ1, hL.eqn_vac]
  refine ⟨_, hlast, rfl, zeros_vacuum _, ?_, ?_⟩
  · rw [h17]
    refine ⟨_, ?_, rfl⟩
    rw [← hlast, List.getLast?_eq_getElem?]
  · show termId (vac m) (some δ) = _
    unfold termId
    rw [(configId_eq_G _).2 (vac_total m)]
    simp [fArgId, listStr, commaJoin, halfStr, hδ2, natStr, Nat.digitChar]

end GGCE.Props
