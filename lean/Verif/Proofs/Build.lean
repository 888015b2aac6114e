import Verif.Proofs.System

/-! `System(model)`: the layout of the built system. -/

set_option linter.unusedSectionVars false

namespace GGCE
open Spec Arr Dict

variable {R : Type} [Field R] [LinearOrder R]

/-- the one-site vacuum of the model -/
def vac (m : Model R) : Arr := Arr.zeros m.nTypes 1

/-- the generalized Green's function equation -/
def greenEq (m : Model R) : Equation R :=
  ⟨true, vac m, none, greenTerms m, populate (greenTerms m)⟩

/-- a cloud of the truncated space or the vacuum -/
def Node (m : Model R) (ae : Int) (a : Arr) : Prop := a = vac m ∨ InTruncation m ae a

theorem vac_wf (m : Model R) : (vac m).WF := zeros_wf _ _

theorem vac_total (m : Model R) : (vac m).total = 0 := total_of_vacuum (zeros_vacuum _)

theorem Node.wf {m : Model R} {ae : Int} {a : Arr} (h : Node m ae a) : a.WF := by
  rcases h with rfl | h
  · exact vac_wf m
  · exact h.2.2.wf

theorem total_ne_zero {m : Model R} {ae : Int} {a : Arr} (h : InTruncation m ae a) :
    a.total ≠ 0 := total_ne_zero_of_cloud h.2.2.toCloud

theorem Node.eq_of_id {m : Model R} {ae : Int} {a b : Arr} (ha : Node m ae a) (hb : Node m ae b)
    (h : configId a = configId b) : a = b := by
  rcases (configId_eq_iff ha.wf hb.wf).1 h with ⟨h1, h2⟩ | h
  · rcases ha with rfl | ha
    · rcases hb with rfl | hb
      · rfl
      · exact absurd h2 (total_ne_zero hb)
    · exact absurd h1 (total_ne_zero ha)
  · exact h

theorem vacuum_eq {m : Model R} {a : Arr} (hv : Vacuum a) (hn : a.rows.length = m.nTypes) :
    a = vac m := by
  refine ext_get hv.wf (vac_wf m) (by simp [vac, Arr.zeros, nTypes, hn]) (by rw [hv.len]; rfl) ?_
  intro t x
  rw [get_of_chain, hv.empty, vac, zeros_get]

theorem Produced.node {m : Model R} {ae : Int} {a : Arr} {h : SingleTerm R} {γ : Int} {t : Term R}
    (ha : InTruncation m ae a) (hp : Produced m ae a h γ t) : Node m ae t.config := by
  rcases hp.cloud with ⟨h1, -⟩ | ⟨h1, h2, -⟩
  · exact Or.inr h1
  · exact Or.inl (vacuum_eq h1 (by rw [h2.1, ha.2.1]))

/-- `_increment_g_arg_` when it does not fail -/
def incr (δ : Num) (t : Term R) : Term R :=
  match t.kind with
  | .eom => t
  | _ => { t with gArg := t.gArg.map (fun g => ⟨g.flt, g.tw + δ.tw⟩) }

/-- the equation `e` at `δ` -/
def full (e : Equation R) (δ : Num) : Equation R :=
  { e with fArg := some δ, terms := e.terms.map (incr δ) }

@[simp] theorem incr_config (δ : Num) (t : Term R) : (incr δ t).config = t.config := by
  unfold incr; split <;> rfl

@[simp] theorem incr_fArg (δ : Num) (t : Term R) : (incr δ t).fArg = t.fArg := by
  unfold incr; split <;> rfl

@[simp] theorem incr_id (δ : Num) (t : Term R) : (incr δ t).id = t.id := by
  simp [Term.id]

/-- How a built system is laid out. -/
structure Layout (R : Type) where
  /-- clouds with a given number of phonons, in order -/
  clouds : Nat → List Arr
  /-- the generalized equation of a cloud -/
  eqn : Arr → Equation R
  /-- the required arguments of a cloud -/
  deltas : Arr → List Num

/-- all clouds and the vacuum, in the order of the equations -/
def Layout.nodes (L : Layout R) (m : Model R) : List Arr :=
  (List.range m.number.sum.toNat).flatMap (fun i => L.clouds (i + 1)) ++ [vac m]

structure Layout.Ok (L : Layout R) (m : Model R) (ae : Int) : Prop where
  nodup : ∀ nb, (L.clouds nb).Nodup
  mem : ∀ nb a, a ∈ L.clouds nb ↔ InSpace m ae nb a
  eqn_vac : L.eqn (vac m) = greenEq m
  eqn : ∀ a, InTruncation m ae a → ∃ ts, L.eqn a = ⟨false, a, none, ts, populate ts⟩ ∧
    Rhs m ae a m.ham.terms ts
  deltas_nodup : ∀ a, ((L.deltas a).map Num.tw).Nodup
  deltas_sub : ∀ a, Node m ae a → ∀ δ ∈ L.deltas a, ∃ b, Node m ae b ∧ ∃ t ∈ (L.eqn b).terms,
    t.config = a ∧ t.fArg = δ
  deltas_cover : ∀ b, Node m ae b → ∀ t ∈ (L.eqn b).terms,
    ∃ δ ∈ L.deltas t.config, δ.tw = t.fArg.tw

structure Layout.Describes (L : Layout R) (m : Model R) (b : Built R) : Prop where
  gens : b.gens = (List.range m.number.sum.toNat).map
    (fun i => (i + 1, (L.clouds (i + 1)).map L.eqn)) ++ [(0, [greenEq m])]
  fargs : ∀ a ∈ L.nodes m, b.fargs.vals (configId a) = L.deltas a
  fargsKeys : (b.fargs.map Prod.fst).Nodup
  fargsMem : ∀ k, k ∈ b.fargs.map Prod.fst → ∃ a ∈ L.nodes m, configId a = k
  eqs : b.eqs = (List.range m.number.sum.toNat).map
    (fun i => (i + 1, (L.clouds (i + 1)).flatMap (fun a => (L.deltas a).map (full (L.eqn a))))) ++
      [(0, (L.deltas (vac m)).map (full (greenEq m)))]

theorem Layout.mem_nodes {L : Layout R} {m : Model R} {ae : Int} (hl : ListsOk m) (hL : L.Ok m ae)
    (a : Arr) : a ∈ L.nodes m ↔ Node m ae a := by
  unfold Layout.nodes Node
  simp only [List.mem_append, List.mem_flatMap, List.mem_range, List.mem_singleton]
  constructor
  · rintro (⟨i, -, hi⟩ | rfl)
    · exact Or.inr ((hL.mem _ _).1 hi).1
    · exact Or.inl rfl
  · rintro (rfl | h)
    · exact Or.inr rfl
    · obtain ⟨h1, h2⟩ := phonons_bounds hl h
      exact Or.inl ⟨(phonons a).toNat - 1, by omega, (hL.mem _ _).2 ⟨h, by omega⟩⟩


theorem incrementG_ok {δ : Num} {t : Term R}
    (h : t.kind = .eom ∨ ∃ g, t.gArg = some g ∧ (δ.flt = true → g.flt = true)) :
    incrementG δ t = .ok (incr δ t) := by
  rcases h with h | ⟨g, h1, h2⟩
  · simp [incrementG, incr, h]
  · have : g.iadd δ = .ok ⟨g.flt, g.tw + δ.tw⟩ := by
      unfold Num.iadd
      rw [if_neg]
      rintro ⟨e1, e2⟩
      rw [h2 e2] at e1; cases e1
    unfold incrementG incr
    cases t.kind <;> simp [h1, this, bind, Except.bind, pure, Except.pure]

theorem initFull_ok {e : Equation R} {δ : Num}
    (h : ∀ t ∈ e.terms, t.kind = .eom ∨ ∃ g, t.gArg = some g ∧ (δ.flt = true → g.flt = true)) :
    initFull e δ = .ok (full e δ) := by
  have : collectM (fun t => some <$> incrementG δ t) e.terms = .ok (e.terms.map (incr δ)) := by
    apply collectM_some_ok
    intro t ht
    rw [incrementG_ok (h t ht)]; rfl
  simp [initFull, this, full, bind, Except.bind, pure, Except.pure]

theorem acted_symm {a b : Arr} {t : Nat} {γ o : Int} (h : Acted a .plus t γ b o) :
    Acted b .minus t (γ - o) a (-o) := by
  refine ⟨h.1.symm, fun t' y => ?_⟩
  have := h.2 t' (y + o)
  rw [show y + o - o = y by omega] at this
  rw [this, show y - -o = y + o by omega]
  by_cases e : t' = t ∧ y + o = γ
  · have e' : t' = t ∧ y = γ - o := ⟨e.1, by omega⟩
    rw [if_pos e, if_pos e']; simp [Dag.delta]
  · have e' : ¬ (t' = t ∧ y = γ - o) := fun h => e ⟨h.1, by omega⟩
    rw [if_neg e, if_neg e']; simp

/-- two results of the same action, both clouds, are equal -/
theorem acted_unique {a b c : Arr} {d : Dag} {t : Nat} {γ o o' : Int} (hb : Acted a d t γ b o)
    (hc : Acted a d t γ c o') (hbc : Cloud b) (hcc : Cloud c) : b = c ∧ o = o' := by
  obtain ⟨h1, h2⟩ := cloud_unique (d := o - o') hbc hcc
    (by rw [show b.nTypes = a.rows.length from hb.1]; exact hc.1.symm) (by
      intro t' y
      have e1 := hb.2 t' (y + o)
      have e2 := hc.2 t' (y + o)
      rw [show y + o - o = y by omega] at e1
      rw [e1, ← e2]; congr 1; omega)
  exact ⟨h2, by omega⟩

/-- every cloud and the vacuum occur on some right-hand side -/
theorem reachable {m : Model R} {ae : Int} (hm : Shaped m ae) {E : Arr → Equation R}
    (hEv : E (vac m) = greenEq m)
    (hE : ∀ a, InTruncation m ae a → ∃ ts, E a = ⟨false, a, none, ts, populate ts⟩ ∧
      Rhs m ae a m.ham.terms ts) {a : Arr} (ha : Node m ae a) :
    ∃ b, Node m ae b ∧ ∃ t ∈ (E b).terms, t.config = a := by
  rcases ha with rfl | ha
  · -- vacuum: annihilate the phonon of a one-phonon cloud
    obtain ⟨h, hh, hd⟩ := hm.minus
    have hi := hm.index h hh
    have htr := single_truncation hm hi
    obtain ⟨ts, e1, e2⟩ := hE _ htr
    have hact : Acted (single m.nTypes h.phononIndex) .minus h.phononIndex 0 (vac m) 0 := by
      refine ⟨by simp [single, vac, Arr.zeros], fun t' y => ?_⟩
      rw [single_chain hi, show chain (vac m) t' (y - 0) = 0 from (zeros_vacuum m.nTypes).empty _ _]
      split <;> simp [Dag.delta]
    have hp : Possible m ae (single m.nTypes h.phononIndex) h 0 := by
      refine ⟨fun _ => ?_, vac m, 0, by rw [hd]; exact hact, Or.inl (zeros_vacuum _)⟩
      rw [single_chain hi]; simp
    obtain ⟨t, ht, hpr⟩ := e2.exists hh hp
    refine ⟨_, Or.inr htr, t, by rw [e1]; exact ht, ?_⟩
    rcases hpr.cloud with ⟨k1, o, k2, -⟩ | ⟨k1, k2, -⟩
    · exfalso
      rw [hd] at k2
      have := phonons_acted (single_wf _ _) k1.2.2.wf k2 (by rw [single_rows]; exact hi)
      rw [single_phonons hi] at this
      have h0 := total_ne_zero k1
      simp only [Dag.delta] at this
      exact h0 (by show phonons t.config = 0; omega)
    · exact vacuum_eq k1 (by rw [k2.1, single_rows])
  · by_cases h1 : phonons a = 1
    · obtain ⟨t, ht, rfl⟩ := single_of_phonons_one ha h1
      obtain ⟨h, hh, rfl, hd⟩ := hm.plus t ht
      refine ⟨vac m, Or.inl rfl, eomOf m h, ?_, rfl⟩
      rw [hEv]
      simp only [greenEq, greenTerms, List.mem_map, List.mem_filter, decide_eq_true_eq]
      exact ⟨h, ⟨hh, hd⟩, rfl⟩
    · have hb := (phonons_bounds hm.toListsOk ha).1
      obtain ⟨b, t, γ, o, k1, k2, k3⟩ := exists_parent ha (by omega)
      obtain ⟨h, hh, rfl, hd⟩ := hm.plus t k3
      obtain ⟨ts, e1, e2⟩ := hE _ k1
      obtain ⟨t, ht, hpr⟩ := e2.exists hh (γ := γ)
        ⟨by rw [hd]; simp, a, o, by rw [hd]; exact k2, Or.inr ha⟩
      refine ⟨b, Or.inr k1, t, by rw [e1]; exact ht, ?_⟩
      rcases hpr.cloud with ⟨q1, o', q2, -⟩ | ⟨q1, q2, -⟩
      · rw [hd] at q2
        exact (acted_unique q2 k2 q1.2.2.toCloud ha.2.2.toCloud).1
      · exfalso
        rw [hd] at q2
        have := phonons_acted k1.2.2.wf q1.wf q2 (by rw [k1.2.1]; exact k3)
        have h0 : phonons t.config = 0 := total_of_vacuum q1
        have := (phonons_bounds hm.toListsOk k1).1
        simp only [Dag.delta] at *
        omega

/-- facts about the terms of a generalized equation needed for the increments -/
theorem term_dtypes {m : Model R} {ae : Int} (hm : Shaped m ae) {E : Arr → Equation R}
    (hEv : E (vac m) = greenEq m)
    (hE : ∀ a, InTruncation m ae a → ∃ ts, E a = ⟨false, a, none, ts, populate ts⟩ ∧
      Rhs m ae a m.ham.terms ts) {b : Arr} (hb : Node m ae b) {t : Term R} (ht : t ∈ (E b).terms) :
    Node m ae t.config ∧ ∃ h ∈ m.ham.terms, t.fArg.flt = h.phi.flt ∧
      (t.kind = .eom ∨ ∃ g, t.gArg = some g ∧ g.flt = (h.psi.flt || h.phi.flt)) := by
  rcases hb with rfl | hb
  · rw [hEv] at ht
    simp only [greenEq, greenTerms, List.mem_map, List.mem_filter, decide_eq_true_eq] at ht
    obtain ⟨h, ⟨hh, hd⟩, rfl⟩ := ht
    exact ⟨Or.inr (single_truncation hm (hm.index h hh)), h, hh, rfl, Or.inl rfl⟩
  · obtain ⟨ts, e1, e2⟩ := hE b hb
    rw [e1] at ht
    obtain ⟨h, hh, γ, -, hp⟩ := e2.mem ht
    obtain ⟨g, hg, -⟩ := hp.gArg
    exact ⟨hp.node hb, h, hh, hp.fflt, Or.inr ⟨g, hg, hp.gflt g hg⟩⟩

theorem get?_none_vals {κ ν : Type} [DecidableEq κ] {d : Dict κ (List ν)} {k : κ}
    (h : d.get? k = none) : d.vals k = [] := by unfold vals; rw [h]; rfl

/-- The generalized stage of the construction. -/
structure Stage (σ : SetOrder) (m : Model R) (ae : Int) (L : Layout R)
    (U : Dict PyStr (List Num)) : Prop where
  confs : generateAll m = .ok ((List.range m.number.sum.toNat).map (fun i => (i + 1, L.clouds (i + 1))))
  gens : initGeneralized σ m ((List.range m.number.sum.toNat).map
      (fun i => (i + 1, L.clouds (i + 1)))) =
    .ok ((List.range m.number.sum.toNat).map
      (fun i => (i + 1, (L.clouds (i + 1)).map L.eqn)) ++ [(0, [greenEq m])], U)
  ok : L.Ok m ae
  vals : ∀ a, L.deltas a = U.vals (configId a)
  keys : (U.map Prod.fst).Nodup
  keysMem : ∀ k, k ∈ U.map Prod.fst → ∃ a ∈ L.nodes m, configId a = k

theorem generalized_ok (σ : SetOrder) {m : Model R} {ae : Int} (hm : Shaped m ae) :
    ∃ (L : Layout R) (U : Dict PyStr (List Num)), Stage σ m ae L U := by
  classical
  obtain ⟨f, hf1, hf2⟩ := generateAll_ok hm.toListsOk hm.types hm.dim.le hm.absExtent
  choose T hT1 hT2 using fun (a : Arr) (ha : InTruncation m ae a) =>
    mkEquation_ok hm.toSound ha
  let E : Arr → Equation R := fun a =>
    if h : InTruncation m ae a then ⟨false, a, none, T a h, populate (T a h)⟩ else greenEq m
  have hEv : E (vac m) = greenEq m :=
    dif_neg (fun h => total_ne_zero h (vac_total m))
  have hE' : ∀ a (h : InTruncation m ae a), E a = ⟨false, a, none, T a h, populate (T a h)⟩ :=
    fun a h => dif_pos h
  have hE : ∀ a, InTruncation m ae a → ∃ ts, E a = ⟨false, a, none, ts, populate ts⟩ ∧
      Rhs m ae a m.ham.terms ts := fun a h => ⟨T a h, hE' a h, hT2 a h⟩
  have hmk : ∀ a, InTruncation m ae a → mkEquation m a = .ok (E a) := by
    intro a h; rw [hT1 a h, hE' a h]
  have hEpop : ∀ a, Node m ae a → (E a).fArgTerms = populate (E a).terms ∧ (E a).config = a := by
    rintro a (rfl | h)
    · rw [hEv]; exact ⟨rfl, rfl⟩
    · rw [hE' a h]; exact ⟨rfl, rfl⟩
  set n := m.number.sum.toNat with hn
  let nodes : List Arr := (List.range n).flatMap (fun i => f (i + 1)) ++ [vac m]
  have hnodes : ∀ a, a ∈ nodes ↔ Node m ae a := by
    intro a
    simp only [nodes, Node, List.mem_append, List.mem_flatMap, List.mem_range, List.mem_singleton]
    constructor
    · rintro (⟨i, -, hi⟩ | rfl)
      · exact Or.inr (((hf2 _).2 _).1 hi).1
      · exact Or.inl rfl
    · rintro (rfl | h)
      · exact Or.inr rfl
      · obtain ⟨h1, h2⟩ := phonons_bounds hm.toListsOk h
        exact Or.inl ⟨(phonons a).toNat - 1, by omega, ((hf2 _).2 _).2 ⟨h, by omega⟩⟩
  -- the generalized equations
  let gens₀ : Dict Nat (List (Equation R)) := (List.range n).map (fun i => (i + 1, (f (i + 1)).map E))
  have hg0 : collectM (fun (kv : Nat × List Arr) => do
      let eqs ← collectM (fun a => some <$> mkEquation m a) kv.2
      pure (some (kv.1, eqs))) ((List.range n).map (fun i => (i + 1, f (i + 1)))) = .ok gens₀ := by
    rw [collectM_some_ok (g := fun kv => (kv.1, kv.2.map E))]
    · simp only [List.map_map, gens₀]; rfl
    · intro kv hkv
      obtain ⟨i, -, rfl⟩ := List.mem_map.1 hkv
      have : collectM (fun a => some <$> mkEquation m a) (f (i + 1)) = .ok ((f (i + 1)).map E) := by
        apply collectM_some_ok
        intro a ha
        rw [hmk a (((hf2 _).2 a).1 ha).1]; rfl
      simp only [this]; rfl
  let all : List (Equation R) := nodes.map E
  have hall : gens₀.flatMap (fun kv => kv.2) ++ [greenEq m] = all := by
    simp only [all, nodes, gens₀, List.map_append, List.map_flatMap, List.map_cons, List.map_nil,
      hEv, List.flatMap_map]
  let D : Dict PyStr (List Num) := allFArgs all
  have hDv : ∀ k, D.vals k = all.flatMap
      (fun e => (e.terms.filter (fun t => configId t.config = k)).map Term.fArg) := by
    intro k
    apply vals_allFArgs
    intro e he
    obtain ⟨a, ha, rfl⟩ := List.mem_map.1 he
    exact (hEpop a ((hnodes a).1 ha)).1
  have hgen : initGeneralized σ m ((List.range n).map (fun i => (i + 1, f (i + 1)))) =
      .ok (gens₀ ++ [(0, [greenEq m])], uniqueDict σ D) := by
    have hgr : mkGreen m = .ok (greenEq m) := mkGreen_ok hm.index
    unfold initGeneralized
    rw [hg0, hgr]
    simp only [bind, Except.bind, pure, Except.pure, hall]
    rfl
  let U := uniqueDict σ D
  let deltas : Arr → List Num := fun a => U.vals (configId a)
  have hUmem : ∀ k δ, δ ∈ U.vals k → δ ∈ D.vals k := by
    intro k δ h
    simp only [U, vals, get?_uniqueDict] at h ⊢
    cases hd : D.get? k with
    | none => simp [hd] at h
    | some l =>
      simp only [hd, Option.map_some, Option.getD_some] at h ⊢
      exact mem_dedupNum_of ((σ.perm _).mem_iff.1 h)
  have hUcov : ∀ k x, x ∈ D.vals k → ∃ δ ∈ U.vals k, δ.tw = x.tw := by
    intro k x h
    simp only [U, vals, get?_uniqueDict] at h ⊢
    cases hd : D.get? k with
    | none => simp [hd] at h
    | some l =>
      simp only [hd, Option.map_some, Option.getD_some] at h ⊢
      obtain ⟨y, hy1, hy2⟩ := dedupNum_covers h
      exact ⟨y, (σ.perm _).mem_iff.2 hy1, hy2⟩
  have hUnd : ∀ k, ((U.vals k).map Num.tw).Nodup := by
    intro k
    simp only [U, vals, get?_uniqueDict]
    cases hd : D.get? k with
    | none => simp
    | some l =>
      simp only [Option.map_some, Option.getD_some]
      exact (((σ.perm _).map Num.tw).nodup_iff).2 (dedupNum_nodup l)
  have hsub : ∀ a, Node m ae a → ∀ δ ∈ deltas a, ∃ b, Node m ae b ∧ ∃ t ∈ (E b).terms,
      t.config = a ∧ t.fArg = δ := by
    intro a ha δ hδ
    have h1 := hUmem _ _ hδ
    rw [hDv] at h1
    obtain ⟨e, he, h2⟩ := List.mem_flatMap.1 h1
    obtain ⟨b, hb, rfl⟩ := List.mem_map.1 he
    obtain ⟨t, ht, rfl⟩ := List.mem_map.1 h2
    obtain ⟨ht1, ht2⟩ := List.mem_filter.1 ht
    have hb' := (hnodes b).1 hb
    refine ⟨b, hb', t, ht1, ?_, rfl⟩
    exact (term_dtypes hm hEv hE hb' ht1).1.eq_of_id ha (by simpa using ht2)
  have hcov : ∀ b, Node m ae b → ∀ t ∈ (E b).terms, ∃ δ ∈ deltas t.config, δ.tw = t.fArg.tw := by
    intro b hb t ht
    apply hUcov
    rw [hDv]
    refine List.mem_flatMap.2 ⟨E b, List.mem_map.2 ⟨b, (hnodes b).2 hb, rfl⟩, ?_⟩
    exact List.mem_map.2 ⟨t, List.mem_filter.2 ⟨ht, by simp⟩, rfl⟩
  refine ⟨⟨f, E, deltas⟩, U, ⟨hf1, hgen,
    ⟨fun nb => (hf2 nb).1, fun nb => (hf2 nb).2, hEv, hE, fun a => hUnd _, hsub, hcov⟩,
    fun a => rfl, ?_, ?_⟩⟩
  · simp only [U, uniqueDict, List.map_map]
    exact keys_nodup_allFArgs all
  · intro k hk
    have hk' : k ∈ D.map Prod.fst := by
      simpa [U, uniqueDict, List.map_map, Function.comp_def] using hk
    have h1 : D.vals k ≠ [] := by
      intro h0
      cases hd : D.get? k with
      | none => exact (get?_eq_none_iff D k).1 hd hk'
      | some l =>
        have : l = [] := by simpa [vals, hd] using h0
        exact full_allFArgs all k (by rw [← this]; exact hd)
    obtain ⟨x, hx⟩ := List.exists_mem_of_ne_nil _ h1
    rw [hDv] at hx
    obtain ⟨e, he, h2⟩ := List.mem_flatMap.1 hx
    obtain ⟨b, hb, rfl⟩ := List.mem_map.1 he
    obtain ⟨t, ht, rfl⟩ := List.mem_map.1 h2
    obtain ⟨ht1, ht2⟩ := List.mem_filter.1 ht
    have hb' := (hnodes b).1 hb
    refine ⟨t.config, ?_, by simpa using ht2⟩
    have : Layout.nodes ⟨f, E, deltas⟩ m = nodes := rfl
    rw [this, hnodes]
    exact (term_dtypes hm hEv hE hb' ht1).1

theorem buildSystem_ok (σ : SetOrder) {m : Model R} {ae : Int} (hm : WellFormed m ae) :
    ∃ (b : Built R) (L : Layout R), buildSystem σ m = .ok b ∧ L.Ok m ae ∧ L.Describes m b := by
  obtain ⟨⟨f, E, deltas⟩, U, hS⟩ := generalized_ok σ hm.toShaped
  have hf1 := hS.confs
  have hgen := hS.gens
  have hL := hS.ok
  have hUv := hS.vals
  simp only at hf1 hgen hUv
  obtain rfl : deltas = fun a => U.vals (configId a) := funext hUv
  let deltas : Arr → List Num := fun a => U.vals (configId a)
  have hf2 : ∀ nb, (f nb).Nodup ∧ ∀ a, a ∈ f nb ↔ InSpace m ae nb a :=
    fun nb => ⟨hL.nodup nb, hL.mem nb⟩
  have hEv : E (vac m) = greenEq m := hL.eqn_vac
  have hE : ∀ a, InTruncation m ae a → ∃ ts, E a = ⟨false, a, none, ts, populate ts⟩ ∧
      Rhs m ae a m.ham.terms ts := hL.eqn
  have hsub : ∀ a, Node m ae a → ∀ δ ∈ deltas a, ∃ b, Node m ae b ∧ ∃ t ∈ (E b).terms,
      t.config = a ∧ t.fArg = δ := hL.deltas_sub
  have hcov : ∀ b, Node m ae b → ∀ t ∈ (E b).terms, ∃ δ ∈ deltas t.config, δ.tw = t.fArg.tw :=
    hL.deltas_cover
  have hEpop : ∀ a, Node m ae a → (E a).config = a := by
    rintro a (rfl | h)
    · rw [hEv]; rfl
    · obtain ⟨ts, e, -⟩ := hE a h; rw [e]
  set n := m.number.sum.toNat with hn
  let gens₀ : Dict Nat (List (Equation R)) := (List.range n).map (fun i => (i + 1, (f (i + 1)).map E))
  have hne : ∀ a, Node m ae a → deltas a ≠ [] := by
    intro a ha h0
    obtain ⟨b, hb, t, ht, rfl⟩ := reachable hm.toShaped hEv hE ha
    obtain ⟨δ, hδ, -⟩ := hcov b hb t ht
    rw [h0] at hδ; simp at hδ
  have hfull : ∀ a, Node m ae a → ∀ δ ∈ deltas a, initFull (E a) δ = .ok (full (E a) δ) := by
    intro a ha δ hδ
    apply initFull_ok
    intro t ht
    obtain ⟨b, hb, t', ht', -, rfl⟩ := hsub a ha δ hδ
    obtain ⟨-, h', hh', q1, -⟩ := term_dtypes hm.toShaped hEv hE hb ht'
    obtain ⟨-, h, hh, -, q2⟩ := term_dtypes hm.toShaped hEv hE ha ht
    rcases q2 with q2 | ⟨g, g1, g2⟩
    · exact Or.inl q2
    · refine Or.inr ⟨g, g1, fun hδf => ?_⟩
      rw [g2]
      exact hm.dtype h' hh' (by rw [← q1]; exact hδf) h hh
  let eqs₀ : Dict Nat (List (Equation R)) := (List.range n).map
    (fun i => (i + 1, (f (i + 1)).flatMap (fun a => (deltas a).map (full (E a))))) ++
      [(0, (deltas (vac m)).map (full (greenEq m)))]
  have hlookup : ∀ a, Node m ae a →
      expandEq U (E a) = .ok ((deltas a).map (full (E a))) := by
    intro a ha
    rw [expandEq, (hEpop a ha), get?_of_vals (hne a ha)]
    simp only
    apply collectM_some_ok
    intro δ hδ; rw [hfull a ha δ hδ]; rfl
  have heqs : initEquations (gens₀ ++ [(0, [greenEq m])]) U = .ok eqs₀ := by
    unfold initEquations
    rw [collectM_some_ok (g := fun kv => (kv.1,
      (kv.2.map (fun e => (U.vals (configId e.config)).map (full e))).flatten))]
    · congr 1
      simp only [eqs₀, gens₀, List.map_append, List.map_map, List.map_cons, List.map_nil]
      congr 1
      · apply List.map_congr_left
        intro i _
        simp only [Function.comp, Prod.mk.injEq, true_and]
        rw [List.flatMap_def]
        congr 1
        rw [List.map_map]
        apply List.map_congr_left
        intro a ha
        have := hEpop a (Or.inr (((hf2 _).2 a).1 ha).1)
        simp only [Function.comp, this]
        rfl
      · simp only [List.flatten_cons, List.flatten_nil, List.append_nil]
        rfl
    · intro kv hkv
      have key : ∀ es : List (Equation R), (∀ e ∈ es, ∃ a, Node m ae a ∧ e = E a) →
          collectM (fun e => some <$> expandEq U e) es =
          .ok (es.map (fun e => (U.vals (configId e.config)).map (full e))) := by
        intro es hes
        apply collectM_some_ok
        intro e he
        obtain ⟨a, ha, rfl⟩ := hes e he
        rw [hlookup a ha, (hEpop a ha)]; rfl
      simp only [gens₀, List.mem_append, List.mem_map, List.mem_singleton] at hkv
      rcases hkv with ⟨i, -, rfl⟩ | rfl
      · simp only
        rw [key]
        · rfl
        · intro e he
          obtain ⟨a, ha, rfl⟩ := List.mem_map.1 he
          exact ⟨a, Or.inr (((hf2 _).2 a).1 ha).1, rfl⟩
      · simp only
        rw [key]
        · rfl
        · intro e he
          simp only [List.mem_singleton] at he
          exact ⟨vac m, Or.inl rfl, by rw [he, hEv]⟩
  have hmem : ∀ e, e ∈ allEqs eqs₀ ↔ ∃ a, Node m ae a ∧ ∃ δ ∈ deltas a, e = full (E a) δ := by
    intro e
    simp only [allEqs, eqs₀, List.flatMap_append, List.mem_append, List.mem_flatMap, List.mem_map,
      List.mem_range, List.mem_singleton]
    constructor
    · rintro (⟨kv, ⟨i, -, rfl⟩, h⟩ | ⟨kv, rfl, h⟩)
      · simp only [List.mem_flatMap, List.mem_map] at h
        obtain ⟨a, ha, δ, hδ, rfl⟩ := h
        exact ⟨a, Or.inr (((hf2 _).2 a).1 ha).1, δ, hδ, rfl⟩
      · obtain ⟨δ, hδ, rfl⟩ := List.mem_map.1 h
        exact ⟨vac m, Or.inl rfl, δ, hδ, by rw [hEv]⟩
    · rintro ⟨a, rfl | ha, δ, hδ, rfl⟩
      · exact Or.inr ⟨_, rfl, List.mem_map.2 ⟨δ, hδ, by rw [hEv]⟩⟩
      · obtain ⟨h1, h2⟩ := phonons_bounds hm.toListsOk ha
        refine Or.inl ⟨_, ⟨(phonons a).toNat - 1, by omega, rfl⟩, ?_⟩
        simp only [List.mem_flatMap, List.mem_map]
        exact ⟨a, ((hf2 _).2 _).2 ⟨ha, by omega⟩, δ, hδ, rfl⟩
  have hid : ∀ a, Node m ae a → ∀ δ, (full (E a) δ).id = termId a (some δ) := by
    intro a ha δ
    simp only [Equation.id, full, (hEpop a ha)]
  have hfin : finalChecks eqs₀ = .ok () := by
    unfold finalChecks
    simp only
    rw [if_pos]
    rw [Bool.and_eq_true, List.all_eq_true, List.all_eq_true]
    constructor
    · intro x hx
      obtain ⟨e, he, rfl⟩ := List.mem_map.1 hx
      obtain ⟨a, ha, δ, hδ, rfl⟩ := (hmem e).1 he
      obtain ⟨b, hb, t, ht, h1, h2⟩ := hsub a ha δ hδ
      obtain ⟨δ', hδ'⟩ := List.exists_mem_of_ne_nil _ (hne b hb)
      rw [decide_eq_true_eq]
      refine List.mem_flatMap.2 ⟨full (E b) δ', (hmem _).2 ⟨b, hb, δ', hδ', rfl⟩, ?_⟩
      refine List.mem_map.2 ⟨incr δ' t, List.mem_map.2 ⟨t, ht, rfl⟩, ?_⟩
      rw [incr_id, hid a ha, Term.id, h1, h2]
    · intro x hx
      obtain ⟨e, he, hx⟩ := List.mem_flatMap.1 hx
      obtain ⟨b, hb, δ, hδ, rfl⟩ := (hmem e).1 he
      obtain ⟨t', ht', rfl⟩ := List.mem_map.1 hx
      obtain ⟨t, ht, rfl⟩ := List.mem_map.1 ht'
      obtain ⟨δ', h1, h2⟩ := hcov b hb t ht
      have hnode := (term_dtypes hm.toShaped hEv hE hb ht).1
      rw [decide_eq_true_eq]
      refine List.mem_map.2 ⟨full (E t.config) δ', (hmem _).2 ⟨_, hnode, δ', h1, rfl⟩, ?_⟩
      rw [incr_id, hid _ hnode, Term.id, termId_eq_iff hnode.wf hnode.wf]
      exact ⟨Or.inr rfl, by simp [h2]⟩
  refine ⟨⟨gens₀ ++ [(0, [greenEq m])], U, eqs₀⟩, ⟨f, E, fun a => U.vals (configId a)⟩, ?_, hL, ?_⟩
  · simp only [buildSystem, hf1, hgen, bind, Except.bind, pure, Except.pure]
    rw [show initEquations _ U = .ok eqs₀ from heqs]
    simp only [hfin]
    rfl
  · exact ⟨rfl, fun a _ => (hUv a).symm, hS.keys, hS.keysMem, rfl⟩

end GGCE
