import Verif.Proofs.Build

/-! Uniqueness of the unknowns, counting, and the basis dictionaries. -/

set_option linter.unusedSectionVars false

namespace GGCE
open Spec Arr Dict

variable {R : Type} [Field R] [LinearOrder R]

theorem Layout.Ok.nodes_nodup {L : Layout R} {m : Model R} {ae : Int} (hL : L.Ok m ae) :
    (L.nodes m).Nodup := by
  unfold Layout.nodes
  rw [List.nodup_append]
  refine ⟨?_, by simp, ?_⟩
  · rw [List.nodup_flatMap]
    refine ⟨fun i _ => hL.nodup _, ?_⟩
    refine List.nodup_range.imp ?_
    intro i j hij
    rw [Function.onFun, List.disjoint_left]
    intro a h1 h2
    have e1 := ((hL.mem _ _).1 h1).2
    have e2 := ((hL.mem _ _).1 h2).2
    exact hij (by omega)
  · intro a ha b hb
    simp only [List.mem_flatMap, List.mem_singleton] at ha hb
    obtain ⟨i, -, hi⟩ := ha
    rintro rfl
    subst hb
    exact total_ne_zero ((hL.mem _ _).1 hi).1 (vac_total m)

theorem Layout.Ok.allEqs_eq {L : Layout R} {m : Model R} {ae : Int} (hL : L.Ok m ae) {b : Built R}
    (hb : L.Describes m b) :
    allEqs b.eqs = (L.nodes m).flatMap (fun a => (L.deltas a).map (full (L.eqn a))) := by
  rw [hb.eqs, allEqs, Layout.nodes]
  simp only [List.flatMap_append, List.flatMap_cons, List.flatMap_nil, List.append_nil,
    List.flatMap_map, List.flatMap_assoc, hL.eqn_vac]

theorem Layout.Ok.eqn_config {L : Layout R} {m : Model R} {ae : Int} (hL : L.Ok m ae) {a : Arr}
    (ha : Node m ae a) : (L.eqn a).config = a := by
  rcases ha with rfl | ha
  · rw [hL.eqn_vac]; rfl
  · obtain ⟨ts, h, -⟩ := hL.eqn a ha; rw [h]

theorem Layout.Ok.mem_allEqs {L : Layout R} {m : Model R} {ae : Int} (hl : ListsOk m) (hL : L.Ok m ae)
    {b : Built R} (hb : L.Describes m b) (e : Equation R) :
    e ∈ allEqs b.eqs ↔ ∃ a, Node m ae a ∧ ∃ δ ∈ L.deltas a, e = full (L.eqn a) δ := by
  rw [hL.allEqs_eq hb]
  simp only [List.mem_flatMap, List.mem_map, Layout.mem_nodes hl hL]
  constructor
  · rintro ⟨a, ha, δ, hδ, rfl⟩; exact ⟨a, ha, δ, hδ, rfl⟩
  · rintro ⟨a, ha, δ, hδ, rfl⟩; exact ⟨a, ha, δ, hδ, rfl⟩

theorem Layout.Ok.ids_nodup {L : Layout R} {m : Model R} {ae : Int} (hl : ListsOk m) (hL : L.Ok m ae)
    {b : Built R} (hb : L.Describes m b) : ((allEqs b.eqs).map Equation.id).Nodup := by
  rw [hL.allEqs_eq hb, List.map_flatMap, List.nodup_flatMap]
  constructor
  · intro a ha
    have ha' := (Layout.mem_nodes hl hL a).1 ha
    rw [List.map_map]
    have h1 := hL.deltas_nodup a
    rw [List.Nodup, List.pairwise_map] at h1 ⊢
    refine h1.imp ?_
    intro x y hxy h
    simp only [Function.comp, Equation.id, full, hL.eqn_config ha'] at h
    rw [termId_eq_iff ha'.wf ha'.wf] at h
    exact hxy (by simpa using h.2)
  · have h1 : (L.nodes m).Pairwise (fun a b => a ≠ b ∧ Node m ae a ∧ Node m ae b) := by
      have := hL.nodes_nodup
      rw [List.pairwise_iff_getElem]
      intro i j hi hj hij
      refine ⟨?_, (Layout.mem_nodes hl hL _).1 (List.getElem_mem hi),
        (Layout.mem_nodes hl hL _).1 (List.getElem_mem hj)⟩
      intro h
      exact absurd ((this.getElem_inj_iff).1 h) (by omega)
    refine h1.imp ?_
    rintro a c ⟨hne, ha, hc⟩
    rw [Function.onFun, List.disjoint_left]
    intro x h1 h2
    simp only [List.map_map, List.mem_map, Function.comp] at h1 h2
    obtain ⟨δ, -, rfl⟩ := h1
    obtain ⟨δ', -, h⟩ := h2
    simp only [Equation.id, full, hL.eqn_config ha, hL.eqn_config hc] at h
    rcases ((termId_eq_iff hc.wf ha.wf).1 h).1 with ⟨q1, q2⟩ | q
    · rcases ha with rfl | ha
      · rcases hc with rfl | hc
        · exact hne rfl
        · exact total_ne_zero hc q1
      · exact total_ne_zero ha q2
    · exact hne q.symm

theorem Layout.Ok.deltas_ne_nil {L : Layout R} {m : Model R} {ae : Int} (hm : Shaped m ae)
    (hL : L.Ok m ae) {a : Arr} (ha : Node m ae a) : L.deltas a ≠ [] := by
  obtain ⟨b, hb, t, ht, rfl⟩ := reachable hm hL.eqn_vac hL.eqn ha
  obtain ⟨δ, hδ, -⟩ := hL.deltas_cover b hb t ht
  intro h; rw [h] at hδ; simp at hδ

theorem Layout.Ok.term_node {L : Layout R} {m : Model R} {ae : Int} (hm : Shaped m ae)
    (hL : L.Ok m ae) {b : Arr} (hb : Node m ae b) {t : Term R} (ht : t ∈ (L.eqn b).terms) :
    Node m ae t.config := (term_dtypes hm hL.eqn_vac hL.eqn hb ht).1

theorem not_truncation_vac {m : Model R} {ae : Int} : ¬ InTruncation m ae (vac m) :=
  fun h => total_ne_zero h (vac_total m)

/-- right-hand-side terms on the vacuum have argument 0 -/
theorem Layout.Ok.vac_term {L : Layout R} {m : Model R} {ae : Int} (hm : Shaped m ae)
    (hL : L.Ok m ae) {b : Arr} (hb : Node m ae b) {t : Term R} (ht : t ∈ (L.eqn b).terms)
    (hv : t.config = vac m) : t.fArg.tw = 0 := by
  rcases hb with rfl | hb
  · exfalso
    rw [hL.eqn_vac] at ht
    simp only [greenEq, greenTerms, List.mem_map, List.mem_filter, decide_eq_true_eq] at ht
    obtain ⟨h, ⟨hh, hd⟩, rfl⟩ := ht
    have h1 := single_truncation hm (hm.index h hh)
    rw [show single m.nTypes h.phononIndex = vac m from hv] at h1
    exact not_truncation_vac h1
  · obtain ⟨ts, e1, e2⟩ := hL.eqn b hb
    rw [e1] at ht
    obtain ⟨h, hh, γ, -, hp⟩ := e2.mem ht
    rcases hp.cloud with ⟨k1, -⟩ | ⟨-, -, k3, -⟩
    · exact absurd (hv ▸ k1) not_truncation_vac
    · exact k3

theorem Layout.Ok.deltas_vac {L : Layout R} {m : Model R} {ae : Int} (hm : Shaped m ae)
    (hL : L.Ok m ae) : ∃ δ, L.deltas (vac m) = [δ] ∧ δ.tw = 0 := by
  have h0 : ∀ δ ∈ L.deltas (vac m), δ.tw = 0 := by
    intro δ hδ
    obtain ⟨b, hb, t, ht, h1, rfl⟩ := hL.deltas_sub _ (Or.inl rfl) δ hδ
    exact hL.vac_term hm hb ht h1
  have hne := hL.deltas_ne_nil hm (Or.inl rfl : Node m ae (vac m))
  have hnd := hL.deltas_nodup (vac m)
  match hd : L.deltas (vac m) with
  | [] => exact absurd hd hne
  | [δ] => exact ⟨δ, rfl, h0 δ (by simp [hd])⟩
  | δ :: δ' :: ds =>
    exfalso
    rw [hd] at hnd
    simp only [List.map_cons, List.nodup_cons, List.mem_cons, not_or] at hnd
    exact hnd.1.1 (by rw [h0 δ (by simp [hd]), h0 δ' (by simp [hd])])

/-! #### counting -/

theorem sum_lengths_perm {κ ν : Type} [DecidableEq κ] {d : Dict κ (List ν)}
    (hd : (d.map Prod.fst).Nodup) {ks : List κ} (hp : ks.Perm (d.map Prod.fst)) :
    (d.map (fun kv => kv.2.length)).sum = (ks.map (fun k => (d.vals k).length)).sum := by
  rw [(hp.map (fun k => (d.vals k).length)).sum_eq, List.map_map]
  congr 1
  apply List.map_congr_left
  intro kv hkv
  have := get?_of_mem hd (k := kv.1) (v := kv.2) hkv
  simp [vals, this]

theorem Layout.Ok.count {L : Layout R} {m : Model R} {ae : Int} (hm : Shaped m ae)
    (hL : L.Ok m ae) {b : Built R} (hb : L.Describes m b) :
    (b.fargs.map (fun kv => kv.2.length)).sum = (allEqs b.eqs).length := by
  have hnd : ((L.nodes m).map configId).Nodup := by
    apply List.Nodup.map_on _ hL.nodes_nodup
    intro a ha c hc h
    exact ((Layout.mem_nodes hm.toListsOk hL a).1 ha).eq_of_id
      ((Layout.mem_nodes hm.toListsOk hL c).1 hc) h
  rw [sum_lengths_perm hb.fargsKeys (ks := (L.nodes m).map configId), hL.allEqs_eq hb,
    List.length_flatMap, List.map_map]
  · congr 1
    apply List.map_congr_left
    intro a ha
    simp [hb.fargs a ha]
  · rw [List.perm_ext_iff_of_nodup hnd hb.fargsKeys]
    intro k
    constructor
    · intro hk
      obtain ⟨a, ha, rfl⟩ := List.mem_map.1 hk
      by_contra hc
      have := (get?_eq_none_iff b.fargs (configId a)).2 hc
      have h1 := hb.fargs a ha
      rw [get?_none_vals this] at h1
      exact hL.deltas_ne_nil hm ((Layout.mem_nodes hm.toListsOk hL a).1 ha) h1.symm
    · intro hk
      obtain ⟨a, ha, rfl⟩ := hb.fargsMem k hk
      exact List.mem_map.2 ⟨a, ha, rfl⟩

/-! #### basis dictionaries -/

theorem set_new {κ ν : Type} [DecidableEq κ] (d : Dict κ ν) (k : κ) (v : ν)
    (h : k ∉ d.map Prod.fst) : d.set k v = d ++ [(k, v)] := by
  induction d with
  | nil => rfl
  | cons p d ih =>
    simp only [List.map_cons, List.mem_cons, not_or] at h
    simp only [Dict.set, List.cons_append]
    rw [if_neg (fun e => h.1 e.symm), ih h.2]

/-- numbering a list with distinct identifiers -/
theorem basis_fold {κ α : Type} [DecidableEq κ] (id : α → κ) (l : List α) (s : Nat)
    (d : Dict κ Nat) (hn : (d.map Prod.fst ++ l.map id).Nodup) :
    (l.zipIdx s).foldl (fun d ei => Dict.set d (id ei.1) ei.2) d = d ++ (l.map id).zipIdx s := by
  induction l generalizing d s with
  | nil => simp
  | cons a l ih =>
    simp only [List.zipIdx_cons, List.foldl_cons, List.map_cons]
    have h1 : id a ∉ d.map Prod.fst := by
      rw [List.nodup_append] at hn
      intro h
      exact hn.2.2 _ h _ (by simp) rfl
    rw [set_new _ _ _ h1, ih]
    · simp
    · simpa using hn

theorem fullBasis_eq {eqs : Dict Nat (List (Equation R))}
    (h : ((allEqs eqs).map Equation.id).Nodup) :
    fullBasis eqs = ((allEqs eqs).map Equation.id).zipIdx := by
  unfold fullBasis
  have := basis_fold Equation.id (allEqs eqs) 0 [] (by simpa using h)
  simpa using this

theorem get?_zipIdx {κ : Type} [DecidableEq κ] {l : List κ} (h : l.Nodup) {i : Nat} {k : κ} :
    Dict.get? (l.zipIdx) k = some i ↔ l[i]? = some k := by
  have hk : (l.zipIdx.map Prod.fst).Nodup := by simpa using h
  constructor
  · intro hg
    have := mem_of_get? hg
    exact (List.mem_zipIdx_iff_getElem?).1 this
  · intro hg
    exact get?_of_mem hk ((List.mem_zipIdx_iff_getElem?).2 hg)

theorem localBasis_eq {eqs : Dict Nat (List (Equation R))}
    (h : ((allEqs eqs).map Equation.id).Nodup) :
    localBasis eqs = eqs.map (fun kv => (kv.1, (kv.2.map Equation.id).zipIdx)) := by
  unfold localBasis
  apply List.map_congr_left
  intro kv hkv
  congr 1
  have hsub : (kv.2.map Equation.id).Nodup := by
    refine h.sublist ?_
    unfold allEqs
    apply List.Sublist.map
    rw [List.flatMap_def]
    exact List.sublist_flatten_of_mem (List.mem_map.2 ⟨kv, hkv, rfl⟩)
  have := basis_fold Equation.id kv.2 0 [] (by simpa using hsub)
  simpa using this

end GGCE
