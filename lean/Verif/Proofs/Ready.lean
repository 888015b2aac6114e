import Verif.Proofs.Sparse
import Verif.Spec.Linear
import Verif.Props.System

/-! What the solvers need to know about a built system, and the sparse matrix assembled from it. -/

set_option linter.unusedSectionVars false

namespace GGCE
open Spec Arr Dict

variable {R K : Type} [Field R] [LinearOrder R] [Field K]

/-- The facts about the equations that the solvers rely on. -/
structure Ready (m : Model R) (eqs : Dict Nat (List (Equation R))) : Prop where
  keys : eqs.map Prod.fst = (List.range m.number.sum.toNat).map (· + 1) ++ [0]
  nodup : ((allEqs eqs).map Equation.id).Nodup
  size : ∀ n es, eqs.get? n = some es → ∀ e ∈ es, e.config.total = n
  step : ∀ e ∈ allEqs eqs, ∀ t ∈ e.terms,
    t.config.total = e.config.total + 1 ∨ t.config.total = e.config.total - 1
  closed : ∀ e ∈ allEqs eqs, ∀ t ∈ e.terms, ∃ e' ∈ allEqs eqs, e'.id = t.id ∧
    e'.config.total = t.config.total
  coef : ∀ e ∈ allEqs eqs, ∀ t ∈ e.terms, t.kind = .eom ∨ ∃ g, t.gArg = some g
  green : ∃ e, eqs.get? 0 = some [e] ∧ e.green = true ∧ e.id = "{G}[0.0]".toList
  last : ∃ e, (allEqs eqs).getLast? = some e ∧ e.id = "{G}[0.0]".toList
  notGreen : ∀ e ∈ allEqs eqs, e.green = true → e.config.total = 0

theorem ready_of_built {σ : SetOrder} {m : Model R} {ae : Int} (hm : WellFormed m ae) {b : Built R}
    (hb : buildSystem σ m = .ok b) : Ready m b.eqs := by
  have h13 := Props.C13_phonon_number_step σ m ae hm b hb
  have h14 := Props.C14_term_arguments σ m ae hm b hb
  have h18 := Props.C18_green_last σ m ae hm b hb
  obtain ⟨b', L, h1, hL, hd⟩ := buildSystem_ok σ hm
  rw [hb] at h1; cases h1
  have hmem := hL.mem_allEqs hm.toListsOk hd
  have hkeys : b.eqs.map Prod.fst = (List.range m.number.sum.toNat).map (· + 1) ++ [0] := by
    rw [hd.eqs]; simp [Function.comp_def]
  have hkn : (b.eqs.map Prod.fst).Nodup := by
    rw [hkeys, List.nodup_append]
    refine ⟨(List.nodup_range).map (fun a b h => by simpa using h), by simp, ?_⟩
    intro a ha c hc
    simp only [List.mem_map, List.mem_range, List.mem_singleton] at ha hc
    obtain ⟨i, -, rfl⟩ := ha
    omega
  refine { keys := hkeys, nodup := hL.ids_nodup hm.toListsOk hd, size := ?_, step := ?_,
           closed := ?_, coef := ?_, green := ?_, last := ?_, notGreen := ?_ }
  · intro n es hes e he
    have h2 := mem_of_get? hes
    rw [hd.eqs, List.mem_append] at h2
    rcases h2 with h2 | h2
    · obtain ⟨i, -, h3⟩ := List.mem_map.1 h2
      simp only [Prod.mk.injEq] at h3
      obtain ⟨rfl, rfl⟩ := h3
      obtain ⟨a, ha, he⟩ := List.mem_flatMap.1 he
      obtain ⟨δ, -, rfl⟩ := List.mem_map.1 he
      obtain ⟨k1, k2⟩ := (hL.mem _ _).1 ha
      rw [full, hL.eqn_config (Or.inr k1)]
      exact k2
    · simp only [List.mem_singleton, Prod.mk.injEq] at h2
      obtain ⟨rfl, rfl⟩ := h2
      obtain ⟨δ, -, rfl⟩ := List.mem_map.1 he
      exact vac_total m
  · intro e he t ht
    rcases h13 e he t ht with ⟨-, h, -⟩ | ⟨-, h, -⟩ | ⟨-, h, h', -⟩
    · exact Or.inl h
    · exact Or.inr h
    · left
      have h1 : t.config.total = 1 := h
      have h2 : e.config.total = 0 := h'
      omega
  · intro e he t' ht'
    obtain ⟨a, ha, δ, hδ, rfl⟩ := (hmem e).1 he
    obtain ⟨t, ht, rfl⟩ := List.mem_map.1 ht'
    obtain ⟨δ', k1, k2⟩ := hL.deltas_cover a ha t ht
    have hn := hL.term_node hm.toShaped ha ht
    refine ⟨full (L.eqn t.config) δ', (hmem _).2 ⟨_, hn, δ', k1, rfl⟩, ?_, ?_⟩
    · rw [incr_id, Term.id, Equation.id, full, hL.eqn_config hn, termId_eq_iff hn.wf hn.wf]
      exact ⟨Or.inr rfl, by simp [k2]⟩
    · rw [full, hL.eqn_config hn, incr_config]
  · intro e he t ht
    cases hg : e.green
    · obtain ⟨-, δ, -, h3⟩ := h14 e he hg
      obtain ⟨h, -, γ, -, -, ⟨g, h4, -⟩, -⟩ := h3 t ht
      exact Or.inr ⟨g, h4⟩
    · rcases h13 e he t ht with ⟨-, -, h⟩ | ⟨-, -, h⟩ | ⟨h, -⟩
      · rw [h] at hg; cases hg
      · rw [h] at hg; cases hg
      · exact Or.inl h
  · obtain ⟨δ, hδ1, hδ2⟩ := hL.deltas_vac hm.toShaped
    refine ⟨full (greenEq m) δ, ?_, rfl, ?_⟩
    · refine get?_of_mem hkn ?_
      rw [hd.eqs, hδ1]; simp
    · show termId (vac m) (some δ) = _
      unfold termId
      rw [(configId_eq_G _).2 (vac_total m)]
      simp [fArgId, listStr, commaJoin, halfStr, hδ2, natStr, Nat.digitChar]
  · obtain ⟨e, h1, -, -, -, h2⟩ := h18
    exact ⟨e, h1, h2⟩
  · intro e he hg
    obtain ⟨a, ha, δ, hδ, rfl⟩ := (hmem e).1 he
    rcases ha with rfl | ha
    · rw [full, hL.eqn_config (Or.inl rfl)]; exact vac_total m
    · obtain ⟨ts, e1, e2⟩ := hL.eqn a ha
      rw [e1] at hg; cases hg

/-- coefficient, 0 on failure -/
def coefV (F : Phys R K) (m : Model R) (p : Point R) (t : Term R) : K :=
  match t.coefficient F m p with
  | .ok c => c
  | .error _ => 0

theorem coefficient_ok {F : Phys R K} {m : Model R} {p : Point R} {t : Term R}
    (h : t.kind = .eom ∨ ∃ g, t.gArg = some g) : t.coefficient F m p = .ok (coefV F m p t) := by
  unfold coefV
  have : ∃ c, t.coefficient F m p = .ok c := by
    unfold Term.coefficient
    rcases h with h | ⟨g, h⟩
    · rw [h]; exact ⟨_, rfl⟩
    · cases t.kind <;> simp [h]
  obtain ⟨c, hc⟩ := this
  rw [hc]

section
variable {m : Model R} {eqs : Dict Nat (List (Equation R))} (h : Ready m eqs)
include h

theorem Ready.keysNodup : (eqs.map Prod.fst).Nodup := by
  rw [h.keys, List.nodup_append]
  refine ⟨(List.nodup_range).map (fun a b h => by simpa using h), by simp, ?_⟩
  intro a ha c hc
  simp only [List.mem_map, List.mem_range, List.mem_singleton] at ha hc
  obtain ⟨i, -, rfl⟩ := ha
  omega

theorem Ready.get {n : Nat} (hn : n ≤ m.number.sum.toNat) : eqs.get? n = some (eqs.vals n) := by
  unfold Dict.vals
  cases hg : Dict.get? eqs n with
  | some es => rfl
  | none =>
    rw [get?_eq_none_iff, h.keys] at hg
    simp only [List.mem_append, List.mem_map, List.mem_range, List.mem_singleton, not_or] at hg
    exact absurd ⟨n - 1, by omega, by omega⟩ hg.1

theorem Ready.allEqs_eq : allEqs eqs = (eqs.map Prod.fst).flatMap (fun n => eqs.vals n) := by
  unfold allEqs
  rw [List.flatMap_map]
  have : ∀ kv ∈ eqs, kv.2 = eqs.vals kv.1 := by
    intro kv hkv
    unfold Dict.vals
    rw [get?_of_mem h.keysNodup (k := kv.1) (v := kv.2) hkv]; rfl
  rw [List.flatMap_def, List.flatMap_def, List.map_congr_left this]

theorem Ready.order_perm :
    ((List.range (m.number.sum.toNat + 1)).flatMap (fun n => eqs.vals n)).Perm (allEqs eqs) := by
  rw [h.allEqs_eq]
  refine List.Perm.flatMap_right _ ?_
  rw [h.keys, List.range_succ_eq_map]
  rw [List.perm_comm]
  exact (List.perm_append_singleton _ _)

theorem Ready.mem_vals {n : Nat} {e : Equation R} (hn : n ≤ m.number.sum.toNat) :
    e ∈ eqs.vals n ↔ e ∈ allEqs eqs ∧ e.config.total = n := by
  constructor
  · intro he
    refine ⟨?_, h.size n _ (h.get hn) e he⟩
    rw [← h.order_perm.mem_iff, List.mem_flatMap]
    exact ⟨n, List.mem_range.2 (by omega), he⟩
  · rintro ⟨he, ht⟩
    rw [← h.order_perm.mem_iff, List.mem_flatMap] at he
    obtain ⟨n', hn', he⟩ := he
    have := h.size n' _ (h.get (by simpa using Nat.le_of_lt_succ (List.mem_range.1 hn'))) e he
    have : n' = n := by omega
    rwa [← this]

theorem Ready.total_le {e : Equation R} (he : e ∈ allEqs eqs) :
    ∃ n ≤ m.number.sum.toNat, e.config.total = n := by
  rw [← h.order_perm.mem_iff, List.mem_flatMap] at he
  obtain ⟨n', hn', he⟩ := he
  have hn : n' ≤ m.number.sum.toNat := by simpa using Nat.le_of_lt_succ (List.mem_range.1 hn')
  exact ⟨n', hn, h.size n' _ (h.get hn) e he⟩

/-- index of an unknown in the full basis -/
def ixOf (eqs : Dict Nat (List (Equation R))) (id : PyStr) : Nat :=
  ((allEqs eqs).map Equation.id).idxOf id

theorem Ready.basis {e : Equation R} (he : e ∈ allEqs eqs) :
    (fullBasis eqs).get? e.id = some (ixOf eqs e.id) := by
  rw [fullBasis_eq h.nodup, get?_zipIdx h.nodup, ixOf]
  exact List.getElem?_idxOf (List.mem_map.2 ⟨e, he, rfl⟩)

theorem Ready.ix_get {i : Nat} {e : Equation R} (he : (allEqs eqs)[i]? = some e) : ixOf eqs e.id = i := by
  have h1 := h.basis (List.mem_of_getElem? he)
  have h2 : (fullBasis eqs).get? e.id = some i := by
    rw [fullBasis_eq h.nodup, get?_zipIdx h.nodup]; simp [he]
  rw [h1] at h2; simpa using h2

theorem Ready.get_ix {e : Equation R} (he : e ∈ allEqs eqs) : (allEqs eqs)[ixOf eqs e.id]? = some e := by
  obtain ⟨i, hi⟩ := List.mem_iff_getElem?.1 he
  rw [h.ix_get hi]; exact hi

theorem Ready.ix_lt {e : Equation R} (he : e ∈ allEqs eqs) : ixOf eqs e.id < (allEqs eqs).length :=
  (List.getElem?_eq_some_iff.1 (h.get_ix he)).1

theorem Ready.id_inj {e e' : Equation R} (he : e ∈ allEqs eqs) (he' : e' ∈ allEqs eqs)
    (hid : e.id = e'.id) : e = e' := by
  have h1 := h.get_ix he
  have h2 := h.get_ix he'
  rw [hid, h2] at h1; simpa using h1.symm

theorem Ready.ix_inj {e e' : Equation R} (he : e ∈ allEqs eqs) (he' : e' ∈ allEqs eqs)
    (hid : ixOf eqs e.id = ixOf eqs e'.id) : e = e' := by
  have h1 := h.get_ix he
  rw [hid, h.get_ix he'] at h1; simpa using h1.symm

theorem Ready.term_basis {e : Equation R} (he : e ∈ allEqs eqs) {t : Term R} (ht : t ∈ e.terms) :
    (fullBasis eqs).get? t.id = some (ixOf eqs t.id) := by
  obtain ⟨e', he', h1, -⟩ := h.closed e he t ht
  rw [← h1]; exact h.basis he'

omit h in
theorem sum_single {α : Type} [DecidableEq α] {l : List α} (hl : l.Nodup) {a : α} (ha : a ∈ l)
    {f : α → K} (hf : ∀ b ∈ l, b ≠ a → f b = 0) : (l.map f).sum = f a := by
  rw [List.sum_map_eq_nsmul_single a (hf := fun b hb hbl => hf b hbl hb), List.count_eq_one_of_mem hl ha,
    one_smul]

theorem Ready.allNodup : (allEqs eqs).Nodup := List.Nodup.of_map _ h.nodup

theorem Ready.length_pos : 0 < (allEqs eqs).length := by
  obtain ⟨e, h1, -⟩ := h.last
  cases hq : allEqs eqs with
  | nil => rw [hq] at h1; cases h1
  | cons a l => simp

theorem Ready.green_ix : (fullBasis eqs).get? "{G}[0.0]".toList = some ((allEqs eqs).length - 1) := by
  obtain ⟨e, h1, h2⟩ := h.last
  rw [List.getLast?_eq_getElem?] at h1
  rw [← h2, h.basis (List.mem_of_getElem? h1), h.ix_get h1]

/-- The assembled coordinate list. -/
theorem Ready.sparse (F : Phys R K) (p : Point R) :
    ∃ T, sparseTriples F m p (fullBasis eqs) eqs = .ok T ∧
      (T.map (fun q => (q.1, q.2.1))).Nodup ∧
      (∀ q ∈ T, q.1 < (allEqs eqs).length ∧ q.2.1 < (allEqs eqs).length) ∧
      (∀ i < (allEqs eqs).length, (i, i) ∈ T.map (fun q => (q.1, q.2.1))) ∧
      ∀ (i : Nat) (ei : Equation R), (allEqs eqs)[i]? = some ei → ∀ j,
        cooEntry T i j = (ei.terms.map (fun t => if ixOf eqs t.id = j then coefV F m p t else 0)).sum +
          if i = j then 1 else 0 := by
  let v : PyStr × Py K → K := fun q => match q.2 with
    | .ok c => c
    | .error _ => 0
  have hrow : ∀ e : Equation R, ∃ d : Dict Nat K, e ∈ allEqs eqs →
      rowLoop (fullBasis eqs) (rowTerms F m p e) [] = .ok d ∧ (d.map Prod.fst).Nodup ∧
      (∀ j, d.val j = (e.terms.map (fun t => if ixOf eqs t.id = j then coefV F m p t else 0)).sum +
        if ixOf eqs e.id = j then 1 else 0) ∧
      (∀ j ∈ d.map Prod.fst, j < (allEqs eqs).length) ∧ ixOf eqs e.id ∈ d.map Prod.fst := by
    intro e
    by_cases he : e ∈ allEqs eqs
    · obtain ⟨d, h1, h2, h3, h4⟩ := rowLoop_ok (ix := ixOf eqs) (rowTerms F m p e) v (by
        intro q hq
        simp only [rowTerms, List.mem_append, List.mem_map, List.mem_singleton] at hq
        rcases hq with ⟨t, ht, rfl⟩ | rfl
        · refine ⟨h.term_basis he ht, ?_⟩
          show t.coefficient F m p = .ok (v (t.id, t.coefficient F m p))
          rw [coefficient_ok (h.coef e he t ht)]
        · exact ⟨h.basis he, rfl⟩) [] (by simp)
      refine ⟨d, fun _ => ⟨h1, h2, ?_, ?_, ?_⟩⟩
      · intro j
        rw [h3]
        simp only [rowTerms, List.map_append, List.map_map, List.sum_append, List.map_cons, List.map_nil,
          List.sum_cons, List.sum_nil, Dict.val, Dict.get?, Option.getD_none, zero_add, add_zero]
        rfl
      · intro j hj
        rcases (h4 j).1 hj with hj | ⟨q, hq, rfl⟩
        · simp at hj
        · simp only [rowTerms, List.mem_append, List.mem_map, List.mem_singleton] at hq
          rcases hq with ⟨t, ht, rfl⟩ | rfl
          · obtain ⟨e', he', k1, -⟩ := h.closed e he t ht
            rw [show (t.id, t.coefficient F m p).1 = e'.id from k1.symm]
            exact h.ix_lt he'
          · exact h.ix_lt he
      · rw [h4]
        right
        exact ⟨(e.id, .ok 1), by simp [rowTerms], rfl⟩
    · exact ⟨[], fun h => absurd h he⟩
  choose D hD using hrow
  let row : Equation R → List (Nat × Nat × K) := fun e => (D e).map (fun kv => (ixOf eqs e.id, kv.1, kv.2))
  have hsr : ∀ e ∈ allEqs eqs, sparseRow F m p (fullBasis eqs) e = .ok (row e) := by
    intro e he
    unfold sparseRow
    rw [h.basis he, (hD e he).1]; rfl
  have hT : sparseTriples F m p (fullBasis eqs) eqs = .ok
      (((List.range (m.number.sum.toNat + 1)).flatMap (fun n => eqs.vals n)).flatMap row) := by
    unfold sparseTriples
    rw [collectM_some_ok (g := fun n => ((eqs.vals n).map row).flatten)]
    · show Except.ok _ = _
      rw [List.flatMap_assoc]
      simp only [List.flatMap_def]
    · intro n hn
      have hn' : n ≤ m.number.sum.toNat := by simpa using Nat.le_of_lt_succ (List.mem_range.1 hn)
      rw [h.get hn']
      simp only
      rw [collectM_some_ok (g := row)]
      · rfl
      · intro e he
        rw [hsr e ((h.mem_vals hn').1 he).1]; rfl
  refine ⟨_, hT, ?_, ?_, ?_, ?_⟩
  · rw [List.map_flatMap, List.nodup_flatMap]
    constructor
    · intro e he
      have := (hD e (h.order_perm.mem_iff.1 he)).2.1
      rw [List.map_map]
      have h2 : (D e).map ((fun q : Nat × Nat × K => (q.1, q.2.1)) ∘ fun kv => (ixOf eqs e.id, kv.1, kv.2)) =
          ((D e).map Prod.fst).map (fun j => (ixOf eqs e.id, j)) := by
        rw [List.map_map]; rfl
      rw [h2]
      exact this.map (fun a b h => by simpa using h)
    · have hn := (h.order_perm.nodup_iff).2 h.allNodup
      have hp := h.order_perm
      generalize (List.range (m.number.sum.toNat + 1)).flatMap (fun n => eqs.vals n) = l at hn hp ⊢
      rw [List.pairwise_iff_getElem]
      intro a b ha hb hab
      rw [Function.onFun, List.disjoint_left]
      intro q h1 h2
      simp only [row, List.map_map, List.mem_map, Function.comp] at h1 h2
      obtain ⟨kv, -, rfl⟩ := h1
      obtain ⟨kv', -, h3⟩ := h2
      simp only [Prod.mk.injEq] at h3
      have := h.ix_inj (hp.mem_iff.1 (List.getElem_mem hb)) (hp.mem_iff.1 (List.getElem_mem ha)) h3.1
      exact absurd ((hn.getElem_inj_iff).1 this) (by omega)
  · intro q hq
    obtain ⟨e, he, hq⟩ := List.mem_flatMap.1 hq
    have he' := h.order_perm.mem_iff.1 he
    obtain ⟨kv, hkv, rfl⟩ := List.mem_map.1 hq
    exact ⟨h.ix_lt he', (hD e he').2.2.2.1 _ (List.mem_map.2 ⟨kv, hkv, rfl⟩)⟩
  · intro i hi
    have he := List.getElem_mem hi
    have h1 := (hD _ he).2.2.2.2
    rw [h.ix_get (List.getElem?_eq_getElem hi)] at h1
    obtain ⟨kv, h2, h3⟩ := List.mem_map.1 h1
    rw [List.mem_map]
    refine ⟨(i, kv.1, kv.2), ?_, by simp [h3]⟩
    rw [List.mem_flatMap]
    refine ⟨_, h.order_perm.mem_iff.2 he, ?_⟩
    simp only [row, List.mem_map]
    exact ⟨kv, h2, by rw [h.ix_get (List.getElem?_eq_getElem hi)]⟩
  · intro i ei hi j
    rw [List.flatMap_def, cooEntry_flatten, List.map_map, ((h.order_perm.map _).sum_eq)]
    have hei := List.mem_of_getElem? hi
    rw [sum_single h.allNodup hei]
    · simp only [Function.comp, row]
      rw [cooEntry_row (hD ei hei).2.1, h.ix_get hi, if_pos rfl, (hD ei hei).2.2.1, h.ix_get hi]
    · intro e he hne
      simp only [Function.comp, row]
      rw [cooEntry_row (hD e he).2.1, if_neg]
      intro hix
      exact hne (h.ix_inj he hei (by rw [hix, h.ix_get hi]))

end

end GGCE
