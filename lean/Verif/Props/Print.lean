import Verif.Proofs.Print
import Verif.Props.Solver

/-!
Property C121: the printout of a `System` shows the equations that are solved.
-/

set_option linter.unusedSectionVars false

namespace GGCE.Props
open Spec Dict

variable {R K : Type} [Field R] [LinearOrder R] [Field K]

theorem rows_perm (F : Phys R K) (m : Model R) (full : Bool) (coef : Option (Point R)) (d : Dict Nat (List (Equation R))) :
    ((rows ((sortedDown d).flatMap (block F m full coef))).map Prod.snd).Perm ((allEqs d).map (rowOf F m full coef)) := by
  rw [rows, rowsFrom_blocks, allEqs, List.map_flatMap, List.map_flatMap]
  refine (List.Perm.flatMap_right _ (List.mergeSort_perm _ _)).trans ?_
  refine List.Perm.of_eq ?_
  simp [List.map_map, Function.comp_def]

theorem mem_rows {F : Phys R K} {m : Model R} {fl : Bool} {coef : Option (Point R)} {d : Dict Nat (List (Equation R))}
    {n : Nat} {r : Row K} : (n, r) ∈ rows ((sortedDown d).flatMap (block F m fl coef)) ↔
      ∃ kv ∈ d, kv.1 = n ∧ ∃ e ∈ kv.2, r = rowOf F m fl coef e := by
  rw [rows, rowsFrom_blocks]
  simp only [List.mem_flatMap, List.mem_map, mem_sortedDown, Prod.mk.injEq]
  constructor
  · rintro ⟨kv, h1, e, h2, h3, h4⟩; exact ⟨kv, h1, h3, e, h2, h4.symm⟩
  · rintro ⟨kv, h1, h3, e, h2, h4⟩; exact ⟨kv, h1, e, h2, h3, h4.symm⟩

theorem printed (σ : SetOrder) (m : Model R) (ae : Int) (hm : WellFormed m ae) (b : Built R)
    (hb : buildSystem σ m = .ok b) (np : Term R → Bool) (F : Phys R K) (fl : Bool) (coef : Option (Point R))
    (h : coef = none ∨ ∀ e ∈ allEqs b.eqs, ∀ t ∈ e.terms, t.bare np m = false) :
    b.lines np F m false fl coef = .ok ((sortedDown b.eqs).flatMap (block F m fl coef)) := by
  have hr := ready_of_built hm hb
  refine lines_ok ?_
  intro kv hkv e he t ht
  have hmem : e ∈ allEqs b.eqs := List.mem_flatMap.2 ⟨kv, hkv, he⟩
  rcases h with h | h
  · exact Or.inl h
  · exact Or.inr ⟨h e hmem t ht, hr.coef e hmem t ht⟩

theorem not_bare {np : Term R → Bool} {m : Model R} (h : m.ham.hopping ≠ 0 ∨ ∀ t, np t = true) (t : Term R) :
    t.bare np m = false := by
  unfold Term.bare
  split
  · rcases h with h | h
    · simp [h]
    · simp [h]
  · rfl

/-- C121, without coefficients: `visualize()` and `visualize(full=True)` succeed; the headings are all numbers of phonons
from the largest down to zero; the equations that can be read off are those of the system, each once, each under the
heading of its number of phonons, each with its own terms in order. -/
theorem C121_printed (σ : SetOrder) (m : Model R) (ae : Int) (hm : WellFormed m ae) (b : Built R)
    (hb : buildSystem σ m = .ok b) (np : Term R → Bool) (F : Phys R K) (fl : Bool) :
    ∃ ls, b.lines np F m false fl none = .ok ls ∧ headings ls = (List.range (m.number.sum.toNat + 1)).reverse ∧
      ((rows ls).map (fun r => r.2.id)).Perm ((allEqs b.eqs).map (Equation.shownId fl)) ∧
      ∀ n r, (n, r) ∈ rows ls → ∃ e ∈ allEqs b.eqs, phonons e.config = n ∧ r.id = e.shownId fl ∧
        r.terms = e.terms.map (fun t => (t.shownId fl, none)) := by
  have hr := ready_of_built hm hb
  refine ⟨_, printed σ m ae hm b hb np F fl none (Or.inl rfl), ?_, ?_, ?_⟩
  · rw [headings_blocks]; exact keys_sortedDown hr.keys
  · have := (rows_perm F m fl none b.eqs).map Row.id
    rw [List.map_map, List.map_map] at this
    exact this
  · intro n r hr'
    obtain ⟨kv, h1, rfl, e, h2, rfl⟩ := mem_rows.1 hr'
    exact ⟨e, List.mem_flatMap.2 ⟨kv, h1, h2⟩, hr.size kv.1 kv.2 (get?_of_mem hr.keysNodup h1) e h2, rfl, rfl⟩

/-- C121, with coefficients: when the particle hops, or the couplings are numpy numbers, `visualize(coef=[k, w, eta])`
succeeds, and what it shows is the matrix of the sparse solver at that point: the equations carry distinct unknowns, one
for every row of the matrix; and the sum of the coefficients shown for the unknown `j` in the equation of the unknown `i`
is the entry of the matrix. Missing: without hopping the call can fail (`C121_zero_hopping_fails`). -/
theorem C121_matrix_partial (σ : SetOrder) (m : Model R) (ae : Int) (hm : WellFormed m ae) (b : Built R)
    (hb : buildSystem σ m = .ok b) (np : Term R → Bool) (F : Phys R K) (p : Point R)
    (h : m.ham.hopping ≠ 0 ∨ ∀ t, np t = true) :
    ∃ ls S, b.lines np F m false false (some p) = .ok ls ∧ scaffold F m p (fullBasis b.eqs) b.eqs = .ok S ∧
      headings ls = (List.range (m.number.sum.toNat + 1)).reverse ∧
      ((rows ls).map (fun r => r.2.id)).Nodup ∧
      (∀ i, i < cooRows S.triples ↔ ∃ n r, (n, r) ∈ rows ls ∧ (fullBasis b.eqs).get? r.id = some i) ∧
      ∀ n r, (n, r) ∈ rows ls → ∀ n' r', (n', r') ∈ rows ls → ∀ i j, (fullBasis b.eqs).get? r.id = some i →
        (fullBasis b.eqs).get? r'.id = some j → cooEntry S.triples i j = shownEntry r r'.id := by
  have hr := ready_of_built hm hb
  obtain ⟨c, S, hc, hS, -, hrows, -, hent, -⟩ := C19_sparse_matrix σ m ae hm b hb F p
  refine ⟨_, S, printed σ m ae hm b hb np F false (some p) (Or.inr (fun e _ t _ => not_bare h t)), hS, ?_, ?_, ?_, ?_⟩
  · rw [headings_blocks]; exact keys_sortedDown hr.keys
  · have := (rows_perm F m false (some p) b.eqs).map Row.id
    rw [List.map_map, List.map_map] at this
    exact this.nodup_iff.2 hr.nodup
  · intro i
    rw [hrows]
    constructor
    · intro hi
      obtain ⟨kv, h1, h2⟩ := List.mem_flatMap.1 (List.getElem_mem hi : (allEqs b.eqs)[i] ∈ allEqs b.eqs)
      refine ⟨kv.1, _, mem_rows.2 ⟨kv, h1, rfl, _, h2, rfl⟩, ?_⟩
      show (fullBasis b.eqs).get? (allEqs b.eqs)[i].id = some i
      rw [hr.basis (List.getElem_mem hi), hr.ix_get (List.getElem?_eq_getElem hi)]
    · rintro ⟨n, r, h1, h2⟩
      obtain ⟨kv, h3, rfl, e, h4, rfl⟩ := mem_rows.1 h1
      have he : e ∈ allEqs b.eqs := List.mem_flatMap.2 ⟨kv, h3, h4⟩
      have h2 : (fullBasis b.eqs).get? e.id = some i := h2
      rw [hr.basis he] at h2
      cases h2
      exact hr.ix_lt he
  · intro n r h1 n' r' h1' i j hi hj
    obtain ⟨kv, h3, rfl, e, h4, rfl⟩ := mem_rows.1 h1
    obtain ⟨kv', h3', rfl, e', h4', rfl⟩ := mem_rows.1 h1'
    have he : e ∈ allEqs b.eqs := List.mem_flatMap.2 ⟨kv, h3, h4⟩
    have he' : e' ∈ allEqs b.eqs := List.mem_flatMap.2 ⟨kv', h3', h4'⟩
    have hi : (fullBasis b.eqs).get? e.id = some i := hi
    have hj : (fullBasis b.eqs).get? e'.id = some j := hj
    rw [hr.basis he] at hi
    rw [hr.basis he'] at hj
    cases hi; cases hj
    rw [hent _ _ e e' (hr.get_ix he) (hr.get_ix he'), add_comm]
    unfold shownEntry coefOf
    congr 1
    · show _ = if e.id = e'.id then (1 : K) else 0
      by_cases hee : e.id = e'.id
      · rw [if_pos hee, if_pos (by rw [hee])]
      · rw [if_neg hee, if_neg (fun h => hee (by rw [hr.ix_inj he he' h]))]
    · show _ = (List.map (fun t : PyStr × Option K => if t.1 = e'.id then t.2.getD 0 else 0)
        (e.terms.map (fun t => (t.id, some (coefV F m p t))))).sum
      rw [List.map_map]
      congr 1
      refine List.map_congr_left (fun t ht => ?_)
      have := hc e he t ht
      rw [coefficient_ok (hr.coef e he t ht)] at this
      rw [← (Except.ok.inj this)]
      rfl

/-- C121: `full=True` prints the same lines with longer identifiers. -/
theorem C121_full (σ : SetOrder) (m : Model R) (ae : Int) (hm : WellFormed m ae) (b : Built R)
    (hb : buildSystem σ m = .ok b) (np : Term R → Bool) (F : Phys R K) (coef : Option (Point R)) {ls ls' : List (Line K)}
    (h : b.lines np F m false false coef = .ok ls) (h' : b.lines np F m false true coef = .ok ls') :
    List.Forall₂ Longer ls ls' := by
  have hr := ready_of_built hm hb
  have key : coef = none ∨ ∀ e ∈ allEqs b.eqs, ∀ t ∈ e.terms, t.bare np m = false := by
    cases coef with
    | none => exact Or.inl rfl
    | some p =>
      refine Or.inr ?_
      by_contra hcon
      push Not at hcon
      obtain ⟨e, he, t, ht, hbare⟩ := hcon
      have := lines_fail (F := F) (p := p) (gen := false) (full := false) hr.coef he ht (by simpa using hbare)
      rw [this] at h; cases h
  rw [printed σ m ae hm b hb np F _ coef key] at h h'
  cases h; cases h'
  exact longer_blocks F m coef _

/-- C121: `visualize(generalized=True)` shows one equation for every cloud: under the heading `n > 0` exactly the clouds
with `n` phonons, each once, under the heading 0 the Green's function. -/
theorem C121_generalized (σ : SetOrder) (m : Model R) (ae : Int) (hm : WellFormed m ae) (b : Built R)
    (hb : buildSystem σ m = .ok b) (np : Term R → Bool) (F : Phys R K) :
    ∃ ls, b.lines np F m true false none = .ok ls ∧ headings ls = (List.range (m.number.sum.toNat + 1)).reverse ∧
      ((rows ls).map (fun r => r.2.id)).Nodup ∧
      (∀ n s, (∃ r, (n + 1, r) ∈ rows ls ∧ r.id = s) ↔ ∃ a, InSpace m ae (n + 1) a ∧ termId a none = s) ∧
      ∀ s, (∃ r, (0, r) ∈ rows ls ∧ r.id = s) ↔ s = "{G}(!)".toList := by
  obtain ⟨b', L, h1, hL, hd⟩ := buildSystem_ok σ hm
  rw [hb] at h1; cases h1
  have hid : ∀ a, Node m ae a → (L.eqn a).id = termId a none := by
    intro a ha
    have : (L.eqn a).fArg = none := by
      rcases ha with rfl | ha
      · rw [hL.eqn_vac]; rfl
      · obtain ⟨ts, h, -⟩ := hL.eqn a ha; rw [h]
    rw [Equation.id, this, hL.eqn_config ha]
  have hkeys : b.gens.map Prod.fst = (List.range m.number.sum.toNat).map (· + 1) ++ [0] := by
    rw [hd.gens]; simp [Function.comp_def]
  have hall : allEqs b.gens = (L.nodes m).map L.eqn := by
    rw [hd.gens, allEqs, Layout.nodes]
    simp only [List.flatMap_append, List.flatMap_cons, List.flatMap_nil, List.append_nil, List.flatMap_map,
      List.map_append, List.map_cons, List.map_nil, hL.eqn_vac, List.map_flatMap]
  refine ⟨_, lines_ok (gen := true) (fun _ _ _ _ _ _ => Or.inl rfl), ?_, ?_, ?_, ?_⟩
  · rw [headings_blocks]; exact keys_sortedDown hkeys
  · have := (rows_perm F m false none b.gens).map Row.id
    rw [List.map_map, List.map_map] at this
    refine this.nodup_iff.2 ?_
    rw [hall, List.map_map]
    refine hL.nodes_nodup.map_on ?_
    intro a ha a' ha' heq
    have ha := (Layout.mem_nodes hm.toListsOk hL a).1 ha
    have ha' := (Layout.mem_nodes hm.toListsOk hL a').1 ha'
    have heq : (L.eqn a).id = (L.eqn a').id := heq
    rw [hid a ha, hid a' ha', termId, termId] at heq
    exact ha.eq_of_id ha' (List.append_cancel_right heq)
  · intro n s
    constructor
    · rintro ⟨r, hr, rfl⟩
      obtain ⟨kv, h1, h2, e, h3, rfl⟩ := mem_rows.1 hr
      rw [if_pos rfl, hd.gens] at h1
      rcases List.mem_append.1 h1 with h1 | h1
      · obtain ⟨i, -, rfl⟩ := List.mem_map.1 h1
        cases h2
        obtain ⟨a, ha, rfl⟩ := List.mem_map.1 h3
        have ha := (hL.mem _ _).1 ha
        exact ⟨a, ha, (hid a (Or.inr ha.1)).symm⟩
      · rw [List.mem_singleton.1 h1] at h2; cases h2
    · rintro ⟨a, ha, rfl⟩
      have hb2 := phonons_bounds hm.toListsOk ha.1
      have hph : phonons a = (n + 1 : ℕ) := ha.2
      refine ⟨_, mem_rows.2 ⟨(n + 1, (L.clouds (n + 1)).map L.eqn), ?_, rfl, L.eqn a,
        List.mem_map.2 ⟨a, (hL.mem _ _).2 ha, rfl⟩, rfl⟩, hid a (Or.inr ha.1)⟩
      rw [if_pos rfl, hd.gens]
      exact List.mem_append_left _ (List.mem_map.2 ⟨n, List.mem_range.2 (by omega), rfl⟩)
  · have hg : (greenEq m).id = "{G}(!)".toList := by
      show configId (vac m) ++ fArgId none = _
      rw [show configId (vac m) = ['{', 'G', '}'] by unfold configId; rw [if_pos (vac_total m)]; rfl]
      rfl
    intro s
    constructor
    · rintro ⟨r, hr, rfl⟩
      obtain ⟨kv, h1, h2, e, h3, rfl⟩ := mem_rows.1 hr
      rw [if_pos rfl, hd.gens] at h1
      rcases List.mem_append.1 h1 with h1 | h1
      · obtain ⟨i, -, rfl⟩ := List.mem_map.1 h1
        cases h2
      · rw [List.mem_singleton.1 h1] at h3
        rw [List.mem_singleton.1 h3]
        exact hg
    · rintro rfl
      refine ⟨_, mem_rows.2 ⟨(0, [greenEq m]), ?_, rfl, greenEq m, List.mem_singleton.2 rfl, rfl⟩, hg⟩
      rw [if_pos rfl, hd.gens]
      exact List.mem_append_right _ (List.mem_singleton.2 rfl)

/-- C121: without hopping the coefficients cannot always be shown. If some term creates a phonon away from the particle and
its coupling is a Python number, `visualize(coef=...)` raises `AttributeError` at every point. -/
theorem C121_zero_hopping_fails (σ : SetOrder) (m : Model R) (ae : Int) (hm : WellFormed m ae) (b : Built R)
    (hb : buildSystem σ m = .ok b) (np : Term R → Bool) (F : Phys R K) (p : Point R) (fl : Bool) (h0 : m.ham.hopping = 0)
    {e : Equation R} (he : e ∈ allEqs b.eqs) {t : Term R} (ht : t ∈ e.terms) (hk : t.kind = .cre) (hnp : np t = false)
    {g : Num} (hg : t.gArg = some g) (hg0 : g.tw ≠ 0) : b.lines np F m false fl (some p) = .error .attributeError := by
  refine lines_fail (gen := false) (ready_of_built hm hb).coef he ht ?_
  simp [Term.bare, hk, hg, h0, hnp, hg0]

/-- `exModel` without hopping -/
def exStill : Model ℚ := { exModel with ham := { exModel.ham with hopping := 0 } }

theorem exStill_wellFormed : WellFormed exStill 2 :=
  { exModel_wellFormed with
    absExtent := by decide
    plus := exModel_wellFormed.plus
    minus := exModel_wellFormed.minus }

/-- its equations -/
def exStillBuilt : Built ℚ :=
  match buildSystem ⟨id, fun l => .refl l⟩ exStill with
  | .ok b => b
  | .error _ => ⟨[], [], []⟩

/-- Holstein coupling, two sites, two phonons, no hopping: the coefficients cannot be printed. -/
example (p : Point ℚ) : exStillBuilt.lines (fun _ => false) exPhys exStill false false (some p) = .error .attributeError := by
  have hb : buildSystem ⟨id, fun l => .refl l⟩ exStill = .ok exStillBuilt := by decide +kernel
  have h : ∃ e ∈ allEqs exStillBuilt.eqs, ∃ t ∈ e.terms, t.kind = .cre ∧ t.gArg = some ⟨false, 2⟩ := by decide +kernel
  obtain ⟨e, he, t, ht, hk, hg⟩ := h
  exact C121_zero_hopping_fails _ exStill 2 exStill_wellFormed exStillBuilt hb _ exPhys p false rfl he ht hk rfl hg (by decide)

/-- With hopping the printout exists and has headings 2, 1, 0. -/
example : WellFormed exModel 2 ∧ exModel.ham.hopping ≠ 0 ∧ (List.range (exModel.number.sum.toNat + 1)).reverse = [2, 1, 0] :=
  ⟨exModel_wellFormed, by decide, by decide⟩

end GGCE.Props
