import Verif.Props.System
import Verif.Props.Model
import Verif.Proofs.Reports

/-!
C74: the numbers a system reports while it is built. C75: what `Model.visualize` shows.
-/

set_option linter.unusedSectionVars false

namespace GGCE.Props
open Spec Arr

variable {R : Type} [Field R] [LinearOrder R]

/-! ### C74 -/

theorem gens_total {m : Model R} {ae : Int} {L : Layout R} {b : Built R} (hd : L.Describes m b) :
    (b.gens.map (fun kv => kv.2.length)).sum =
      1 + ((List.range m.number.sum.toNat).map (fun i => (L.clouds (i + 1)).length)).sum := by
  rw [hd.gens]
  simp only [List.map_append, List.map_map, List.sum_append, List.map_cons, List.map_nil, List.sum_cons,
    List.sum_nil, List.length_singleton]
  rw [Nat.add_comm]
  congr 2
  apply List.map_congr_left
  intro i _
  simp

/-- C74: whichever message about the generalized equations is logged, the number of generated equations
it reports is one more than the number of clouds of the truncated space. -/
theorem C74_reported (σ : SetOrder) (m : Model R) (ae : Int) (hm : WellFormed m ae) (b : Built R)
    (hb : buildSystem σ m = .ok b) (cs : List Arr) (hn : cs.Nodup)
    (hcs : ∀ a, a ∈ cs ↔ InTruncation m ae a) :
    predictTotal m b.gens = .ok (.agrees (cs.length + 1)) ∨
      predictTotal m b.gens = .ok (.count (cs.length + 1)) ∨
      ∃ T, predictTotal m b.gens = .ok (.disagrees T (cs.length + 1)) := by
  obtain ⟨b', L, h1, hL, hd⟩ := buildSystem_ok σ hm
  rw [hb] at h1; cases h1
  have hlen : ((List.range m.number.sum.toNat).map (fun i => (L.clouds (i + 1)).length)).sum =
      cs.length := by
    have hnd : ((List.range m.number.sum.toNat).flatMap (fun i => L.clouds (i + 1))).Nodup := by
      rw [List.nodup_flatMap]
      refine ⟨fun i _ => hL.nodup _, List.nodup_range.imp ?_⟩
      intro i j hij a h1 h2
      have e1 := ((hL.mem _ _).1 h1).2
      have e2 := ((hL.mem _ _).1 h2).2
      omega
    rw [← List.length_flatMap]
    apply length_eq_of_mem hnd hn
    intro a
    rw [hcs, List.mem_flatMap]
    constructor
    · rintro ⟨i, -, hi⟩; exact ((hL.mem _ _).1 hi).1
    · intro ha
      obtain ⟨h1, h2⟩ := phonons_bounds hm.toListsOk ha
      exact ⟨(phonons a).toNat - 1, List.mem_range.2 (by omega), (hL.mem _ _).2 ⟨ha, by omega⟩⟩
  have hg := gens_total (ae := ae) hd
  rw [hlen, Nat.add_comm] at hg
  unfold predictTotal
  simp only [hg]
  by_cases h : m.nTypes = 1 ∧ m.maxPerSite = none
  · rw [if_pos h]
    have ht := h.1
    obtain ⟨M, hM⟩ := List.length_eq_one_iff.1 (hm.ext.trans ht)
    obtain ⟨N, hN⟩ := List.length_eq_one_iff.1 (hm.num.trans ht)
    have hT : totalGeneralized m.extent m.number m.nTypes = .ok (geSum M N) := by
      simp only [totalGeneralized, ht, hM, hN]
      show Except.ok [geSum M N].prod = _
      simp
    rw [hT]
    simp only [bind, Except.bind, pure, Except.pure]
    by_cases he : cs.length + 1 = 1 + geSum M N
    · rw [if_pos he]; exact Or.inl rfl
    · rw [if_neg he]; exact Or.inr (Or.inr ⟨_, rfl⟩)
  · rw [if_neg h]; exact Or.inr (Or.inl rfl)

/-- C74: for one phonon type without a site limit, the comparison with the analytic formula succeeds
exactly when the absolute extent does not cut the clouds or there is at most one phonon; otherwise an
error is logged, although the system is built and complete. The full claim "an error is logged only if
the system is wrong" fails (`C74_false_alarm`). -/
theorem C74_prediction_partial (σ : SetOrder) (m : Model R) (ae : Int) (hm : WellFormed m ae)
    (ht : m.nTypes = 1) (hc : m.maxPerSite = none) (M N : Int) (hM : m.extent = [M])
    (hN : m.number = [N]) (b : Built R) (hb : buildSystem σ m = .ok b) :
    ((∃ L, predictTotal m b.gens = .ok (.agrees L)) ↔ M ≤ ae ∨ N = 1) ∧
    ((∃ T L, predictTotal m b.gens = .ok (.disagrees T L)) ↔ ae < M ∧ 2 ≤ N) := by
  obtain ⟨b', L, h1, hL, hd⟩ := buildSystem_ok σ hm
  rw [hb] at h1; cases h1
  have hg := gens_total (ae := ae) hd
  rw [hL.count_one ht hM hN hc] at hg
  have hT : totalGeneralized m.extent m.number m.nTypes = .ok (geSum M N) := by
    simp only [totalGeneralized, ht, hM, hN]
    show Except.ok [geSum M N].prod = _
    simp
  have hMp : 1 ≤ M := hm.extPos M (by rw [hM]; simp)
  have hNp : 1 ≤ N := hm.numPos N (by rw [hN]; simp)
  have hae := hm.aePos
  have key := geSum_eq_iff (K := min ae M) (M := M) (N := N) (by omega) (by omega) hNp
  have hp : predictTotal m b.gens = .ok (if geSum (min ae M) N = geSum M N then
      .agrees (1 + geSum (min ae M) N) else .disagrees (1 + geSum M N) (1 + geSum (min ae M) N)) := by
    unfold predictTotal
    simp only [hg, hT]
    rw [if_pos ⟨ht, hc⟩]
    simp only [bind, Except.bind, pure, Except.pure, Nat.add_left_cancel_iff]
  rw [hp]
  by_cases h : geSum (min ae M) N = geSum M N
  · have := key.1 h
    rw [if_pos h]
    constructor
    · exact ⟨fun _ => by omega, fun _ => ⟨_, rfl⟩⟩
    · constructor
      · rintro ⟨_, _, h⟩; cases h
      · intro; omega
  · have h' := mt key.2 h
    rw [if_neg h]
    constructor
    · constructor
      · rintro ⟨_, h⟩; cases h
      · intro; omega
    · exact ⟨fun _ => by omega, fun _ => ⟨_, _, rfl⟩⟩

example : WellFormed exModel 2 ∧ exModel.nTypes = 1 ∧ exModel.maxPerSite = none ∧
    exModel.extent = [2] ∧ exModel.number = [2] := ⟨exModel_wellFormed, rfl, rfl, rfl, rfl⟩

/-- the Holstein model with `M = N = 2` restricted to clouds on one site -/
def exCut : Model ℚ := { exModel with absExtentOpt := some 1 }

theorem exCut_wellFormed : WellFormed exCut 1 :=
  { ext := rfl, num := rfl, absExtent := by decide, freqs := by decide, index := by decide, dim := rfl
    types := by decide, aePos := by decide, extPos := by decide, numPos := by decide
    capPos := by simp [exCut, exModel], plus := exModel_wellFormed.plus
    minus := exModel_wellFormed.minus, dtype := exModel_wellFormed.dtype }

/-- C74 fails as a test of correctness: a system that is built and closed is reported as wrong. -/
theorem C74_false_alarm (σ : SetOrder) : ∃ b, buildSystem σ exCut = .ok b ∧
    (∀ id, (∃ e ∈ allEqs b.eqs, e.id = id) ↔ ∃ e ∈ allEqs b.eqs, ∃ t ∈ e.terms, t.id = id) ∧
    ∃ T L, predictTotal exCut b.gens = .ok (.disagrees T L) := by
  obtain ⟨b, hb, hc⟩ := C16_closure σ exCut 1 exCut_wellFormed
  exact ⟨b, hb, hc, (C74_prediction_partial σ exCut 1 exCut_wellFormed rfl rfl 2 2 rfl rfl b hb).2.2
    (by decide)⟩

/-- C74: the comparison of the number of final equations with the number of required arguments always
agrees, and both are the number of equations and of unknowns of the system. -/
theorem C74_total (σ : SetOrder) (m : Model R) (ae : Int) (hm : WellFormed m ae) (b : Built R)
    (hb : buildSystem σ m = .ok b) :
    totalNote b.fargs b.eqs = .agrees (allEqs b.eqs).length := by
  have h := (C17_basis σ m ae hm b hb).2.1
  have hl : (b.eqs.map (fun kv => kv.2.length)).sum = (allEqs b.eqs).length := by
    simp [allEqs, List.length_flatMap]
  unfold totalNote getTotal
  simp only [hl, ← h, if_true]

/-! ### C75 -/

/-- C75: after any `add_` calls with available coupling types and no index override, `visualize` shows
one row per phonon type, in the order of the types, with the limits given for that type and exactly the
terms acting on it, in the order in which they were added. -/
theorem C75_display_partial (P : Prims R) (hP : Names P) (hopping lattice T : R) (cap : Option Int)
    (dim : Nat) (as : List (AddArgs R)) (hk : ∀ a ∈ as, Known a.ctype)
    (ho : ∀ a ∈ as, a.override = none) (m : Model R)
    (h : (Model.fromParameters hopping lattice T cap dim).adds P as = .ok m) :
    (modes T as = [] → m.shown = .ok none) ∧
    (modes T as ≠ [] → ∃ rows, m.shown = .ok (some rows) ∧ rows.length = (modes T as).length ∧
      ∀ i r, rows[i]? = some r → r.index = i ∧
        (∃ d, (modes T as)[i]? = some d ∧ r.M = d.M ∧ r.N = d.N) ∧
        r.terms = m.ham.terms.filter (fun t => t.phononIndex = i)) := by
  have ht : Tidy m := tidy_adds hP as hk ho ⟨by simp [Model.fromParameters, Hamiltonian.dictRep, Hamiltonian.new],
    by simp [Model.fromParameters], by simp [Model.fromParameters]⟩ h
  obtain ⟨k1, k2, k3, -⟩ := C38_bookkeeping P hopping lattice T cap dim as m h
  rw [tidy_shown ht, k3]
  constructor
  · intro h0; simp [h0]
  · intro h0
    rw [if_neg (by simpa using h0)]
    refine ⟨_, rfl, by simp, ?_⟩
    intro i r hr
    rw [List.getElem?_map, Option.map_eq_some_iff] at hr
    obtain ⟨j, hj, rfl⟩ := hr
    obtain ⟨hi, rfl⟩ := List.getElem?_eq_some_iff.1 hj
    simp only [List.length_range] at hi
    rw [List.getElem_range]
    refine ⟨rfl, ⟨(modes T as)[i], List.getElem?_eq_getElem hi, ?_, ?_⟩, rfl⟩
    · show m.extent.getD i 0 = _
      rw [k1, List.getD_eq_getElem?_getD, List.getElem?_map, List.getElem?_eq_getElem hi]; rfl
    · show m.number.getD i 0 = _
      rw [k2, List.getD_eq_getElem?_getD, List.getElem?_map, List.getElem?_eq_getElem hi]; rfl

example : Names exPrims ∧ (∀ a ∈ [exHolstein, exPeierls], Known a.ctype) ∧
    (∀ a ∈ [exHolstein, exPeierls], a.override = none) ∧
    ∃ m, (Model.fromParameters (1 : ℚ) 1 1 none 1).adds exPrims [exHolstein, exPeierls] = .ok m ∧
      ∃ rows, m.shown = .ok (some rows) ∧ rows.map (fun r => (r.index, r.M, r.N, r.terms.length)) =
        [(0, 2, 3, 2), (1, 1, 1, 2), (2, 3, 2, 8), (3, 1, 2, 8)] := by
  refine ⟨exPrims_names, by simp [exHolstein, exPeierls, Known], by simp [exHolstein, exPeierls], ?_⟩
  have h : (match (Model.fromParameters (1 : ℚ) 1 1 none 1).adds exPrims [exHolstein, exPeierls] with
    | .ok m => (match m.shown with
      | .ok (some rows) => rows.map (fun r => (r.index, r.M, r.N, r.terms.length))
      | _ => [])
    | _ => []) = [(0, 2, 3, 2), (1, 1, 1, 2), (2, 3, 2, 8), (3, 1, 2, 8)] := by decide +kernel
  split at h
  · rename_i m hm
    split at h
    · rename_i rows hr
      exact ⟨m, hm, rows, hr, h⟩
    · cases h
  · cases h

/-- the limits shown beside a phonon type that are not the limits the equations use for that type -/
def misshown (m : Model ℚ) : List (Nat × Int × Option Int) :=
  match m.shown with
  | .ok (some rows) => (rows.filter (fun r => m.extent[r.index]? ≠ some r.M)).map
      (fun r => (r.index, r.M, m.extent[r.index]?))
  | _ => []

/-- C75 fails with index overrides given in another order: the limits shown for phonon type 1 are those
the equations use for type 0. -/
theorem C75_override : ∃ m, (Model.fromParameters (1 : ℚ) 1 0 none 1).adds exPrims
      [{ exHolstein with override := some 1 }, { exPeierls with override := some 0 }] = .ok m ∧
    misshown m = [(1, 2, some 3), (0, 3, some 2)] := by
  have h : (match (Model.fromParameters (1 : ℚ) 1 0 none 1).adds exPrims
      [{ exHolstein with override := some 1 }, { exPeierls with override := some 0 }] with
    | .ok m => misshown m
    | _ => []) = [(1, 2, some 3), (0, 3, some 2)] := by decide +kernel
  split at h
  · rename_i m hm
    exact ⟨m, hm, h⟩
  · cases h

/-- C75 fails after a call with an unavailable coupling type, whose limits are recorded although no term
is added: the next coupling is shown with them. -/
theorem C75_unknown : ∃ m, (Model.fromParameters (1 : ℚ) 1 0 none 1).adds exPrims
      [{ exHolstein with ctype := "Frohlich" }, exPeierls] = .ok m ∧
    misshown m = [(1, 2, some 3)] := by
  have h : (match (Model.fromParameters (1 : ℚ) 1 0 none 1).adds exPrims
      [{ exHolstein with ctype := "Frohlich" }, exPeierls] with
    | .ok m => misshown m
    | _ => []) = [(1, 2, some 3)] := by decide +kernel
  split at h
  · rename_i m hm
    exact ⟨m, hm, h⟩
  · cases h

end GGCE.Props
