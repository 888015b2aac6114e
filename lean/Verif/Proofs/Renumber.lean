import Verif.Spec.Numbering
import Verif.Proofs.SparseLin
import Verif.Proofs.Failures

/-! The sparse matrix with the unknowns numbered in another order. -/

set_option linter.unusedSectionVars false

namespace GGCE
open Spec Arr Dict

variable {R K : Type} [Field R] [LinearOrder R] [Field K]

/-- the numbers in a coordinate list replaced -/
def ren (π : Nat → Nat) (q : Nat × Nat × K) : Nat × Nat × K := (π q.1, π q.2.1, q.2.2)

/-- the keys of a row replaced -/
def renRow (π : Nat → Nat) (d : Dict Nat K) : Dict Nat K := d.map (fun kv => (π kv.1, kv.2))

theorem get?_renRow {π : Nat → Nat} (hπ : Function.Injective π) (d : Dict Nat K) (j : Nat) :
    (renRow π d).get? (π j) = d.get? j := by
  induction d with
  | nil => rfl
  | cons a d ih =>
    obtain ⟨k, v⟩ := a
    show Dict.get? ((π k, v) :: renRow π d) (π j) = _
    simp only [Dict.get?, hπ.eq_iff, ih]

theorem set_renRow {π : Nat → Nat} (hπ : Function.Injective π) (d : Dict Nat K) (j : Nat) (v : K) :
    (renRow π d).set (π j) v = renRow π (d.set j v) := by
  induction d with
  | nil => rfl
  | cons a d ih =>
    obtain ⟨k, w⟩ := a
    show Dict.set ((π k, w) :: renRow π d) (π j) v = _
    simp only [Dict.set, hπ.eq_iff, ih]
    split <;> rfl

theorem addTo_renRow {π : Nat → Nat} (hπ : Function.Injective π) (d : Dict Nat K) (j : Nat) (v : K) :
    addTo (renRow π d) (π j) v = renRow π (addTo d j v) := by
  unfold addTo
  rw [get?_renRow hπ]
  cases d.get? j <;> exact set_renRow hπ _ _ _

theorem rowLoop_ren {π : Nat → Nat} (hπ : Function.Injective π) {b b' : Dict PyStr Nat}
    (hb : ∀ id, b'.get? id = (b.get? id).map π) (l : List (PyStr × Py K)) (d : Dict Nat K) :
    rowLoop b' l (renRow π d) = (rowLoop b l d).map (renRow π) := by
  induction l generalizing d with
  | nil => rfl
  | cons q l ih =>
    obtain ⟨id, c⟩ := q
    simp only [rowLoop, hb]
    cases b.get? id with
    | none => rfl
    | some j =>
      simp only [Option.map_some]
      cases c with
      | error e => rfl
      | ok v =>
        simp only [bind, Except.bind]
        rw [addTo_renRow hπ, ih]

theorem sparseRow_ren {π : Nat → Nat} (hπ : Function.Injective π) {b b' : Dict PyStr Nat}
    (hb : ∀ id, b'.get? id = (b.get? id).map π) (F : Phys R K) (m : Model R) (p : Point R) (e : Equation R) :
    sparseRow F m p b' e = (sparseRow F m p b e).map (List.map (ren π)) := by
  unfold sparseRow
  rw [hb]
  cases b.get? e.id with
  | none => rfl
  | some i =>
    simp only [Option.map_some]
    have := rowLoop_ren hπ hb (rowTerms F m p e) []
    simp only [renRow, List.map_nil] at this
    rw [this]
    cases rowLoop b (rowTerms F m p e) [] with
    | error _ => rfl
    | ok d => simp [Except.map, bind, Except.bind, pure, Except.pure, ren, renRow, Function.comp_def, List.map_map]

theorem collectM_mapped {α β γ : Type} {f : α → Py (Option β)} {g : α → Py (Option γ)} {r : β → γ}
    (h : ∀ x, g x = (f x).map (Option.map r)) : ∀ l, collectM g l = (collectM f l).map (List.map r)
  | [] => rfl
  | x :: l => by
    simp only [collectM, h, collectM_mapped h l]
    cases f x with
    | error _ => rfl
    | ok y =>
      cases collectM f l with
      | error _ => cases y <;> rfl
      | ok ys => cases y <;> rfl

theorem sparseTriples_ren {π : Nat → Nat} (hπ : Function.Injective π) {b b' : Dict PyStr Nat}
    (hb : ∀ id, b'.get? id = (b.get? id).map π) (F : Phys R K) (m : Model R) (p : Point R)
    (eqs : Dict Nat (List (Equation R))) :
    sparseTriples F m p b' eqs = (sparseTriples F m p b eqs).map (List.map (ren π)) := by
  unfold sparseTriples
  rw [collectM_mapped (r := List.map (ren π)) (f := fun n => match eqs.get? n with
    | none => .error .keyError
    | some es => (fun rows => some (List.flatten rows)) <$>
        collectM (fun e => some <$> sparseRow F m p b e) es)]
  · cases collectM _ (List.range (m.number.sum.toNat + 1)) with
    | error _ => rfl
    | ok l => simp [Except.map, Functor.map, List.map_flatten]
  · intro n
    cases eqs.get? n with
    | none => rfl
    | some es =>
      simp only
      rw [collectM_mapped (r := List.map (ren π)) (f := fun e => some <$> sparseRow F m p b e)]
      · cases collectM _ es with
        | error _ => rfl
        | ok l => simp [Except.map, Functor.map, List.map_flatten]
      · intro e
        rw [sparseRow_ren hπ hb]
        cases sparseRow F m p b e <;> rfl

theorem cooEntry_ren {π : Nat → Nat} (hπ : Function.Injective π) (T : List (Nat × Nat × K)) (i j : Nat) :
    cooEntry (T.map (ren π)) (π i) (π j) = cooEntry T i j := by
  rw [cooEntry_eq_sum, cooEntry_eq_sum, List.map_map]
  congr 1
  apply List.map_congr_left
  intro q _
  simp only [Function.comp, ren, hπ.eq_iff]

/-- a numbering as a permutation of the numbers -/
theorem Spec.Numbering.ofList {ids : List PyStr} (hnd : ids.Nodup) {b' : Dict PyStr Nat}
    (hn : Numbering ids.zipIdx b') :
    ∃ π : Nat → Nat, Function.Injective π ∧ (∀ i < ids.length, π i < ids.length) ∧
      (∀ id, b'.get? id = (Dict.get? ids.zipIdx id).map π) ∧
      (Finset.range ids.length).image π = Finset.range ids.length := by
  have hlen : (ids.zipIdx : Dict PyStr Nat).length = ids.length := by simp
  have hget : ∀ (id : PyStr) (i : Nat), Dict.get? ids.zipIdx id = some i ↔ ids[i]? = some id := by
    intro id i
    rw [get?_zipIdx hnd]
  let π : Nat → Nat := fun i => match ids[i]? with
    | some id => (b'.get? id).getD i
    | none => i
  have hval : ∀ (id : PyStr) (i : Nat), ids[i]? = some id → b'.get? id = some (π i) := by
    intro id i hi
    obtain ⟨j, hj⟩ := (hn.keys id).2 ⟨i, (hget id i).2 hi⟩
    simp only [π, hi, hj, Option.getD_some]
  have hlt : ∀ i < ids.length, π i < ids.length := by
    intro i hi
    rw [← hlen]
    exact hn.small _ _ (hval _ _ (List.getElem?_eq_getElem hi))
  have hge : ∀ i, ¬ i < ids.length → π i = i := by
    intro i hi
    have h1 : ids[i]? = none := by simp; omega
    simp only [π, h1]
  have hinj : Function.Injective π := by
    intro i j hij
    by_cases hi : i < ids.length <;> by_cases hj : j < ids.length
    · have h1 := List.getElem?_eq_getElem hi
      have h2 := List.getElem?_eq_getElem hj
      have k1 := hval _ _ h1
      have k2 := hval _ _ h2
      rw [hij] at k1
      have k3 := hn.inj _ _ _ k1 k2
      rw [k3] at h1
      have := (hget _ _).2 h1
      rw [(hget _ _).2 h2] at this
      simpa using this.symm
    · have := hlt i hi; rw [hij, hge j hj] at this; exact absurd this hj
    · have := hlt j hj; rw [← hij, hge i hi] at this; exact absurd this hi
    · rw [hge i hi, hge j hj] at hij; exact hij
  refine ⟨π, hinj, hlt, ?_, ?_⟩
  · intro id
    cases hg : Dict.get? ids.zipIdx id with
    | some i => exact hval id i ((hget id i).1 hg)
    | none =>
      cases hb : b'.get? id with
      | none => rfl
      | some j =>
        obtain ⟨i, hi⟩ := (hn.keys id).1 ⟨j, hb⟩
        rw [hg] at hi; cases hi
  · refine Finset.eq_of_subset_of_card_le ?_ ?_
    · intro i hi
      obtain ⟨j, hj, rfl⟩ := Finset.mem_image.1 hi
      exact Finset.mem_range.2 (hlt j (Finset.mem_range.1 hj))
    · rw [Finset.card_image_of_injective _ hinj]

theorem Spec.Numbering.perm {m : Model R} {eqs : Dict Nat (List (Equation R))} (h : Ready m eqs) {b' : Dict PyStr Nat}
    (hn : Numbering (fullBasis eqs) b') :
    ∃ π : Nat → Nat, Function.Injective π ∧ (∀ i < (allEqs eqs).length, π i < (allEqs eqs).length) ∧
      (∀ id, b'.get? id = ((fullBasis eqs).get? id).map π) ∧
      (Finset.range (allEqs eqs).length).image π = Finset.range (allEqs eqs).length := by
  rw [fullBasis_eq h.nodup] at hn ⊢
  simpa using hn.ofList h.nodup

theorem sum_perm {n : Nat} {π : Nat → Nat} (hπ : Function.Injective π)
    (him : (Finset.range n).image π = Finset.range n) (f : Nat → K) :
    ∑ j ∈ Finset.range n, f j = ∑ j ∈ Finset.range n, f (π j) := by
  conv_lhs => rw [← him]
  exact Finset.sum_image (fun a _ b _ h => hπ h)

/-- The equations of the renumbered matrix, for any right-hand side. -/
theorem rows_ren {n : Nat} {π : Nat → Nat} (hπ : Function.Injective π)
    (him : (Finset.range n).image π = Finset.range n) (T : List (Nat × Nat × K)) (x v : Nat → K) :
    (∀ i < n, ∑ j ∈ Finset.range n, cooEntry (T.map (ren π)) i j * x j = v i) ↔
    ∀ i < n, ∑ j ∈ Finset.range n, cooEntry T i j * x (π j) = v (π i) := by
  have key : ∀ i, ∑ j ∈ Finset.range n, cooEntry (T.map (ren π)) (π i) j * x j =
      ∑ j ∈ Finset.range n, cooEntry T i j * x (π j) := by
    intro i
    rw [sum_perm hπ him]
    simp only [cooEntry_ren hπ]
  constructor
  · intro h i hi
    have : π i < n := by
      have : π i ∈ (Finset.range n).image π := Finset.mem_image_of_mem _ (Finset.mem_range.2 hi)
      rw [him] at this; exact Finset.mem_range.1 this
    rw [← key]; exact h _ this
  · intro h i hi
    have : i ∈ (Finset.range n).image π := by rw [him]; exact Finset.mem_range.2 hi
    obtain ⟨j, hj, rfl⟩ := Finset.mem_image.1 this
    rw [key]; exact h j (Finset.mem_range.1 hj)

/-- a dictionary with the same keys has as many entries -/
theorem Spec.Numbering.length {b b' : Dict PyStr Nat} (hb : (b.map Prod.fst).Nodup) (hn : Numbering b b') :
    b'.length = b.length := by
  have : (b'.map Prod.fst).Perm (b.map Prod.fst) := by
    rw [List.perm_ext_iff_of_nodup hn.nodup hb]
    intro id
    have h1 := get?_eq_none_iff b' id
    have h2 := get?_eq_none_iff b id
    have h3 := hn.keys id
    rw [← not_iff_not, ← h1, ← h2]
    simp only [Option.eq_none_iff_forall_ne_some]
    constructor
    · intro h i hi
      obtain ⟨j, hj⟩ := h3.2 ⟨i, hi⟩
      exact h j hj
    · intro h i hi
      obtain ⟨j, hj⟩ := h3.1 ⟨i, hi⟩
      exact h j hj
  simpa using this.length_eq

end GGCE
