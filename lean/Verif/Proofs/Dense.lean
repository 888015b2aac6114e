import Verif.Proofs.SparseLin
import Verif.Proofs.Fraction

/-! The matrices filled by the dense solver and the equations they represent. -/

set_option linter.unusedSectionVars false

namespace GGCE
open Spec Arr Dict

variable {R K : Type} [Field R] [LinearOrder R] [Field K]
variable {m : Model R} {eqs : Dict Nat (List (Equation R))}

/-- index of an unknown among those with `n` phonons -/
def lixOf (eqs : Dict Nat (List (Equation R))) (n : Nat) (id : PyStr) : Nat :=
  ((eqs.vals n).map Equation.id).idxOf id

theorem Ready.local_nodup (h : Ready m eqs) {n : Nat} (hn : n ≤ m.number.sum.toNat) :
    ((eqs.vals n).map Equation.id).Nodup := by
  refine h.nodup.sublist ?_
  unfold allEqs
  apply List.Sublist.map
  rw [List.flatMap_def]
  exact List.sublist_flatten_of_mem (List.mem_map.2 ⟨_, mem_of_get? (h.get hn), rfl⟩)

theorem Ready.localBasis (h : Ready m eqs) {n : Nat} (hn : n ≤ m.number.sum.toNat) :
    (localBasis eqs).get? n = some ((eqs.vals n).map Equation.id).zipIdx := by
  have hkeys : ∀ (d : Dict Nat (List (Equation R))) (f : List (Equation R) → Dict PyStr Nat) (n : Nat),
      Dict.get? (d.map (fun kv => (kv.1, f kv.2))) n = (d.get? n).map f := by
    intro d f n
    induction d with
    | nil => rfl
    | cons p d ih =>
      simp only [List.map_cons, Dict.get?]
      split
      · rfl
      · exact ih
  rw [localBasis_eq h.nodup, hkeys eqs (fun es => (es.map Equation.id).zipIdx) n, h.get hn]; rfl

theorem Ready.blockDim (h : Ready m eqs) {n : Nat} (hn : n ≤ m.number.sum.toNat) :
    blockDim (GGCE.localBasis eqs) n = (eqs.vals n).length := by
  unfold GGCE.blockDim
  rw [h.localBasis hn]; simp

theorem Ready.lix (h : Ready m eqs) {n : Nat} (hn : n ≤ m.number.sum.toNat) {e : Equation R}
    (he : e ∈ eqs.vals n) :
    Dict.get? (((eqs.vals n).map Equation.id).zipIdx) e.id = some (lixOf eqs n e.id) := by
  rw [get?_zipIdx (h.local_nodup hn), lixOf]
  exact List.getElem?_idxOf (List.mem_map.2 ⟨e, he, rfl⟩)

theorem Ready.lix_get (h : Ready m eqs) {n : Nat} (hn : n ≤ m.number.sum.toNat) {e : Equation R}
    {i : Nat} (he : (eqs.vals n)[i]? = some e) : lixOf eqs n e.id = i := by
  have h1 := h.lix hn (List.mem_of_getElem? he)
  have h2 : Dict.get? (((eqs.vals n).map Equation.id).zipIdx) e.id = some i := by
    rw [get?_zipIdx (h.local_nodup hn)]; simp [he]
  rw [h1] at h2; simpa using h2

theorem Ready.get_lix (h : Ready m eqs) {n : Nat} (hn : n ≤ m.number.sum.toNat) {e : Equation R}
    (he : e ∈ eqs.vals n) : (eqs.vals n)[lixOf eqs n e.id]? = some e := by
  obtain ⟨i, hi⟩ := List.mem_iff_getElem?.1 he
  rw [h.lix_get hn hi]; exact hi

theorem Ready.lix_inj (h : Ready m eqs) {n : Nat} (hn : n ≤ m.number.sum.toNat) {e e' : Equation R}
    (he : e ∈ eqs.vals n) (he' : e' ∈ eqs.vals n) (hx : lixOf eqs n e.id = lixOf eqs n e'.id) :
    e = e' := by
  have h1 := h.get_lix hn he
  rw [hx, h.get_lix hn he'] at h1
  simpa using h1.symm

/-- the equation of a term, among the equations of its phonon number -/
theorem Ready.term_eq (h : Ready m eqs) {e : Equation R} (he : e ∈ allEqs eqs) {t : Term R}
    (ht : t ∈ e.terms) {n' : Nat} (hn' : n' ≤ m.number.sum.toNat) (htot : t.config.total = n') :
    ∃ e' ∈ eqs.vals n', e'.id = t.id := by
  obtain ⟨e', he', h1, h2⟩ := h.closed e he t ht
  exact ⟨e', (h.mem_vals hn').2 ⟨he', by rw [h2, htot]⟩, h1⟩

theorem cooEntry_filterMap {α : Type} (l : List α) (g : α → Option (Nat × Nat × K)) (i j : Nat) :
    cooEntry (l.filterMap g) i j = (l.map (fun a => match g a with
      | none => 0
      | some q => if q.1 = i ∧ q.2.1 = j then q.2.2 else 0)).sum := by
  induction l with
  | nil => rfl
  | cons a l ih =>
    rw [List.filterMap_cons, List.map_cons, List.sum_cons, ← ih]
    cases g a with
    | none => simp
    | some q => exact cooEntry_cons ..

/-- `_fill_matrix` never fails, and its entries are the sums of the coefficients. -/
theorem Ready.fill (h : Ready m eqs) (F : Phys R K) (p : Point R) {n n' : Nat}
    (hn : n ≤ m.number.sum.toNat) (hn' : n' ≤ m.number.sum.toNat) :
    ∃ ts, fillMatrix F m p (GGCE.localBasis eqs) eqs n n' = .ok ts ∧
      ∀ (i : Nat) (ei : Equation R), (eqs.vals n)[i]? = some ei → ∀ j,
        cooEntry ts i j = (ei.terms.map (fun t => if t.config.total = (n' : Int) then
          (if lixOf eqs n' t.id = j then coefV F m p t else 0) else 0)).sum := by
  let g : Nat → Term R → Option (Nat × Nat × K) := fun i t =>
    if t.config.total ≠ (n' : Int) then none else some (i, lixOf eqs n' t.id, coefV F m p t)
  have hlix : ∀ {n : Nat}, n ≤ m.number.sum.toNat → ∀ {e : Equation R}, e ∈ eqs.vals n → lixOf eqs n e.id < (eqs.vals n).length := by
    intro n hn e he
    obtain ⟨i, hi⟩ := List.mem_iff_getElem?.1 he
    rw [h.lix_get hn hi]
    exact (List.getElem?_eq_some_iff.1 hi).1
  have hrow : ∀ e ∈ eqs.vals n, ∀ i < (eqs.vals n).length,
      fillRow F m p (((eqs.vals n).map Equation.id).zipIdx : Dict PyStr Nat).length (((eqs.vals n').map Equation.id).zipIdx) n' i e.terms =
      .ok (e.terms.filterMap (g i)) := by
    intro e he i hilt
    have he' := ((h.mem_vals hn).1 he).1
    refine collectM_ok ?_
    intro t ht
    by_cases htot : t.config.total = (n' : Int)
    · obtain ⟨e1, he1, hid⟩ := h.term_eq he' ht hn' htot
      have := h.lix hn' he1
      rw [hid] at this
      simp only [g, if_neg (not_not.2 htot), this, coefficient_ok (h.coef e he' t ht)]
      have hj := hlix hn' he1
      rw [hid] at hj
      rw [if_pos (by simpa using And.intro hilt hj)]
      rfl
    · simp only [g, if_pos htot]
  refine ⟨((eqs.vals n).map (fun e => e.terms.filterMap (g (lixOf eqs n e.id)))).flatten, ?_, ?_⟩
  · unfold fillMatrix
    rw [h.get hn, h.localBasis hn, h.localBasis hn']
    simp only
    rw [collectM_some_ok (g := fun e => e.terms.filterMap (g (lixOf eqs n e.id)))]
    · rfl
    · intro e he
      rw [h.lix hn he]
      simp only
      rw [hrow e he _ (hlix hn he)]; rfl
  · intro i ei hi j
    have hei := List.mem_of_getElem? hi
    rw [cooEntry_flatten, List.map_map, sum_single (List.Nodup.of_map _ (h.local_nodup hn)) hei]
    · simp only [Function.comp]
      rw [cooEntry_filterMap, h.lix_get hn hi]
      congr 1
      apply List.map_congr_left
      intro t ht
      by_cases htot : t.config.total = (n' : Int)
      · simp [g, htot]
      · simp [g, htot]
    · intro e he hne
      simp only [Function.comp]
      rw [cooEntry_filterMap]
      apply List.sum_eq_zero
      intro x hx
      obtain ⟨t, -, rfl⟩ := List.mem_map.1 hx
      have : lixOf eqs n e.id ≠ i := by
        intro hc
        exact hne (h.lix_inj hn he hei (by rw [hc, h.lix_get hn hi]))
      by_cases htot : t.config.total = (n' : Int)
      · simp [g, htot, this]
      · simp [g, htot]

/-- the values of the unknowns with `n` phonons -/
def unknowns (eqs : Dict Nat (List (Equation R))) (y : PyStr → K) (n : Nat)
    (i : Fin (blockDim (localBasis eqs) n)) : K :=
  ((eqs.vals n)[i.val]?.map (fun e => y e.id)).getD 0

/-- a filled matrix times the vector of unknowns -/
theorem Ready.fill_apply (h : Ready m eqs) {c : Term R → K} {n n' : Nat}
    (hn : n ≤ m.number.sum.toNat) (hn' : n' ≤ m.number.sum.toNat) {ts : List (Nat × Nat × K)}
    (hts : ∀ (i : Nat) (ei : Equation R), (eqs.vals n)[i]? = some ei → ∀ j,
        cooEntry ts i j = (ei.terms.map (fun t => if t.config.total = (n' : Int) then
          (if lixOf eqs n' t.id = j then c t else 0) else 0)).sum)
    (y : PyStr → K) (i : Fin (GGCE.blockDim (GGCE.localBasis eqs) n)) (ei : Equation R)
    (hi : (eqs.vals n)[i.val]? = some ei) :
    (toMatrix _ _ ts : Matrix (Fin (GGCE.blockDim (GGCE.localBasis eqs) n))
      (Fin (GGCE.blockDim (GGCE.localBasis eqs) n')) K).mulVec (unknowns eqs y n') i =
      (ei.terms.map (fun t => if t.config.total = (n' : Int) then c t * y t.id else 0)).sum := by
  have hei := ((h.mem_vals hn).1 (List.mem_of_getElem? hi)).1
  have hlen := h.blockDim hn'
  have hmap : ∀ j : Nat, j < (eqs.vals n').length → ∀ hj : j < GGCE.blockDim (GGCE.localBasis eqs) n',
      ∀ e, (eqs.vals n')[j]? = some e → unknowns eqs y n' ⟨j, hj⟩ = y e.id := by
    intro j _ hj e he
    simp [unknowns, he]
  simp only [Matrix.mulVec, dotProduct, toMatrix, hts i.val ei hi, list_sum_mul_right]
  have : ∀ (l : List (Term R)), (∀ t ∈ l, t ∈ ei.terms) →
      ∑ j : Fin (GGCE.blockDim (GGCE.localBasis eqs) n'), (l.map (fun t =>
        (if t.config.total = (n' : Int) then (if lixOf eqs n' t.id = j.val then c t else 0) else 0) *
          unknowns eqs y n' j)).sum =
      (l.map (fun t => if t.config.total = (n' : Int) then c t * y t.id else 0)).sum := by
    intro l hl
    induction l with
    | nil => simp
    | cons t l ih =>
      simp only [List.map_cons, List.sum_cons, Finset.sum_add_distrib]
      rw [ih (fun t ht => hl t (List.mem_cons_of_mem _ ht))]
      congr 1
      by_cases htot : t.config.total = (n' : Int)
      · obtain ⟨e', he', hid⟩ := h.term_eq hei (hl t List.mem_cons_self) hn' htot
        have hg := h.get_lix hn' he'
        have hlt : lixOf eqs n' e'.id < (eqs.vals n').length := (List.getElem?_eq_some_iff.1 hg).1
        simp only [htot, if_true]
        rw [hid] at hg hlt
        rw [Finset.sum_eq_single ⟨lixOf eqs n' t.id, by rw [hlen]; exact hlt⟩]
        · rw [hmap _ hlt _ e' hg, hid]; simp
        · intro j _ hj
          rw [if_neg, zero_mul]
          rintro hc
          apply hj
          ext
          exact hc.symm
        · simp
      · simp [htot]
  exact this ei.terms (fun _ h => h)

end GGCE
