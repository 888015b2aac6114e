import Verif.Proofs.Ready
import Verif.Spec.Print

/-! The lines printed by `System.visualize`, and what can be read off them. -/

set_option linter.unusedSectionVars false

namespace GGCE
open Spec

variable {R K : Type} [Field R] [LinearOrder R] [Field K]

/-- the coefficient shown -/
def shownCoef (F : Phys R K) (m : Model R) (coef : Option (Point R)) (t : Term R) : Option K :=
  coef.map (fun p => coefV F m p t)

/-- the lines of an equation -/
def eqLines (F : Phys R K) (m : Model R) (full : Bool) (coef : Option (Point R)) (e : Equation R) : List (Line K) :=
  .index (e.shownId full) (coef.map (fun _ => 1)) :: e.terms.map (fun t => .term (t.shownId full) (shownCoef F m coef t))

/-- the lines of the equations with one number of phonons -/
def block (F : Phys R K) (m : Model R) (full : Bool) (coef : Option (Point R)) (kv : Nat × List (Equation R)) :
    List (Line K) :=
  .heading kv.1 :: .rule :: (kv.2.flatMap (eqLines F m full coef) ++ [.blank])

/-- the equation, as it can be read off -/
def rowOf (F : Phys R K) (m : Model R) (full : Bool) (coef : Option (Point R)) (e : Equation R) : Row K :=
  ⟨e.shownId full, coef.map (fun _ => 1), e.terms.map (fun t => (t.shownId full, shownCoef F m coef t))⟩

/-- the coefficient of the term can be shown -/
def Showable (np : Term R → Bool) (F : Phys R K) (m : Model R) (coef : Option (Point R)) (t : Term R) : Prop :=
  coef = none ∨ (t.bare np m = false ∧ (t.kind = .eom ∨ ∃ g, t.gArg = some g))

theorem termLine_ok {np : Term R → Bool} {F : Phys R K} {m : Model R} {full : Bool} {coef : Option (Point R)} {t : Term R}
    (h : Showable np F m coef t) : termLine np F m full coef t = .ok (.term (t.shownId full) (shownCoef F m coef t)) := by
  unfold termLine shownCoef
  cases coef with
  | none => rfl
  | some p =>
    rcases h with h | ⟨h1, h2⟩
    · cases h
    · simp [coefficient_ok h2, h1, bind, Except.bind, pure, Except.pure]

theorem eqLines_ok {np : Term R → Bool} {F : Phys R K} {m : Model R} {full : Bool} {coef : Option (Point R)} {e : Equation R}
    (h : ∀ t ∈ e.terms, Showable np F m coef t) : Equation.lines np F m full coef e = .ok (eqLines F m full coef e) := by
  unfold Equation.lines eqLines
  rw [collectM_some_ok (g := fun t => Line.term (t.shownId full) (shownCoef F m coef t))]
  · rfl
  · intro t ht
    rw [termLine_ok (h t ht)]; rfl

theorem mem_sortedDown {α : Type} {d : Dict Nat α} {kv : Nat × α} : kv ∈ sortedDown d ↔ kv ∈ d :=
  (List.mergeSort_perm _ _).mem_iff

theorem lines_ok {np : Term R → Bool} {F : Phys R K} {m : Model R} {gen full : Bool} {coef : Option (Point R)} {b : Built R}
    (h : ∀ kv ∈ (if gen then b.gens else b.eqs), ∀ e ∈ kv.2, ∀ t ∈ e.terms, Showable np F m coef t) :
    b.lines np F m gen full coef = .ok ((sortedDown (if gen then b.gens else b.eqs)).flatMap (block F m full coef)) := by
  unfold Built.lines
  rw [collectM_some_ok (g := block F m full coef)]
  · rw [List.flatMap_def]; rfl
  · intro kv hkv
    have hkv := mem_sortedDown.1 hkv
    rw [collectM_some_ok (g := eqLines F m full coef)]
    · simp only [bind, Except.bind, pure, Except.pure, block, List.flatMap_def]
    · intro e he
      rw [eqLines_ok (fun t ht => h kv hkv e he t ht)]; rfl

theorem collectM_fail {α β : Type} {f : α → Py (Option β)} {E : Err} {l : List α} (h : ∀ a ∈ l, (∃ b, f a = .ok b) ∨ f a = .error E)
    {a : α} (ha : a ∈ l) (hf : f a = .error E) : collectM f l = .error E := by
  induction l with
  | nil => cases ha
  | cons x l ih =>
    rcases h x List.mem_cons_self with ⟨y, hy⟩ | hy
    · have hal : a ∈ l := by
        rcases List.mem_cons.1 ha with rfl | ha
        · rw [hf] at hy; cases hy
        · exact ha
      rw [collectM, hy, ih (fun b hb => h b (List.mem_cons_of_mem _ hb)) hal]; rfl
    · rw [collectM, hy]; rfl

theorem collectM_cases {α β : Type} {f : α → Py (Option β)} {E : Err} {l : List α} (h : ∀ a ∈ l, (∃ b, f a = .ok b) ∨ f a = .error E) :
    (∃ b, collectM f l = .ok b) ∨ collectM f l = .error E := by
  by_cases hex : ∃ a ∈ l, f a = .error E
  · obtain ⟨a, ha, hf⟩ := hex
    exact Or.inr (collectM_fail h ha hf)
  · push Not at hex
    have h2 : ∀ a ∈ l, ∃ b, f a = .ok b := fun a ha => (h a ha).resolve_right (hex a ha)
    clear h hex
    left
    induction l with
    | nil => exact ⟨[], rfl⟩
    | cons x l ih =>
      obtain ⟨y, hy⟩ := h2 x List.mem_cons_self
      obtain ⟨ys, hys⟩ := ih (fun a ha => h2 a (List.mem_cons_of_mem _ ha))
      rw [collectM, hy, hys]
      cases y with
      | none => exact ⟨_, rfl⟩
      | some y => exact ⟨_, rfl⟩

theorem lines_fail {np : Term R → Bool} {F : Phys R K} {m : Model R} {gen full : Bool} {p : Point R} {b : Built R}
    (hc : ∀ e ∈ allEqs (if gen then b.gens else b.eqs), ∀ t ∈ e.terms, t.kind = .eom ∨ ∃ g, t.gArg = some g)
    {e : Equation R} (he : e ∈ allEqs (if gen then b.gens else b.eqs)) {t : Term R} (ht : t ∈ e.terms) (hb : t.bare np m = true) :
    b.lines np F m gen full (some p) = .error .attributeError := by
  have h1 : ∀ e ∈ allEqs (if gen then b.gens else b.eqs), ∀ t ∈ e.terms,
      (∃ l, (some <$> termLine np F m full (some p) t : Py _) = .ok l) ∨
        (some <$> termLine np F m full (some p) t : Py _) = .error .attributeError := by
    intro e he t ht
    unfold termLine
    simp only [coefficient_ok (hc e he t ht)]
    cases t.bare np m
    · exact Or.inl ⟨_, rfl⟩
    · exact Or.inr rfl
  have h2 : ∀ e ∈ allEqs (if gen then b.gens else b.eqs),
      (∃ l, (some <$> Equation.lines np F m full (some p) e : Py _) = .ok l) ∨
        (some <$> Equation.lines np F m full (some p) e : Py _) = .error .attributeError := by
    intro e he
    unfold Equation.lines
    rcases collectM_cases (h1 e he) with ⟨l, h⟩ | h
    · rw [h]; exact Or.inl ⟨_, rfl⟩
    · rw [h]; exact Or.inr rfl
  have he2 : (some <$> Equation.lines np F m full (some p) e : Py _) = .error .attributeError := by
    unfold Equation.lines
    rw [collectM_fail (h1 e he) ht]
    · rfl
    · unfold termLine
      simp only [coefficient_ok (hc e he t ht), hb]
      rfl
  obtain ⟨kv, hkv, hek⟩ := List.mem_flatMap.1 he
  have hmem : ∀ kv' ∈ sortedDown (if gen then b.gens else b.eqs), ∀ e ∈ kv'.2, e ∈ allEqs (if gen then b.gens else b.eqs) :=
    fun kv' h e he => List.mem_flatMap.2 ⟨kv', mem_sortedDown.1 h, he⟩
  unfold Built.lines
  rw [collectM_fail (a := kv) (E := .attributeError) _ (mem_sortedDown.2 hkv)]
  · rfl
  · rw [collectM_fail (fun e' he' => h2 e' (hmem kv (mem_sortedDown.2 hkv) e' he')) hek he2]; rfl
  · intro kv' hkv'
    rcases collectM_cases (fun e' he' => h2 e' (hmem kv' hkv' e' he')) with ⟨l, h⟩ | h
    · rw [h]; exact Or.inl ⟨_, rfl⟩
    · rw [h]; exact Or.inr rfl

/-! ### reading -/

theorem indented_terms {α : Type} (l : List α) (f : α → PyStr × Option K) (rest : List (Line K)) (hr : indented rest = []) :
    indented (l.map (fun a => Line.term (f a).1 (f a).2) ++ rest) = l.map f := by
  induction l with
  | nil => exact hr
  | cons a l ih => rw [List.map_cons, List.cons_append, indented, ih]; rfl

theorem rowsFrom_terms {α : Type} (n : Nat) (l : List α) (f : α → PyStr × Option K) (rest : List (Line K)) :
    rowsFrom n (l.map (fun a => Line.term (f a).1 (f a).2) ++ rest) = rowsFrom n rest := by
  induction l with
  | nil => rfl
  | cons a l ih => rw [List.map_cons, List.cons_append, rowsFrom, ih]

theorem indented_eqs (F : Phys R K) (m : Model R) (full : Bool) (coef : Option (Point R)) (es : List (Equation R))
    {rest : List (Line K)} (hr : indented rest = []) : indented (es.flatMap (eqLines F m full coef) ++ rest) = [] := by
  cases es with
  | nil => exact hr
  | cons e es => rfl

theorem rowsFrom_eqs (F : Phys R K) (m : Model R) (full : Bool) (coef : Option (Point R)) (n : Nat) (es : List (Equation R))
    {rest : List (Line K)} (hr : indented rest = []) : rowsFrom n (es.flatMap (eqLines F m full coef) ++ rest) =
      es.map (fun e => (n, rowOf F m full coef e)) ++ rowsFrom n rest := by
  induction es with
  | nil => rfl
  | cons e es ih =>
    rw [List.flatMap_cons, List.append_assoc, List.map_cons, List.cons_append, ← ih]
    have h1 := rowsFrom_terms n e.terms (fun t => (t.shownId full, shownCoef F m coef t))
      (es.flatMap (eqLines F m full coef) ++ rest)
    have h2 := indented_terms e.terms (fun t => (t.shownId full, shownCoef F m coef t))
      (es.flatMap (eqLines F m full coef) ++ rest) (indented_eqs F m full coef es hr)
    show rowsFrom n (Line.index _ _ :: (_ ++ _)) = _
    rw [rowsFrom]
    show _ :: rowsFrom n (e.terms.map (fun t => Line.term (t.shownId full) (shownCoef F m coef t)) ++ _) = _
    simp only at h1 h2
    rw [h1, h2]
    rfl

theorem rowsFrom_blocks (F : Phys R K) (m : Model R) (full : Bool) (coef : Option (Point R))
    (d : Dict Nat (List (Equation R))) : ∀ n, rowsFrom n (d.flatMap (block F m full coef)) =
      d.flatMap (fun kv => kv.2.map (fun e => (kv.1, rowOf F m full coef e))) := by
  induction d with
  | nil => intro n; rfl
  | cons kv d ih =>
    intro n
    rw [List.flatMap_cons, List.flatMap_cons]
    show rowsFrom n (Line.heading kv.1 :: Line.rule :: ((kv.2.flatMap (eqLines F m full coef) ++ [Line.blank]) ++ _)) = _
    rw [rowsFrom, rowsFrom, List.append_assoc, rowsFrom_eqs F m full coef kv.1 kv.2 (by rfl)]
    show _ ++ rowsFrom kv.1 (Line.blank :: d.flatMap (block F m full coef)) = _
    rw [rowsFrom, ih]

theorem headings_eqs (F : Phys R K) (m : Model R) (full : Bool) (coef : Option (Point R)) (es : List (Equation R)) :
    headings (es.flatMap (eqLines F m full coef)) = [] := by
  unfold headings
  rw [List.filterMap_eq_nil_iff]
  intro l hl
  obtain ⟨e, -, hl⟩ := List.mem_flatMap.1 hl
  rcases List.mem_cons.1 hl with rfl | hl
  · rfl
  · obtain ⟨t, -, rfl⟩ := List.mem_map.1 hl; rfl

theorem headings_blocks (F : Phys R K) (m : Model R) (full : Bool) (coef : Option (Point R))
    (d : Dict Nat (List (Equation R))) : headings (d.flatMap (block F m full coef)) = d.map Prod.fst := by
  induction d with
  | nil => rfl
  | cons kv d ih =>
    have happ : ∀ a b : List (Line K), headings (a ++ b) = headings a ++ headings b := fun a b => List.filterMap_append
    rw [List.flatMap_cons, happ, ih]
    have : headings (block F m full coef kv) = [kv.1] := by
      have h2 : headings (block F m full coef kv) = kv.1 :: headings (kv.2.flatMap (eqLines F m full coef) ++ [Line.blank]) := rfl
      rw [h2, happ, headings_eqs]; rfl
    rw [this]; rfl

theorem keys_sortedDown {α : Type} {d : Dict Nat α} {n : Nat} (h : d.map Prod.fst = (List.range n).map (· + 1) ++ [0]) :
    (sortedDown d).map Prod.fst = (List.range (n + 1)).reverse := by
  have hp : ((sortedDown d).map Prod.fst).Perm (List.range (n + 1)).reverse := by
    refine ((List.mergeSort_perm _ _).map Prod.fst).trans ?_
    rw [h, List.range_succ_eq_map]
    exact (List.perm_append_singleton _ _).trans (List.reverse_perm _).symm
  refine List.Perm.eq_of_pairwise (le := fun a b => b ≤ a) (fun a b _ _ h1 h2 => le_antisymm h2 h1) ?_ ?_ hp
  · rw [List.pairwise_map]
    have := List.pairwise_mergeSort (le := fun a b : Nat × α => decide (b.1 ≤ a.1)) (by
      intro a b c h1 h2; simp only [decide_eq_true_eq] at *; exact h2.trans h1) (by
      intro a b; simp only [Bool.or_eq_true, decide_eq_true_eq]; exact le_total _ _) d
    exact this.imp (fun h => by simpa using h)
  · rw [List.pairwise_reverse]
    exact List.pairwise_le_range

/-! ### longer identifiers -/

theorem longer_eqs (F : Phys R K) (m : Model R) (coef : Option (Point R)) (e : Equation R) :
    List.Forall₂ Longer (eqLines F m false coef e) (eqLines F m true coef e) := by
  refine List.Forall₂.cons ⟨⟨_, rfl⟩, rfl⟩ ?_
  rw [List.forall₂_map_left_iff, List.forall₂_map_right_iff, List.forall₂_same]
  intro t _
  exact ⟨⟨_, rfl⟩, rfl⟩

theorem forall₂_flatMap {α β γ : Type} {r : β → γ → Prop} {f : α → List β} {g : α → List γ} (h : ∀ a, List.Forall₂ r (f a) (g a))
    (l : List α) : List.Forall₂ r (l.flatMap f) (l.flatMap g) := by
  induction l with
  | nil => exact List.Forall₂.nil
  | cons a l ih => exact List.rel_append (h a) ih

theorem longer_blocks (F : Phys R K) (m : Model R) (coef : Option (Point R)) (d : Dict Nat (List (Equation R))) :
    List.Forall₂ Longer (d.flatMap (block F m false coef)) (d.flatMap (block F m true coef)) := by
  refine forall₂_flatMap (fun kv => ?_) d
  exact List.Forall₂.cons rfl (List.Forall₂.cons rfl
    (List.rel_append (forall₂_flatMap (longer_eqs F m coef) kv.2) (List.Forall₂.cons rfl List.Forall₂.nil)))

end GGCE
