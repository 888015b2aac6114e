import Verif.Model.Heap
import Mathlib.Tactic.Common

/-!
No two models share a mutable object: the invariant, and what each operation does to the values of models.
-/

set_option linter.unusedSectionVars false

namespace GGCE.Mem
variable {R : Type} [Field R] [LinearOrder R]

/-- no sharing, no dangling addresses -/
structure Sep (h : Heap R) : Prop where
  defaults : h.terms[0]? = some [] ∧ h.freqs[0]? = some [] ∧ 1 ≤ h.hams.length ∧ 2 ≤ h.ints.length
  hamRange : ∀ (a : Nat) (o : HamObj R), h.hams[a]? = some o → o.terms < h.terms.length ∧ o.freqs < h.freqs.length
  hamPos : ∀ (a : Nat) (o : HamObj R), h.hams[a]? = some o → o.terms ≠ 0 ∧ o.freqs ≠ 0
  hamInj : ∀ (a b : Nat) (o o' : HamObj R), h.hams[a]? = some o → h.hams[b]? = some o' → a ≠ b →
    o.terms ≠ o'.terms ∧ o.freqs ≠ o'.freqs
  range : ∀ (a : Nat) (o : ModelObj R), h.models[a]? = some o →
    o.ham < h.hams.length ∧ o.extent < h.ints.length ∧ o.number < h.ints.length ∧ o.extent ≠ o.number
  own : ∀ (a : Nat) (o : ModelObj R), h.models[a]? = some o → o.ham ≠ 0 ∧ 2 ≤ o.extent ∧ 2 ≤ o.number
  inj : ∀ (a b : Nat) (o o' : ModelObj R), h.models[a]? = some o → h.models[b]? = some o' → a ≠ b →
    o.ham ≠ o'.ham ∧ o.extent ≠ o'.extent ∧ o.extent ≠ o'.number ∧ o.number ≠ o'.extent ∧ o.number ≠ o'.number

theorem sep_initial : Sep (Heap.initial : Heap R) := by
  refine ⟨by simp [Heap.initial], ?_, ?_, ?_, ?_, ?_, ?_⟩
  · intro a o h
    simp only [Heap.initial] at h ⊢
    rcases a with _ | a <;> simp at h
    subst h; simp
  · intro a o h
    simp only [Heap.initial] at h ⊢
    rcases a with _ | a <;> simp at h
    subst h; simp
  · intro a b o o' h h' hne
    simp only [Heap.initial] at h h'
    rcases a with _ | a <;> simp at h
    rcases b with _ | b <;> simp at h'
    exact absurd rfl hne
  · intro a o h; simp [Heap.initial] at h
  · intro a o h; simp [Heap.initial] at h
  · intro a b o o' h; simp [Heap.initial] at h

variable {h : Heap R}

theorem get_append {α : Type} {l : List α} {x : List α} {a : Nat} {v : α} (hv : l[a]? = some v) :
    (l ++ x)[a]? = some v := by
  rw [List.getElem?_append_left (List.getElem?_eq_some_iff.1 hv).1, hv]

theorem get_snoc {α : Type} {l : List α} {x : α} {a : Nat} {v : α} (hv : (l ++ [x])[a]? = some v) :
    l[a]? = some v ∨ (a = l.length ∧ v = x) := by
  rcases Nat.lt_trichotomy a l.length with hl | rfl | hl
  · rw [List.getElem?_append_left hl] at hv; exact Or.inl hv
  · simp at hv; exact Or.inr ⟨rfl, hv.symm⟩
  · rw [List.getElem?_eq_none (by simp; omega)] at hv; cases hv

/-- in a separated memory every model has a value -/
theorem Sep.ham_some (s : Sep h) {a : Nat} (ha : a < h.hams.length) : ∃ H, h.ham a = some H := by
  obtain ⟨h1, h2⟩ := s.hamRange a _ (List.getElem?_eq_getElem ha)
  refine Option.isSome_iff_exists.1 ?_
  unfold Heap.ham
  rw [List.getElem?_eq_getElem ha]
  simp only [Option.bind_eq_bind, Option.bind_some]
  rw [List.getElem?_eq_getElem h1, List.getElem?_eq_getElem h2]
  rfl

theorem Sep.view_some (s : Sep h) {a : Nat} (ha : a < h.models.length) : ∃ m, h.view a = some m := by
  obtain ⟨h1, h2, h3, -⟩ := s.range a _ (List.getElem?_eq_getElem ha)
  obtain ⟨H, hH⟩ := s.ham_some h1
  refine Option.isSome_iff_exists.1 ?_
  unfold Heap.view
  rw [List.getElem?_eq_getElem ha]
  simp only [Option.bind_eq_bind, Option.bind_some]
  rw [hH, List.getElem?_eq_getElem h2, List.getElem?_eq_getElem h3]
  rfl

/-- the value of a Hamiltonian depends only on its own cells -/
theorem ham_frame {h h' : Heap R} {a : Nat} {o : HamObj R} (ho : h.hams[a]? = some o) (ho' : h'.hams[a]? = some o)
    (ht : h'.terms[o.terms]? = h.terms[o.terms]?) (hf : h'.freqs[o.freqs]? = h.freqs[o.freqs]?) :
    h'.ham a = h.ham a := by
  unfold Heap.ham
  rw [ho, ho']
  simp only [Option.bind_eq_bind, Option.bind_some, ht, hf]

/-- the value of a model depends only on its own cells -/
theorem view_frame {h h' : Heap R} {a : Nat} {o : ModelObj R} (ho : h.models[a]? = some o)
    (ho' : h'.models[a]? = some o) (hh : h'.ham o.ham = h.ham o.ham) (he : h'.ints[o.extent]? = h.ints[o.extent]?)
    (hn : h'.ints[o.number]? = h.ints[o.number]?) : h'.view a = h.view a := by
  unfold Heap.view
  rw [ho, ho']
  simp only [Option.bind_eq_bind, Option.bind_some, hh, he, hn]

/-! ### Constructors -/

theorem newHam_ok {t f : Nat} (ht : t < h.terms.length) (hf : f < h.freqs.length) (d : Nat) (x : R) :
    h.newHam t f d x = { h with
      terms := h.terms ++ [h.terms[t]]
      freqs := h.freqs ++ [h.freqs[f]]
      hams := h.hams ++ [⟨h.terms.length, h.freqs.length, d, x⟩] } := by
  unfold Heap.newHam
  rw [List.getElem?_eq_getElem ht, List.getElem?_eq_getElem hf]

theorem newHam_cases (h : Heap R) (t f d : Nat) (x : R) :
    (∃ (ht : t < h.terms.length) (hf : f < h.freqs.length), h.newHam t f d x = { h with
      terms := h.terms ++ [h.terms[t]]
      freqs := h.freqs ++ [h.freqs[f]]
      hams := h.hams ++ [⟨h.terms.length, h.freqs.length, d, x⟩] }) ∨ h.newHam t f d x = h := by
  by_cases ht : t < h.terms.length
  · by_cases hf : f < h.freqs.length
    · exact Or.inl ⟨ht, hf, newHam_ok ht hf d x⟩
    · right; unfold Heap.newHam; rw [List.getElem?_eq_none (l := h.freqs) (by omega)]; split <;> simp_all
  · right; unfold Heap.newHam; rw [List.getElem?_eq_none (l := h.terms) (by omega)]

theorem Sep.addHamObj (s : Sep h) (ts : List (SingleTerm R)) (fs : List R) (d : Nat) (x : R) :
    Sep { h with
      terms := h.terms ++ [ts]
      freqs := h.freqs ++ [fs]
      hams := h.hams ++ [⟨h.terms.length, h.freqs.length, d, x⟩] } := by
  have hl := (List.getElem?_eq_some_iff.1 s.defaults.1).1
  have hl' := (List.getElem?_eq_some_iff.1 s.defaults.2.1).1
  refine ⟨⟨get_append s.defaults.1, get_append s.defaults.2.1, by simp, s.defaults.2.2.2⟩, ?_, ?_, ?_, ?_, ?_, ?_⟩
  · intro a o ho
    rcases get_snoc ho with ho | ⟨-, rfl⟩
    · have := s.hamRange a o ho; simp; omega
    · simp
  · intro a o ho
    rcases get_snoc ho with ho | ⟨-, rfl⟩
    · exact s.hamPos a o ho
    · simp only; omega
  · intro a b o o' ho ho' hne
    rcases get_snoc ho with ho | ⟨rfl, rfl⟩ <;> rcases get_snoc ho' with ho' | ⟨rfl, rfl⟩
    · exact s.hamInj a b o o' ho ho' hne
    · have := s.hamRange a o ho; simp; omega
    · have := s.hamRange b o' ho'; simp; omega
    · exact absurd rfl hne
  · intro a o ho
    have := s.range a o ho
    simp only [List.length_append, List.length_singleton]
    omega
  · exact s.own
  · intro a b o o' ho ho' hne
    exact s.inj a b o o' ho ho' hne

theorem addHamObj_view (s : Sep h) (ts : List (SingleTerm R)) (fs : List R) (d : Nat) (x : R) (b : Nat)
    (hb : b < h.models.length) :
    Heap.view { h with
      terms := h.terms ++ [ts]
      freqs := h.freqs ++ [fs]
      hams := h.hams ++ [⟨h.terms.length, h.freqs.length, d, x⟩] } b = h.view b := by
  obtain ⟨h1, h2, h3, -⟩ := s.range b _ (List.getElem?_eq_getElem hb)
  refine view_frame (List.getElem?_eq_getElem hb) (List.getElem?_eq_getElem hb) ?_ rfl rfl
  obtain ⟨k1, k2⟩ := s.hamRange _ _ (List.getElem?_eq_getElem h1)
  refine ham_frame (List.getElem?_eq_getElem h1) (get_append (List.getElem?_eq_getElem h1)) ?_ ?_
  · exact List.getElem?_append_left k1
  · exact List.getElem?_append_left k2

theorem Sep.newHam (s : Sep h) (t f d : Nat) (x : R) : Sep (h.newHam t f d x) := by
  rcases newHam_cases h t f d x with ⟨ht, hf, he⟩ | he
  · rw [he]; exact s.addHamObj _ _ d x
  · rw [he]; exact s

theorem newHam_view (s : Sep h) (t f d : Nat) (x : R) (b : Nat) (hb : b < h.models.length) :
    (h.newHam t f d x).view b = h.view b := by
  rcases newHam_cases h t f d x with ⟨ht, hf, he⟩ | he
  · rw [he]; exact addHamObj_view s _ _ d x b hb
  · rw [he]

/-- `deepcopy` of a Hamiltonian: a new object with the same value -/
theorem copyHam_ok (s : Sep h) {a : Nat} {H : Hamiltonian R} (ha : h.ham a = some H) :
    h.copyHam a = { h with
      terms := h.terms ++ [H.terms]
      freqs := h.freqs ++ [H.freqs]
      hams := h.hams ++ [⟨h.terms.length, h.freqs.length, H.dimension, H.hopping⟩] } := by
  unfold Heap.ham at ha
  cases ho : h.hams[a]? with
  | none => rw [ho] at ha; cases ha
  | some o =>
    obtain ⟨h1, h2⟩ := s.hamRange a o ho
    rw [ho] at ha
    simp only [Option.bind_eq_bind, Option.bind_some] at ha
    rw [List.getElem?_eq_getElem h1, List.getElem?_eq_getElem h2] at ha
    simp only [Option.bind_some, Option.pure_def, Option.some.injEq] at ha
    subst ha
    unfold Heap.copyHam
    rw [ho]
    exact newHam_ok h1 h2 _ _

/-- the effect of `Model.__init__` -/
theorem newModel_ok (s : Sep h) {H : Nat} {Hv : Hamiltonian R} (hH : h.ham H = some Hv) {e n : Nat}
    {ext num : List Int} (he : h.ints[e]? = some ext) (hn : h.ints[n]? = some num) (l T : R) (c ae : Option Int)
    (nt : Nat) :
    h.newModel l T H c e n ae nt = { h with
      terms := h.terms ++ [Hv.terms]
      freqs := h.freqs ++ [Hv.freqs]
      hams := h.hams ++ [⟨h.terms.length, h.freqs.length, Hv.dimension, Hv.hopping⟩]
      ints := h.ints ++ [ext, num]
      models := h.models ++ [⟨l, T, h.hams.length, c, h.ints.length, h.ints.length + 1, ae, nt⟩] } := by
  unfold Heap.newModel
  rw [hH, he, hn]
  simp only
  rw [copyHam_ok s hH]
  simp

theorem newModel_cases (s : Sep h) (l T : R) (H : Nat) (c : Option Int) (e n : Nat) (ae : Option Int) (nt : Nat) :
    (∃ (Hv : Hamiltonian R) (ext num : List Int), h.ham H = some Hv ∧ h.ints[e]? = some ext ∧
      h.ints[n]? = some num ∧ h.newModel l T H c e n ae nt = { h with
      terms := h.terms ++ [Hv.terms]
      freqs := h.freqs ++ [Hv.freqs]
      hams := h.hams ++ [⟨h.terms.length, h.freqs.length, Hv.dimension, Hv.hopping⟩]
      ints := h.ints ++ [ext, num]
      models := h.models ++ [⟨l, T, h.hams.length, c, h.ints.length, h.ints.length + 1, ae, nt⟩] }) ∨
      h.newModel l T H c e n ae nt = h := by
  cases hH : h.ham H with
  | none => right; unfold Heap.newModel; rw [hH]
  | some Hv =>
    cases he : h.ints[e]? with
    | none => right; unfold Heap.newModel; rw [hH, he]
    | some ext =>
      cases hn : h.ints[n]? with
      | none => right; unfold Heap.newModel; rw [hH, he, hn]
      | some num => exact Or.inl ⟨Hv, ext, num, rfl, rfl, rfl, newModel_ok s hH he hn l T c ae nt⟩

theorem Sep.addModelObj (s : Sep h) (ts : List (SingleTerm R)) (fs : List R) (d : Nat) (x : R) (ext num : List Int)
    (l T : R) (c ae : Option Int) (nt : Nat) :
    Sep { h with
      terms := h.terms ++ [ts]
      freqs := h.freqs ++ [fs]
      hams := h.hams ++ [⟨h.terms.length, h.freqs.length, d, x⟩]
      ints := h.ints ++ [ext, num]
      models := h.models ++ [⟨l, T, h.hams.length, c, h.ints.length, h.ints.length + 1, ae, nt⟩] } := by
  have s' := s.addHamObj ts fs d x
  have hd := s.defaults.2.2
  refine ⟨⟨s'.defaults.1, s'.defaults.2.1, s'.defaults.2.2.1, by simp⟩, s'.hamRange, s'.hamPos, s'.hamInj, ?_, ?_, ?_⟩
  · intro a o ho
    rcases get_snoc ho with ho | ⟨-, rfl⟩
    · have := s.range a o ho
      simp only [List.length_append, List.length_cons, List.length_nil]
      omega
    · simp
  · intro a o ho
    rcases get_snoc ho with ho | ⟨-, rfl⟩
    · exact s.own a o ho
    · simp only; omega
  · intro a b o o' ho ho' hne
    rcases get_snoc ho with ho | ⟨rfl, rfl⟩ <;> rcases get_snoc ho' with ho' | ⟨rfl, rfl⟩
    · exact s.inj a b o o' ho ho' hne
    · have := s.range a o ho; simp only; omega
    · have := s.range b o' ho'; simp only; omega
    · exact absurd rfl hne

theorem addModelObj_view (s : Sep h) (ts : List (SingleTerm R)) (fs : List R) (d : Nat) (x : R) (ext num : List Int)
    (l T : R) (c ae : Option Int) (nt : Nat) (b : Nat) (hb : b < h.models.length) :
    Heap.view { h with
      terms := h.terms ++ [ts]
      freqs := h.freqs ++ [fs]
      hams := h.hams ++ [⟨h.terms.length, h.freqs.length, d, x⟩]
      ints := h.ints ++ [ext, num]
      models := h.models ++ [⟨l, T, h.hams.length, c, h.ints.length, h.ints.length + 1, ae, nt⟩] } b = h.view b := by
  obtain ⟨h1, h2, h3, -⟩ := s.range b _ (List.getElem?_eq_getElem hb)
  refine view_frame (List.getElem?_eq_getElem hb) (get_append (List.getElem?_eq_getElem hb)) ?_
    (List.getElem?_append_left h2) (List.getElem?_append_left h3)
  obtain ⟨k1, k2⟩ := s.hamRange _ _ (List.getElem?_eq_getElem h1)
  exact ham_frame (List.getElem?_eq_getElem h1) (get_append (List.getElem?_eq_getElem h1))
    (List.getElem?_append_left k1) (List.getElem?_append_left k2)

theorem addModelObj_new (ts : List (SingleTerm R)) (fs : List R) (d : Nat) (x : R) (ext num : List Int)
    (l T : R) (c ae : Option Int) (nt : Nat) :
    Heap.view { h with
      terms := h.terms ++ [ts]
      freqs := h.freqs ++ [fs]
      hams := h.hams ++ [⟨h.terms.length, h.freqs.length, d, x⟩]
      ints := h.ints ++ [ext, num]
      models := h.models ++ [⟨l, T, h.hams.length, c, h.ints.length, h.ints.length + 1, ae, nt⟩] } h.models.length =
      some ⟨l, T, ⟨ts, fs, d, x⟩, c, ext, num, ae, nt⟩ := by
  unfold Heap.view Heap.ham
  simp

theorem Sep.newModel (s : Sep h) (l T : R) (H : Nat) (c : Option Int) (e n : Nat) (ae : Option Int) (nt : Nat) :
    Sep (h.newModel l T H c e n ae nt) := by
  rcases newModel_cases s l T H c e n ae nt with ⟨Hv, ext, num, -, -, -, he⟩ | he
  · rw [he]; exact s.addModelObj ..
  · rw [he]; exact s

theorem newModel_view (s : Sep h) (l T : R) (H : Nat) (c : Option Int) (e n : Nat) (ae : Option Int) (nt : Nat)
    (b : Nat) (hb : b < h.models.length) : (h.newModel l T H c e n ae nt).view b = h.view b := by
  rcases newModel_cases s l T H c e n ae nt with ⟨Hv, ext, num, -, -, -, he⟩ | he
  · rw [he]; exact addModelObj_view s _ _ _ _ _ _ _ _ _ _ _ b hb
  · rw [he]

theorem Sep.addInts (s : Sep h) (l : List (List Int)) : Sep { h with ints := h.ints ++ l } := by
  have hd := s.defaults
  refine ⟨⟨hd.1, hd.2.1, hd.2.2.1, by simp only [List.length_append]; omega⟩, s.hamRange, s.hamPos, s.hamInj, ?_,
    s.own, s.inj⟩
  intro a o ho
  have := s.range a o ho
  simp only [List.length_append]
  omega

theorem addInts_view (s : Sep h) (l : List (List Int)) (b : Nat) (hb : b < h.models.length) :
    Heap.view { h with ints := h.ints ++ l } b = h.view b := by
  obtain ⟨h1, h2, h3, -⟩ := s.range b _ (List.getElem?_eq_getElem hb)
  exact view_frame (List.getElem?_eq_getElem hb) (List.getElem?_eq_getElem hb) rfl
    (List.getElem?_append_left h2) (List.getElem?_append_left h3)

theorem Sep.fromParameters (s : Sep h) (x l T : R) (c : Option Int) (d : Nat) : Sep (h.fromParameters x l T c d) :=
  ((s.newHam 0 0 d x).addInts _).newModel ..

theorem newHam_models (h : Heap R) (t f d : Nat) (x : R) : (h.newHam t f d x).models = h.models := by
  unfold Heap.newHam
  split <;> rfl

theorem fromParameters_view (s : Sep h) (x l T : R) (c : Option Int) (d : Nat) (b : Nat) (hb : b < h.models.length) :
    (h.fromParameters x l T c d).view b = h.view b := by
  have s1 := s.newHam 0 0 d x
  have hb1 : b < (h.newHam 0 0 d x).models.length := by rw [newHam_models]; exact hb
  unfold Heap.fromParameters
  simp only
  rw [newModel_view (s1.addInts _) _ _ _ _ _ _ _ _ b hb1, addInts_view s1 _ b hb1, newHam_view s _ _ _ _ b hb]

/-! ### Changes in place -/

/-- what `Hamiltonian.add_` leaves alone -/
theorem hamAdd_frame (P : Prims R) (a : Nat) (ct : String) (idx : Int) (freq : R) (g? lam? : Option R) (mult : R) :
    let h' := (h.hamAdd P a ct idx freq g? lam? mult).1
    h'.hams = h.hams ∧ h'.models = h.models ∧ h'.ints = h.ints ∧ h'.terms.length = h.terms.length ∧
      h'.freqs.length = h.freqs.length ∧
      ∀ o, h.hams[a]? = some o → (∀ i, i ≠ o.terms → h'.terms[i]? = h.terms[i]?) ∧
        ∀ i, i ≠ o.freqs → h'.freqs[i]? = h.freqs[i]? := by
  intro h'
  show (h.hamAdd P a ct idx freq g? lam? mult).1.hams = h.hams ∧ _
  simp only [h']
  unfold Heap.hamAdd
  repeat' split
  all_goals try exact ⟨rfl, rfl, rfl, rfl, rfl, fun _ _ => ⟨fun _ _ => rfl, fun _ _ => rfl⟩⟩
  rename_i o ho _ _ _ _ _ ts _
  refine ⟨rfl, rfl, rfl, by simp, by simp, ?_⟩
  intro o' ho'
  rw [ho] at ho'
  cases ho'
  refine ⟨fun i hi => ?_, fun i hi => ?_⟩ <;> simp [List.getElem?_modify, Ne.symm hi]

theorem hamAdd_none (P : Prims R) (a : Nat) (ct : String) (idx : Int) (freq : R) (g? lam? : Option R) (mult : R)
    (ha : h.hams[a]? = none) : (h.hamAdd P a ct idx freq g? lam? mult).1 = h := by
  unfold Heap.hamAdd
  rw [ha]

theorem Sep.hamAdd (s : Sep h) (P : Prims R) (a : Nat) (ct : String) (idx : Int) (freq : R) (g? lam? : Option R)
    (mult : R) : Sep (h.hamAdd P a ct idx freq g? lam? mult).1 := by
  cases ha : h.hams[a]? with
  | none => rw [hamAdd_none P a ct idx freq g? lam? mult ha]; exact s
  | some oa =>
  obtain ⟨h1, h2, h3, h4, h5, h6⟩ := hamAdd_frame (h := h) P a ct idx freq g? lam? mult
  obtain ⟨k1, k2⟩ := h6 oa ha
  obtain ⟨p1, p2⟩ := s.hamPos a oa ha
  refine ⟨?_, ?_, ?_, ?_, ?_, ?_, ?_⟩
  · rw [k1 0 (Ne.symm p1), k2 0 (Ne.symm p2), h1, h3]; exact s.defaults
  · rw [h1, h4, h5]; exact s.hamRange
  · rw [h1]; exact s.hamPos
  · rw [h1]; exact s.hamInj
  · rw [h1, h2, h3]; exact s.range
  · rw [h2]; exact s.own
  · rw [h2]; exact s.inj

/-- adding to a Hamiltonian does not change a model with another one -/
theorem hamAdd_view (s : Sep h) (P : Prims R) (a : Nat) (ct : String) (idx : Int) (freq : R) (g? lam? : Option R)
    (mult : R) (b : Nat) (o : ModelObj R) (ho : h.models[b]? = some o) (hne : o.ham ≠ a) :
    (h.hamAdd P a ct idx freq g? lam? mult).1.view b = h.view b := by
  obtain ⟨h1, h2, h3, h4, h5, h6⟩ := hamAdd_frame (h := h) P a ct idx freq g? lam? mult
  cases ha : h.hams[a]? with
  | none => rw [hamAdd_none P a ct idx freq g? lam? mult ha]
  | some oa =>
    obtain ⟨k1, k2⟩ := h6 oa ha
    obtain ⟨r1, -⟩ := s.range b o ho
    have hob := List.getElem?_eq_getElem r1
    obtain ⟨q1, q2⟩ := s.hamInj _ _ _ _ hob ha hne
    refine view_frame ho (by rw [h2]; exact ho) ?_ (by rw [h3]) (by rw [h3])
    exact ham_frame hob (by rw [h1]; exact hob) (k1 _ q1) (k2 _ q2)

/-- what `Hamiltonian.add_` does to its own value -/
theorem hamAdd_value (s : Sep h) (P : Prims R) (a : Nat) (H : Hamiltonian R) (hH : h.ham a = some H) (ct : String)
    (idx : Int) (freq : R) (g? lam? : Option R) (mult : R) :
    match H.add P ct idx freq g? lam? mult with
    | .ok H' => (h.hamAdd P a ct idx freq g? lam? mult).2 = .ok () ∧
        (h.hamAdd P a ct idx freq g? lam? mult).1.ham a = some H'
    | .error e => (h.hamAdd P a ct idx freq g? lam? mult).2 = .error e ∧
        (h.hamAdd P a ct idx freq g? lam? mult).1 = h := by
  have hH0 := hH
  unfold Heap.ham at hH
  cases ho : h.hams[a]? with
  | none => rw [ho] at hH; cases hH
  | some o =>
    obtain ⟨r1, r2⟩ := s.hamRange a o ho
    rw [ho] at hH
    simp only [Option.bind_eq_bind, Option.bind_some] at hH
    rw [List.getElem?_eq_getElem r1, List.getElem?_eq_getElem r2] at hH
    simp only [Option.bind_some, Option.pure_def, Option.some.injEq] at hH
    have hop : o.hopping = H.hopping := by rw [← hH]
    unfold Hamiltonian.add Heap.hamAdd
    rw [ho]
    simp only [hop]
    by_cases hx : (g?.isSome ^^ lam?.isSome) = false
    · simp [hx]
    · rw [if_neg hx, if_neg hx]
      cases hs : Hamiltonian.strength P H.hopping ct freq g? lam? with
      | error e => cases e <;> simp [hH0]
      | ok g =>
        simp only
        cases ht : getSingleTerms ct (g * mult) idx freq with
        | error e => cases e <;> simp [hH0]
        | ok ts =>
          simp only
          refine ⟨trivial, ?_⟩
          unfold Heap.ham
          simp only [ho, Option.bind_eq_bind, Option.bind_some, List.getElem?_modify]
          rw [List.getElem?_eq_getElem r1, List.getElem?_eq_getElem r2]
          simp [← hH]

theorem Sep.modInts (s : Sep h) (a : Nat) (f : List Int → List Int) : Sep { h with ints := h.ints.modify a f } :=
  ⟨by simpa using s.defaults, s.hamRange, s.hamPos, s.hamInj, by simpa using s.range, s.own, s.inj⟩

/-- changing a list does not change a model that does not hold it -/
theorem append_view (a : Nat) (x : Int) (b : Nat) (o : ModelObj R) (ho : h.models[b]? = some o)
    (h1 : o.extent ≠ a) (h2 : o.number ≠ a) : (h.append a x).view b = h.view b := by
  refine view_frame ho ho rfl ?_ ?_ <;>
    simp [Heap.append, List.getElem?_modify, Ne.symm h1, Ne.symm h2]

/-- changing the numbers of a model object keeps separation -/
theorem Sep.modModel (s : Sep h) (a : Nat) (f : ModelObj R → ModelObj R)
    (hf : ∀ o, (f o).ham = o.ham ∧ (f o).extent = o.extent ∧ (f o).number = o.number) :
    Sep { h with models := h.models.modify a f } := by
  have key : ∀ (b : Nat) (o : ModelObj R), (h.models.modify a f)[b]? = some o →
      ∃ o', h.models[b]? = some o' ∧ o.ham = o'.ham ∧ o.extent = o'.extent ∧ o.number = o'.number := by
    intro b o ho
    rw [List.getElem?_modify] at ho
    obtain ⟨o', h1, rfl⟩ := Option.map_eq_some_iff.1 ho
    refine ⟨o', h1, ?_⟩
    split
    · exact hf o'
    · exact ⟨rfl, rfl, rfl⟩
  refine ⟨s.defaults, s.hamRange, s.hamPos, s.hamInj, ?_, ?_, ?_⟩
  · intro b o ho
    obtain ⟨o', h1, e1, e2, e3⟩ := key b o ho
    rw [e1, e2, e3]; exact s.range b o' h1
  · intro b o ho
    obtain ⟨o', h1, e1, e2, e3⟩ := key b o ho
    rw [e1, e2, e3]; exact s.own b o' h1
  · intro b c o q ho hq hne
    obtain ⟨o', h1, e1, e2, e3⟩ := key b o ho
    obtain ⟨q', k1, d1, d2, d3⟩ := key c q hq
    rw [e1, e2, e3, d1, d2, d3]; exact s.inj b c o' q' h1 k1 hne

theorem modModel_view (a : Nat) (f : ModelObj R → ModelObj R) (b : Nat) (hne : b ≠ a) :
    Heap.view { h with models := h.models.modify a f } b = h.view b := by
  unfold Heap.view
  simp only [List.getElem?_modify, Ne.symm hne, if_false, Option.map_eq_map, Option.map_id_fun', id_eq]
  rfl

theorem register_eq (a : Nat) (o : ModelObj R) (ho : h.models[a]? = some o) (M N : Int) :
    h.register a M N = { h with
      ints := (h.ints.modify o.extent (fun l => l ++ [M])).modify o.number (fun l => l ++ [N])
      models := h.models.modify a (fun o => { o with nTypes := o.nTypes + 1 }) } := by
  unfold Heap.register
  rw [ho]
  rfl

theorem Sep.register (s : Sep h) (a : Nat) (M N : Int) : Sep (h.register a M N) := by
  unfold Heap.register
  split
  · exact s
  · exact ((s.modInts _ _).modInts _ _).modModel a (fun o => { o with nTypes := o.nTypes + 1 })
      (fun _ => ⟨rfl, rfl, rfl⟩)

theorem register_view (s : Sep h) (a : Nat) (M N : Int) (b : Nat) (hb : b < h.models.length) (hne : b ≠ a) :
    (h.register a M N).view b = h.view b := by
  unfold Heap.register
  split
  · rfl
  · rename_i o ho
    simp only
    rw [modModel_view _ _ _ hne]
    have hob := List.getElem?_eq_getElem hb
    obtain ⟨-, i1, i2, i3, i4⟩ := s.inj b a _ _ hob ho hne
    rw [append_view _ _ b _ (h := h.append o.extent M) hob i2 i4, append_view _ _ b _ hob i1 i3]

/-- what registering does to the model itself -/
theorem register_value (s : Sep h) (a : Nat) (m : Model R) (hm : h.view a = some m) (M N : Int) :
    (h.register a M N).view a = some { m with
      extent := m.extent ++ [M], number := m.number ++ [N], nTypes := m.nTypes + 1 } := by
  cases ho : h.models[a]? with
  | none => unfold Heap.view at hm; rw [ho] at hm; cases hm
  | some o =>
    rw [register_eq a o ho]
    obtain ⟨r1, r2, r3, r4⟩ := s.range a o ho
    obtain ⟨H, hH⟩ := s.ham_some r1
    unfold Heap.view at hm ⊢
    rw [ho] at hm
    simp only [Option.bind_eq_bind, Option.bind_some, hH, List.getElem?_eq_getElem r2,
      List.getElem?_eq_getElem r3, Option.pure_def, Option.some.injEq] at hm
    subst hm
    have hH' : Heap.ham { h with
      ints := (h.ints.modify o.extent (fun l => l ++ [M])).modify o.number (fun l => l ++ [N])
      models := h.models.modify a (fun o => { o with nTypes := o.nTypes + 1 }) } o.ham = some H := hH
    simp only [List.getElem?_modify, ho, if_true, Option.map_eq_map, Option.map_some, Option.bind_eq_bind,
      Option.bind_some]
    rw [hH']
    simp [List.getElem?_eq_getElem r2, List.getElem?_eq_getElem r3, r4, Ne.symm r4]

theorem register_objs (a : Nat) (M N : Int) (b : Nat) (o : ModelObj R) (ho : h.models[b]? = some o) :
    ∃ o', (h.register a M N).models[b]? = some o' ∧ o'.ham = o.ham ∧ o'.extent = o.extent ∧ o'.number = o.number := by
  unfold Heap.register
  split
  · exact ⟨o, ho, rfl, rfl, rfl⟩
  · simp only [Heap.append, List.getElem?_modify, ho]
    split
    · exact ⟨_, rfl, rfl, rfl, rfl⟩
    · exact ⟨_, rfl, rfl, rfl, rfl⟩

theorem register_length (a : Nat) (M N : Int) : (h.register a M N).models.length = h.models.length := by
  unfold Heap.register
  split
  · rfl
  · simp [Heap.append]

theorem Sep.modelAdd (s : Sep h) (P : Prims R) (a : Nat) (x : AddArgs R) : Sep (h.modelAdd P a x).1 := by
  unfold Heap.modelAdd
  split
  · rename_i o m ho hm
    split
    · exact s
    · simp only
      split
      · rename_i h1 e he
        have : h1 = (h.hamAdd P o.ham x.ctype (m.callIndex x) x.freq x.g x.lam (m.tfdPrefactors P x.freq).1).1 := by
          rw [he]
        rw [this]; exact s.hamAdd ..
      · rename_i h1 he
        have : h1 = (h.hamAdd P o.ham x.ctype (m.callIndex x) x.freq x.g x.lam (m.tfdPrefactors P x.freq).1).1 := by
          rw [he]
        have s1 : Sep h1 := by rw [this]; exact s.hamAdd ..
        split
        · split
          · rename_i h3 e' he'
            have := congrArg Prod.fst he'
            simp only at this
            rw [← this]; exact (s1.register ..).hamAdd ..
          · rename_i h3 he'
            have := congrArg Prod.fst he'
            simp only at this
            have s3 : Sep h3 := by rw [← this]; exact (s1.register ..).hamAdd ..
            split
            · exact s3.register ..
            · exact s3
        · exact s1.register ..
  · exact s

/-- adding to a model does not change any other model -/
theorem modelAdd_view (s : Sep h) (P : Prims R) (a : Nat) (x : AddArgs R) (b : Nat) (hb : b < h.models.length)
    (hne : b ≠ a) : (h.modelAdd P a x).1.view b = h.view b := by
  have hob := List.getElem?_eq_getElem hb
  unfold Heap.modelAdd
  split
  · rename_i o m ho hm
    have hham : (h.models[b]).ham ≠ o.ham := (s.inj b a _ _ hob ho hne).1
    split
    · rfl
    · simp only
      split
      · rename_i h1 e he
        have := congrArg Prod.fst he
        simp only at this
        rw [← this]; exact hamAdd_view s P _ _ _ _ _ _ _ b _ hob hham
      · rename_i h1 he
        have e1 := congrArg Prod.fst he
        simp only at e1
        have s1 : Sep h1 := by rw [← e1]; exact s.hamAdd ..
        have v1 : h1.view b = h.view b := by rw [← e1]; exact hamAdd_view s P _ _ _ _ _ _ _ b _ hob hham
        have m1 : h1.models = h.models := by rw [← e1]; exact (hamAdd_frame P _ _ _ _ _ _ _).2.1
        have v2 : (h1.register a x.M x.N).view b = h.view b := by
          rw [register_view s1 _ _ _ b (by rw [m1]; exact hb) hne, v1]
        split
        · have s2 := s1.register a x.M x.N
          obtain ⟨o2, ho2, q1, -⟩ := register_objs (h := h1) a x.M x.N b _ (by rw [m1]; exact hob)
          have hv := fun idx freq mu => hamAdd_view s2 P o.ham x.ctype idx freq x.g x.lam mu b o2 ho2
            (by rw [q1]; exact hham)
          split
          · rename_i h3 e' he'
            have e3 := congrArg Prod.fst he'
            simp only at e3
            rw [← e3, hv, v2]
          · rename_i h3 he'
            have e3 := congrArg Prod.fst he'
            simp only at e3
            have s3 : Sep h3 := by rw [← e3]; exact s2.hamAdd ..
            have v3 : h3.view b = h.view b := by rw [← e3, hv, v2]
            have m3 : h3.models.length = h.models.length := by
              rw [← e3, (hamAdd_frame P _ _ _ _ _ _ _).2.1, register_length, m1]
            split
            · rw [register_view s3 _ _ _ b (by rw [m3]; exact hb) hne, v3]
            · exact v3
        · exact v2
  · rfl

theorem modelAdd_objs (s : Sep h) (P : Prims R) (a : Nat) (x : AddArgs R) (b : Nat) (o : ModelObj R)
    (ho : h.models[b]? = some o) :
    ∃ o', (h.modelAdd P a x).1.models[b]? = some o' ∧ o'.ham = o.ham ∧ o'.extent = o.extent ∧ o'.number = o.number := by
  unfold Heap.modelAdd
  split
  · rename_i oa m hoa hm
    split
    · exact ⟨o, ho, rfl, rfl, rfl⟩
    · simp only
      split
      · rename_i h1 e he
        have := congrArg Prod.fst he
        simp only at this
        rw [← this, (hamAdd_frame P _ _ _ _ _ _ _).2.1]; exact ⟨o, ho, rfl, rfl, rfl⟩
      · rename_i h1 he
        have e1 := congrArg Prod.fst he
        simp only at e1
        have m1 : h1.models = h.models := by rw [← e1]; exact (hamAdd_frame P _ _ _ _ _ _ _).2.1
        obtain ⟨o2, k1, k2, k3, k4⟩ := register_objs (h := h1) a x.M x.N b o (by rw [m1]; exact ho)
        split
        · split
          · rename_i h3 e' he'
            have e3 := congrArg Prod.fst he'
            simp only at e3
            rw [← e3, (hamAdd_frame P _ _ _ _ _ _ _).2.1]; exact ⟨o2, k1, k2, k3, k4⟩
          · rename_i h3 he'
            have e3 := congrArg Prod.fst he'
            simp only at e3
            have m3 : h3.models = (h1.register a x.M x.N).models := by
              rw [← e3]; exact (hamAdd_frame P _ _ _ _ _ _ _).2.1
            split
            · rename_i Mt Nt _ _
              obtain ⟨o4, q1, q2, q3, q4⟩ := register_objs (h := h3) a Mt Nt b o2 (by rw [m3]; exact k1)
              exact ⟨o4, q1, by rw [q2, k2], by rw [q3, k3], by rw [q4, k4]⟩
            · rw [m3]; exact ⟨o2, k1, k2, k3, k4⟩
        · exact ⟨o2, k1, k2, k3, k4⟩
  · exact ⟨o, ho, rfl, rfl, rfl⟩

/-- replacing the Hamiltonian's value inside a model's value -/
theorem view_of_ham {h h' : Heap R} {a : Nat} {m : Model R} {o : ModelObj R} (hm : h.view a = some m)
    (ho : h.models[a]? = some o) (hmod : h'.models = h.models) (hint : h'.ints = h.ints) {H' : Hamiltonian R}
    (hH : h'.ham o.ham = some H') : h'.view a = some { m with ham := H' } := by
  unfold Heap.view at hm ⊢
  rw [hmod, hint, ho]
  rw [ho] at hm
  simp only [Option.bind_eq_bind, Option.bind_some, hH] at hm ⊢
  cases h1 : h.ham o.ham with
  | none => rw [h1] at hm; cases hm
  | some H =>
    rw [h1] at hm
    simp only [Option.bind_some] at hm
    cases h2 : h.ints[o.extent]? with
    | none => rw [h2] at hm; cases hm
    | some ext =>
      rw [h2] at hm
      simp only [Option.bind_some] at hm
      cases h3 : h.ints[o.number]? with
      | none => rw [h3] at hm; cases hm
      | some num =>
        rw [h3] at hm
        simp only [Option.bind_some, Option.pure_def, Option.some.injEq] at hm
        subst hm
        rfl

theorem ham_of_view {a : Nat} {m : Model R} {o : ModelObj R} (hm : h.view a = some m)
    (ho : h.models[a]? = some o) : h.ham o.ham = some m.ham := by
  unfold Heap.view at hm
  rw [ho] at hm
  simp only [Option.bind_eq_bind, Option.bind_some] at hm
  cases h1 : h.ham o.ham with
  | none => rw [h1] at hm; cases hm
  | some H =>
    rw [h1] at hm
    simp only [Option.bind_some] at hm
    cases h2 : h.ints[o.extent]? with
    | none => rw [h2] at hm; cases hm
    | some ext =>
      rw [h2] at hm
      simp only [Option.bind_some] at hm
      cases h3 : h.ints[o.number]? with
      | none => rw [h3] at hm; cases hm
      | some num =>
        rw [h3] at hm
        simp only [Option.bind_some, Option.pure_def, Option.some.injEq] at hm
        subst hm
        rfl

theorem obj_of_view {a : Nat} {m : Model R} (hm : h.view a = some m) : ∃ o, h.models[a]? = some o := by
  cases ho : h.models[a]? with
  | none => unfold Heap.view at hm; rw [ho] at hm; cases hm
  | some o => exact ⟨o, rfl⟩

/-- `Model.add_` on the object does to its value what the value-level model does -/
theorem modelAdd_value (s : Sep h) (P : Prims R) (a : Nat) (m : Model R) (hm : h.view a = some m) (x : AddArgs R) :
    match m.add P x with
    | .ok m' => (h.modelAdd P a x).2 = .ok () ∧ (h.modelAdd P a x).1.view a = some m'
    | .error e => (h.modelAdd P a x).2 = .error e := by
  obtain ⟨o, ho⟩ := obj_of_view hm
  have hH := ham_of_view hm ho
  unfold Model.add Heap.modelAdd
  rw [ho, hm]
  simp only
  by_cases hr : m.addRejected x = true
  · simp only [hr, if_true]; exact ⟨trivial, hm⟩
  · rw [if_neg hr, if_neg hr]
    have hv := hamAdd_value s P o.ham m.ham hH x.ctype (m.callIndex x) x.freq x.g x.lam (m.tfdPrefactors P x.freq).1
    have fr := hamAdd_frame (h := h) P o.ham x.ctype (m.callIndex x) x.freq x.g x.lam (m.tfdPrefactors P x.freq).1
    have s1 := s.hamAdd P o.ham x.ctype (m.callIndex x) x.freq x.g x.lam (m.tfdPrefactors P x.freq).1
    generalize hq : h.hamAdd P o.ham x.ctype (m.callIndex x) x.freq x.g x.lam (m.tfdPrefactors P x.freq).1 = q
      at hv fr s1
    obtain ⟨h1, r1⟩ := q
    simp only at hv fr s1
    cases hadd : m.ham.add P x.ctype (m.callIndex x) x.freq x.g x.lam (m.tfdPrefactors P x.freq).1 with
    | error e =>
      rw [hadd] at hv
      simp only at hv
      obtain ⟨rfl, rfl⟩ := hv
      simp
    | ok H1 =>
      rw [hadd] at hv
      simp only at hv
      obtain ⟨rfl, hH1⟩ := hv
      simp only
      have v1 := view_of_ham hm ho fr.2.1 fr.2.2.1 hH1
      have v2 := register_value s1 a _ v1 x.M x.N
      have s2 := s1.register a x.M x.N
      have ho1 : h1.models[a]? = some o := by rw [fr.2.1]; exact ho
      obtain ⟨o2, k1, k2, k3, k4⟩ := register_objs (h := h1) a x.M x.N a o ho1
      by_cases ht : m.temperature > 0
      · rw [if_pos ht, if_pos ht]
        have hH2 := ham_of_view v2 k1
        rw [k2] at hH2
        simp only at hH2
        have hv := hamAdd_value s2 P o.ham H1 hH2 x.ctype (m.callIndex x + 1) (-x.freq) x.g x.lam
          (m.tfdPrefactors P x.freq).2
        have fr2 := hamAdd_frame (h := h1.register a x.M x.N) P o.ham x.ctype (m.callIndex x + 1) (-x.freq) x.g x.lam
          (m.tfdPrefactors P x.freq).2
        have s3 := s2.hamAdd P o.ham x.ctype (m.callIndex x + 1) (-x.freq) x.g x.lam (m.tfdPrefactors P x.freq).2
        generalize (h1.register a x.M x.N).hamAdd P o.ham x.ctype (m.callIndex x + 1) (-x.freq) x.g x.lam
          (m.tfdPrefactors P x.freq).2 = q2 at hv fr2 s3
        obtain ⟨h3, r3⟩ := q2
        simp only at hv fr2 s3
        cases hadd2 : H1.add P x.ctype (m.callIndex x + 1) (-x.freq) x.g x.lam (m.tfdPrefactors P x.freq).2 with
        | error e =>
          rw [hadd2] at hv
          simp only at hv
          obtain ⟨rfl, rfl⟩ := hv
          simp
        | ok H2 =>
          rw [hadd2] at hv
          simp only at hv
          obtain ⟨rfl, hH3⟩ := hv
          simp only
          have v3 := view_of_ham v2 k1 fr2.2.1 fr2.2.2.1 (by rw [k2]; exact hH3)
          cases hM : x.Mtfd with
          | none => simp
          | some Mt =>
            cases hN : x.Ntfd with
            | none => simp
            | some Nt =>
              simp only
              refine ⟨trivial, ?_⟩
              rw [register_value s3 a _ v3 Mt Nt]
      · rw [if_neg ht, if_neg ht]
        exact ⟨rfl, v2⟩

theorem Sep.newSystem (s : Sep h) (a : Nat) : Sep (h.newSystem a) := by
  unfold Heap.newSystem
  split
  · exact s.newModel ..
  · exact s

theorem newSystem_view (s : Sep h) (a b : Nat) (hb : b < h.models.length) : (h.newSystem a).view b = h.view b := by
  unfold Heap.newSystem
  split
  · exact newModel_view s _ _ _ _ _ _ _ _ b hb
  · rfl

theorem Sep.setEmpty (s : Sep h) (a : Nat) (x : Bool) : Sep (h.setEmpty a x) := by
  have s' := s.addInts [[]]
  have hd := s.defaults.2.2.2
  have key : ∀ (b : Nat) (o : ModelObj R), (h.setEmpty a x).models[b]? = some o →
      ∃ o', h.models[b]? = some o' ∧ o.ham = o'.ham ∧
        (o.extent = o'.extent ∧ o.number = o'.number ∨ b = a ∧ o.extent = h.ints.length ∧ o.number = o'.number ∨
          b = a ∧ o.extent = o'.extent ∧ o.number = h.ints.length) := by
    intro b o ho
    simp only [Heap.setEmpty] at ho
    rw [List.getElem?_modify] at ho
    obtain ⟨o', h1, rfl⟩ := Option.map_eq_some_iff.1 ho
    refine ⟨o', h1, ?_⟩
    split
    · rename_i e
      cases x <;> simp [e]
    · simp
  have hlen : (h.setEmpty a x).ints.length = h.ints.length + 1 := by simp [Heap.setEmpty]
  refine ⟨s'.defaults, s'.hamRange, s'.hamPos, s'.hamInj, ?_, ?_, ?_⟩
  · intro b o ho
    obtain ⟨o', h1, e1, e2⟩ := key b o ho
    have := s.range b o' h1
    rw [hlen, show (h.setEmpty a x).hams = h.hams from rfl, e1]
    omega
  · intro b o ho
    obtain ⟨o', h1, e1, e2⟩ := key b o ho
    have := s.own b o' h1
    rw [e1]
    omega
  · intro b c o q ho hq hne
    obtain ⟨o', h1, e1, e2⟩ := key b o ho
    obtain ⟨q', k1, d1, d2⟩ := key c q hq
    have i := s.inj b c o' q' h1 k1 hne
    have r1 := s.range b o' h1
    have r2 := s.range c q' k1
    rw [e1, d1]
    refine ⟨i.1, ?_⟩
    omega

theorem setEmpty_view (s : Sep h) (a : Nat) (x : Bool) (b : Nat) (hb : b < h.models.length) (hne : b ≠ a) :
    (h.setEmpty a x).view b = h.view b := by
  have := addInts_view s [[]] b hb
  rw [← this]
  exact modModel_view (h := { h with ints := h.ints ++ [[]] }) a _ b hne

/-! ### Edits of a Hamiltonian -/

theorem edit_some {a : Nat} {o : HamObj R} (ha : h.hams[a]? = some o) (ts : List (SingleTerm R)) (fs : List R) :
    h.edit a ts fs = { h with
      terms := h.terms.modify o.terms (fun _ => ts)
      freqs := h.freqs.modify o.freqs (fun _ => fs) } := by
  unfold Heap.edit; rw [ha]

theorem edit_none {a : Nat} (ha : h.hams[a]? = none) (ts : List (SingleTerm R)) (fs : List R) :
    h.edit a ts fs = h := by
  unfold Heap.edit; rw [ha]

theorem Sep.edit (s : Sep h) (a : Nat) (ts : List (SingleTerm R)) (fs : List R) : Sep (h.edit a ts fs) := by
  cases ha : h.hams[a]? with
  | none => rw [edit_none ha]; exact s
  | some o =>
    rw [edit_some ha]
    obtain ⟨p1, p2⟩ := s.hamPos a o ha
    refine ⟨?_, by simpa using s.hamRange, s.hamPos, s.hamInj, s.range, s.own, s.inj⟩
    simp only [List.getElem?_modify, if_neg p1, if_neg p2]
    simpa using s.defaults

/-- an edit of one Hamiltonian does not change another one -/
theorem edit_ham (s : Sep h) (a : Nat) (ts : List (SingleTerm R)) (fs : List R) (b : Nat) (hb : b < h.hams.length)
    (hne : b ≠ a) : (h.edit a ts fs).ham b = h.ham b := by
  cases ha : h.hams[a]? with
  | none => rw [edit_none ha]
  | some o =>
    have hob := List.getElem?_eq_getElem hb
    obtain ⟨q1, q2⟩ := s.hamInj _ _ _ _ hob ha hne
    rw [edit_some ha]
    refine ham_frame hob hob ?_ ?_
    · simp [List.getElem?_modify, Ne.symm q1]
    · simp [List.getElem?_modify, Ne.symm q2]

theorem edit_view (s : Sep h) (a : Nat) (ts : List (SingleTerm R)) (fs : List R) (b : Nat) (o : ModelObj R)
    (ho : h.models[b]? = some o) (hne : o.ham ≠ a) : (h.edit a ts fs).view b = h.view b := by
  have hm : (h.edit a ts fs).models = h.models ∧ (h.edit a ts fs).ints = h.ints := by
    unfold Heap.edit; split <;> exact ⟨rfl, rfl⟩
  exact view_frame ho (by rw [hm.1]; exact ho) (edit_ham s a ts fs _ (s.range b o ho).1 hne) (by rw [hm.2])
    (by rw [hm.2])

/-- every operation except assigning a Hamiltonian keeps objects apart -/
theorem Sep.run (s : Sep h) (P : Prims R) (op : Step R) (hop : ∀ a b, op ≠ .setHam a b) : Sep (op.run P h) := by
  cases op with
  | newHam t f d x => exact s.newHam ..
  | newModel l T H c e n ae nt => exact s.newModel ..
  | fromParameters x l T c d => exact s.fromParameters ..
  | newSystem a => exact s.newSystem ..
  | addHam a ct i f g l mu => exact s.hamAdd ..
  | addModel a x => exact s.modelAdd ..
  | appendInt a x => exact s.modInts ..
  | setNumbers a l T c ae nt => exact s.modModel _ _ (fun _ => ⟨rfl, rfl, rfl⟩)
  | setEmpty a b => exact s.setEmpty ..
  | setHam a b => exact absurd rfl (hop a b)
  | edit a ts fs => exact s.edit ..

/-- models are never destroyed -/
theorem run_models (s : Sep h) (P : Prims R) (op : Step R) : h.models.length ≤ (op.run P h).models.length := by
  cases op with
  | newHam t f d x => simp [Step.run, newHam_models]
  | newModel l T H c e n ae nt =>
    simp only [Step.run]
    rcases newModel_cases s l T H c e n ae nt with ⟨Hv, ext, num, -, -, -, he⟩ | he <;> rw [he]
    simp
  | fromParameters x l T c d =>
    simp only [Step.run, Heap.fromParameters]
    rcases newModel_cases ((s.newHam 0 0 d x).addInts [[], []]) l T _ c _ _ none 0 with
      ⟨Hv, ext, num, -, -, -, he⟩ | he <;> rw [he] <;> simp [newHam_models]
  | newSystem a =>
    simp only [Step.run, Heap.newSystem]
    split
    · rename_i o _
      rcases newModel_cases s o.latticeConstant o.temperature o.ham o.maxPerSite o.extent o.number o.absExtentOpt
        o.nTypes with ⟨Hv, ext, num, -, -, -, he⟩ | he <;> rw [he]
      simp
    · exact le_refl _
  | addHam a ct i f g l mu => simp only [Step.run]; rw [(hamAdd_frame P _ _ _ _ _ _ _).2.1]
  | addModel a x =>
    simp only [Step.run]
    rcases Nat.eq_zero_or_pos h.models.length with h0 | h0
    · omega
    · obtain ⟨o', h1, -⟩ := modelAdd_objs s P a x (h.models.length - 1) _
        (List.getElem?_eq_getElem (by omega : h.models.length - 1 < h.models.length))
      have := (List.getElem?_eq_some_iff.1 h1).1
      omega
  | appendInt a x => exact le_refl _
  | setNumbers a l T c ae nt => simp [Step.run, Heap.setNumbers]
  | setEmpty a b => simp [Step.run, Heap.setEmpty]
  | setHam a b => simp only [Step.run, Heap.setHam]; split <;> simp
  | edit a ts fs => simp only [Step.run, Heap.edit]; split <;> simp

/-- adding to a Hamiltonian does not change another one -/
theorem hamAdd_ham (s : Sep h) (P : Prims R) (a : Nat) (ct : String) (idx : Int) (freq : R) (g? lam? : Option R)
    (mult : R) (b : Nat) (hb : b < h.hams.length) (hne : b ≠ a) :
    (h.hamAdd P a ct idx freq g? lam? mult).1.ham b = h.ham b := by
  obtain ⟨h1, h2, h3, h4, h5, h6⟩ := hamAdd_frame (h := h) P a ct idx freq g? lam? mult
  cases ha : h.hams[a]? with
  | none => rw [hamAdd_none P a ct idx freq g? lam? mult ha]
  | some oa =>
    obtain ⟨k1, k2⟩ := h6 oa ha
    have hob := List.getElem?_eq_getElem hb
    obtain ⟨q1, q2⟩ := s.hamInj _ _ _ _ hob ha hne
    exact ham_frame hob (by rw [h1]; exact hob) (k1 _ q1) (k2 _ q2)

/-- the default arguments of `Model.__init__` are as they were at import -/
structure Intact (h : Heap R) : Prop where
  ham : h.ham 0 = some ⟨[], [], 1, 1⟩
  ints : h.ints[0]? = some [] ∧ h.ints[1]? = some []

theorem clean_initial : Intact (Heap.initial : Heap R) := ⟨rfl, rfl, rfl⟩

theorem Intact.addHamObj (s : Sep h) (c : Intact h) (ts : List (SingleTerm R)) (fs : List R) (d : Nat) (x : R) :
    Intact { h with
      terms := h.terms ++ [ts]
      freqs := h.freqs ++ [fs]
      hams := h.hams ++ [⟨h.terms.length, h.freqs.length, d, x⟩] } := by
  refine ⟨?_, c.ints⟩
  have h0 : 0 < h.hams.length := s.defaults.2.2.1
  obtain ⟨k1, k2⟩ := s.hamRange _ _ (List.getElem?_eq_getElem h0)
  rw [← c.ham]
  exact ham_frame (List.getElem?_eq_getElem h0) (get_append (List.getElem?_eq_getElem h0))
    (List.getElem?_append_left k1) (List.getElem?_append_left k2)

theorem Intact.addInts (c : Intact h) (l : List (List Int)) : Intact { h with ints := h.ints ++ l } :=
  ⟨c.ham, get_append c.ints.1, get_append c.ints.2⟩

theorem Intact.modModels (c : Intact h) (l : List (ModelObj R)) : Intact { h with models := l } := ⟨c.ham, c.ints⟩

theorem Intact.newHam (s : Sep h) (c : Intact h) (t f d : Nat) (x : R) : Intact (h.newHam t f d x) := by
  rcases newHam_cases h t f d x with ⟨ht, hf, he⟩ | he
  · rw [he]; exact c.addHamObj s _ _ d x
  · rw [he]; exact c

theorem Intact.newModel (s : Sep h) (c : Intact h) (l T : R) (H : Nat) (cut : Option Int) (e n : Nat)
    (ae : Option Int) (nt : Nat) : Intact (h.newModel l T H cut e n ae nt) := by
  rcases newModel_cases s l T H cut e n ae nt with ⟨Hv, ext, num, -, -, -, he⟩ | he
  · rw [he]; exact ((c.addHamObj s _ _ _ _).addInts _).modModels _
  · rw [he]; exact c

theorem Intact.append (c : Intact h) (a : Nat) (x : Int) (ha : 2 ≤ a) : Intact (h.append a x) := by
  refine ⟨c.ham, ?_, ?_⟩
  · rw [← c.ints.1]; simp [Heap.append, List.getElem?_modify, show a ≠ 0 by omega]
  · rw [← c.ints.2]; simp [Heap.append, List.getElem?_modify, show a ≠ 1 by omega]

theorem Intact.hamAdd (s : Sep h) (c : Intact h) (P : Prims R) (a : Nat) (ct : String) (idx : Int) (freq : R)
    (g? lam? : Option R) (mult : R) (ha : a ≠ 0) : Intact (h.hamAdd P a ct idx freq g? lam? mult).1 := by
  have fr := hamAdd_frame (h := h) P a ct idx freq g? lam? mult
  refine ⟨?_, by rw [fr.2.2.1]; exact c.ints⟩
  rw [hamAdd_ham s P a ct idx freq g? lam? mult 0 s.defaults.2.2.1 (Ne.symm ha)]
  exact c.ham

theorem Intact.register (s : Sep h) (c : Intact h) (a : Nat) (M N : Int) : Intact (h.register a M N) := by
  unfold Heap.register
  split
  · exact c
  · rename_i o ho
    have := s.own a o ho
    exact ((c.append _ M this.2.1).append _ N this.2.2).modModels _

theorem Intact.modelAdd (s : Sep h) (c : Intact h) (P : Prims R) (a : Nat) (x : AddArgs R) :
    Intact (h.modelAdd P a x).1 := by
  unfold Heap.modelAdd
  split
  · rename_i o m ho hm
    have h0 := (s.own a o ho).1
    split
    · exact c
    · simp only
      split
      · rename_i h1 e he
        have := congrArg Prod.fst he
        simp only at this
        rw [← this]; exact c.hamAdd s P _ _ _ _ _ _ _ h0
      · rename_i h1 he
        have := congrArg Prod.fst he
        simp only at this
        have s1 : Sep h1 := by rw [← this]; exact s.hamAdd ..
        have c1 : Intact h1 := by rw [← this]; exact c.hamAdd s P _ _ _ _ _ _ _ h0
        split
        · split
          · rename_i h3 e' he'
            have := congrArg Prod.fst he'
            simp only at this
            rw [← this]; exact (c1.register s1 ..).hamAdd (s1.register ..) P _ _ _ _ _ _ _ h0
          · rename_i h3 he'
            have := congrArg Prod.fst he'
            simp only at this
            have s3 : Sep h3 := by rw [← this]; exact (s1.register ..).hamAdd ..
            have c3 : Intact h3 := by
              rw [← this]; exact (c1.register s1 ..).hamAdd (s1.register ..) P _ _ _ _ _ _ _ h0
            split
            · exact c3.register s3 ..
            · exact c3
        · exact c1.register s1 ..
  · exact c

/-- only an operation on a default object itself changes it -/
theorem Intact.run (s : Sep h) (c : Intact h) (P : Prims R) (op : Step R)
    (h1 : ∀ ct i f g l mu, op ≠ .addHam 0 ct i f g l mu) (h2 : ∀ a x, op = .appendInt a x → 2 ≤ a)
    (h3 : ∀ ts fs, op ≠ .edit 0 ts fs) : Intact (op.run P h) := by
  cases op with
  | newHam t f d x => exact c.newHam s ..
  | newModel l T H c' e n ae nt => exact c.newModel s ..
  | fromParameters x l T c' d => exact ((c.newHam s 0 0 d x).addInts _).newModel ((s.newHam 0 0 d x).addInts _) ..
  | newSystem a =>
    simp only [Step.run, Heap.newSystem]
    split
    · exact c.newModel s ..
    · exact c
  | addHam a ct i f g l mu =>
    refine c.hamAdd s P _ _ _ _ _ _ _ ?_
    rintro rfl
    exact h1 _ _ _ _ _ _ rfl
  | addModel a x => exact c.modelAdd s P a x
  | appendInt a x => exact c.append a x (h2 a x rfl)
  | setNumbers a l T c' ae nt => exact c.modModels _
  | setEmpty a b => exact (c.addInts [[]]).modModels _
  | setHam a b => simp only [Step.run, Heap.setHam]; split; exacts [c.modModels _, c]
  | edit a ts fs =>
    have hi : (h.edit a ts fs).ints = h.ints := by unfold Heap.edit; split <;> rfl
    refine ⟨?_, by simp only [Step.run]; rw [hi]; exact c.ints⟩
    simp only [Step.run]
    rw [edit_ham s a ts fs 0 s.defaults.2.2.1]
    · exact c.ham
    · rintro rfl; exact h3 _ _ rfl

end GGCE.Mem
