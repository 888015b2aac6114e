import Verif.Model.TermJson
import Verif.Props.ConfigND

/-! Property C126: a phonon configuration survives being written as JSON and read back. -/

namespace GGCE.Props
open Spec

variable {R : Type}

theorem npShapeList_const {S : List Nat} : ∀ {l : List (Json R)}, l ≠ [] → (∀ j ∈ l, npShape j = some S) →
    npShapeList l = some (l.length :: S)
  | [], h, _ => absurd rfl h
  | [j], _, h => by
    rw [npShapeList.eq_def]
    simp [h j (by simp)]
  | j :: j' :: l, _, h => by
    have ih := npShapeList_const (l := j' :: l) (by simp) (fun x hx => h x (List.mem_cons_of_mem _ hx))
    rw [npShapeList.eq_def]
    simp [h j (by simp), ih]

theorem npShape_nest : ∀ {d : Nat} (s : Fin d → Nat) (f : (Fin d → Nat) → Int), (∀ j, 0 < s j) →
    npShape (nest s f : Json R) = some (List.ofFn s)
  | 0, s, f, _ => by
    unfold nest
    rw [npShape.eq_def]
    simp
  | d + 1, s, f, h => by
    unfold nest
    rw [npShape.eq_def]
    simp only
    rw [npShapeList_const (S := List.ofFn (fun j : Fin d => s j.succ))]
    · simp [List.ofFn_succ]
    · have := h 0
      intro hc
      rw [List.map_eq_nil_iff, List.range_eq_nil] at hc
      omega
    · intro j hj
      obtain ⟨p, -, rfl⟩ := List.mem_map.1 hj
      exact npShape_nest _ _ (fun j => h j.succ)

theorem npEntry_nest : ∀ {d : Nat} (s : Fin d → Nat) (f : (Fin d → Nat) → Int) (i : Fin d → Nat), (∀ j, i j < s j) →
    npEntry (nest s f : Json R) (List.ofFn i) = f i
  | 0, s, f, i, _ => by
    unfold nest
    rw [npEntry.eq_def]
    exact congrArg f (funext fun j => j.elim0)
  | d + 1, s, f, i, h => by
    unfold nest
    rw [List.ofFn_succ, npEntry.eq_def]
    simp only
    rw [List.getElem?_map, List.getElem?_range (h 0)]
    simp only [Option.map_some]
    rw [npEntry_nest _ _ (fun j => i j.succ) (fun j => h j.succ)]
    congr 1
    exact Fin.cons_self_tail i

theorem sigma_cast (s : List Nat) (d : Nat) (h : s.length = d) (n : Nat) (f : List Nat → Int) :
    (⟨s.length, ⟨n, s.get, fun t i => f (t :: List.ofFn i)⟩⟩ : Sigma NArr) =
      ⟨d, ⟨n, fun k => s.get (k.cast h.symm), fun t i => f (t :: List.ofFn i)⟩⟩ := by
  subst h; rfl

theorem npArray_tolist {d : Nat} (a : NArr d) (ht : 0 < a.types) (hs : ∀ j, 0 < a.shape j) :
    ∃ a' : NArr d, npArray (a.tolist : Json R) = .ok (some ⟨d, a'⟩) ∧ a'.types = a.types ∧ a'.shape = a.shape ∧
      ∀ t < a.types, ∀ i : Fin d → Nat, (∀ j, i j < a.shape j) → a'.val t i = a.val t i := by
  have hsh : npShape (a.tolist : Json R) = some (a.types :: List.ofFn a.shape) := by
    unfold NArr.tolist
    rw [npShape.eq_def]
    simp only
    rw [npShapeList_const (S := List.ofFn a.shape)]
    · simp
    · intro hc
      rw [List.map_eq_nil_iff, List.range_eq_nil] at hc
      omega
    · intro j hj
      obtain ⟨p, -, rfl⟩ := List.mem_map.1 hj
      exact npShape_nest _ _ hs
  have hlen : (List.ofFn a.shape).length = d := by simp
  refine ⟨⟨a.types, fun k => (List.ofFn a.shape).get (k.cast hlen.symm),
    fun t i => npEntry (a.tolist : Json R) (t :: List.ofFn i)⟩, ?_, rfl, ?_, ?_⟩
  · unfold npArray
    rw [hsh]
    simp only
    rw [sigma_cast _ d hlen]
  · funext j
    simp
  · intro t ht i hi
    show npEntry (a.tolist : Json R) (t :: List.ofFn i) = _
    unfold NArr.tolist
    rw [npEntry.eq_def]
    simp only
    rw [List.getElem?_map, List.getElem?_range ht]
    exact npEntry_nest _ _ i hi

theorem same_of_values {d : Nat} {a a' : NArr d} (h1 : a'.types = a.types) (h2 : a'.shape = a.shape)
    (h3 : ∀ t < a.types, ∀ i : Fin d → Nat, (∀ j, i j < a.shape j) → a'.val t i = a.val t i) : SameND a a' := by
  refine ⟨h1.symm, fun j => (congrFun h2 j).symm, fun t x => ?_⟩
  unfold lattice
  rw [h1, h2]
  by_cases h : t < a.types ∧ ∀ j, 0 ≤ x j ∧ x j < a.shape j
  · rw [if_pos h, if_pos h, h3 t h.1 _ (fun j => by have := h.2 j; omega)]
  · rw [if_neg h, if_neg h]

theorem new_ok {d : Nat} {a : NArr d} {c : NConfig d} {m n : Nat} (h : NConfig.new a m n = .ok c) : c = ⟨a, m, n⟩ := by
  unfold NConfig.new at h
  cases hv : a.validate with
  | error e => rw [hv] at h; cases h
  | ok u => rw [hv] at h; cases h; rfl

theorem fromDict_toJson {d : Nat} (c : NConfig d) : configFromDict (c.toJson : Json R) = (do
    let a ← npArray (c.arr.tolist : Json R)
    (ConfigVal.array a).new c.maxMods c.mods) := by
  have g1 : natArg (R := R) [("@module", .str "ggce.engine.terms"), ("@class", .str "Config"),
      ("config", .obj [("@module", .str "numpy"), ("@class", .str "array"), ("dtype", .str "int64"),
        ("data", c.arr.tolist)]),
      ("max_modifications", .int c.maxMods), ("modifications", .int c.mods)] "max_modifications" 1 = .ok c.maxMods := by
    simp [natArg, Dict.get?]
  have g2 : natArg (R := R) [("@module", .str "ggce.engine.terms"), ("@class", .str "Config"),
      ("config", .obj [("@module", .str "numpy"), ("@class", .str "array"), ("dtype", .str "int64"),
        ("data", c.arr.tolist)]),
      ("max_modifications", .int c.maxMods), ("modifications", .int c.mods)] "modifications" 0 = .ok c.mods := by
    simp [natArg, Dict.get?]
  unfold configFromDict NConfig.toJson
  simp only [g1, g2]
  rw [if_neg (by simp [metaKey])]
  rfl

/-- **C126**. Every configuration that can be constructed and has no empty axis, in any number of dimensions and at any stage
of its budget, is read back from its JSON with the same array, the same budget, the same number of modifications and
the same identifier. -/
theorem C126_round_trip_partial {d : Nat} (hd : 1 ≤ d) (c : NConfig d) (hc : NConfig.new c.arr c.maxMods c.mods = .ok c)
    (ht : 0 < c.arr.types) (hs : ∀ j, 0 < c.arr.shape j) :
    ∃ c' : NConfig d, configFromDict (c.toJson : Json R) = .ok ⟨d, c'⟩ ∧ SameND c.arr c'.arr ∧
      c'.maxMods = c.maxMods ∧ c'.mods = c.mods ∧ c'.arr.str = c.arr.str := by
  obtain ⟨a', h1, h2, h3, h4⟩ := npArray_tolist (R := R) c.arr ht hs
  have hsame := same_of_values h2 h3 h4
  have hok : CloudND c.arr ∨ ∀ t x, lattice c.arr t x = 0 := by
    by_contra hn
    rw [(C62_construct hd c.arr hs c.maxMods c.mods).2 hn] at hc
    cases hc
  have hok' : CloudND a' ∨ ∀ t x, lattice a' t x = 0 := by
    rcases hok with h | h
    · refine Or.inl ⟨fun t x => ?_, fun j => ?_, fun j => ?_⟩
      · rw [← hsame.entries]; exact h.nonneg t x
      · obtain ⟨t, x, hx, hx'⟩ := h.first j
        exact ⟨t, x, by rwa [← hsame.entries], hx'⟩
      · obtain ⟨t, x, hx, hx'⟩ := h.last j
        exact ⟨t, x, by rwa [← hsame.entries], by rw [hx', hsame.shape j]⟩
    · exact Or.inr (fun t x => by rw [← hsame.entries]; exact h t x)
  have hnew := (C62_construct hd a' (fun j => by rw [h3]; exact hs j) c.maxMods c.mods).1 hok'
  refine ⟨⟨a', c.maxMods, c.mods⟩, ?_, hsame, rfl, rfl, ?_⟩
  · rw [fromDict_toJson, h1]
    show (ConfigVal.array (some ⟨d, a'⟩)).new c.maxMods c.mods = _
    unfold ConfigVal.new
    simp only
    rw [hnew]
    rfl
  · unfold NArr.str
    have := (C62_identifiers a' c.arr (fun t x => ?_) (fun t x => ?_)).2 (Or.inr ⟨hsame.types.symm,
      fun j => (hsame.shape j).symm, fun t x => (hsame.entries t x).symm⟩)
    · exact this
    · rcases hok' with h | h
      · exact h.nonneg t x
      · rw [h t x]
    · rcases hok with h | h
      · exact h.nonneg t x
      · rw [h t x]

/-- **C126**, in use: after any history of additions and removals (as in `C62_histories`), finished or with budget left, the
configuration is one that survives. -/
theorem C126_histories_partial {d : Nat} (hd : 1 ≤ d) (ops : List OpND) (c c' : NConfig d) (hc : CloudND c.arr ∨ VacuumND c.arr)
    (h : runOpsND ops c = .ok c')
    (hv : ∀ pre op post c₁, ops = pre ++ op :: post → runOpsND pre c = .ok c₁ → VacuumND c₁.arr →
      ∀ idx, op = .add idx → ∀ j < d, idx[j + 1]? = some 0) (ht : 0 < c'.arr.types) :
    ∃ c₂ : NConfig d, configFromDict (c'.toJson : Json R) = .ok ⟨d, c₂⟩ ∧ SameND c'.arr c₂.arr ∧
      c₂.maxMods = c'.maxMods ∧ c₂.mods = c'.mods ∧ c₂.arr.str = c'.arr.str := by
  have hcv := C62_histories ops c c' hc h hv
  have hs : ∀ j, 0 < c'.arr.shape j := by
    rcases hcv with hcl | hva
    · intro j
      obtain ⟨t, x, hx, -⟩ := hcl.first j
      unfold lattice at hx
      split at hx
      · rename_i hin
        have := hin.2 j
        omega
      · exact absurd rfl hx
    · intro j
      rw [hva.shape j]
      exact one_pos
  refine C126_round_trip_partial hd c' ?_ ht hs
  exact (C62_construct hd c'.arr hs c'.maxMods c'.mods).1 (hcv.imp id (fun hva => hva.empty))

/-- nested lists of integers with the given lengths, axis by axis: what numpy accepts as an array of that shape -/
def Rectangular : List Nat → Json R → Prop
  | [], j => ∃ n, j = .int n
  | n :: s, j => ∃ l, j = .arr l ∧ l.length = n ∧ ∀ x ∈ l, Rectangular s x

mutual
theorem npShape_rectangular : ∀ (j : Json R) (s : List Nat), npShape j = some s → Rectangular s j
  | .int n, s, h => by
    simp only [npShape, Option.some.injEq] at h
    subst h
    exact ⟨n, rfl⟩
  | .arr l, s, h => by
    simp only [npShape] at h
    obtain ⟨n, s', rfl, h1, h2⟩ := npShapeList_rectangular l s h
    exact ⟨l, rfl, h1, h2⟩
  | .null, s, h => by simp [npShape] at h
  | .num _, s, h => by simp [npShape] at h
  | .halves _, s, h => by simp [npShape] at h
  | .str _, s, h => by simp [npShape] at h
  | .obj _, s, h => by simp [npShape] at h
theorem npShapeList_rectangular : ∀ (l : List (Json R)) (s : List Nat), npShapeList l = some s →
    ∃ n s', s = n :: s' ∧ l.length = n ∧ ∀ x ∈ l, Rectangular s' x
  | [], s, h => by
    simp only [npShapeList, Option.some.injEq] at h
    exact ⟨0, [], h.symm, rfl, by simp⟩
  | j :: l, s, h => by
    rw [npShapeList] at h
    split at h
    · rename_i he
      obtain rfl : l = [] := by simpa using he
      obtain ⟨s', hs, rfl⟩ := Option.map_eq_some_iff.1 h
      exact ⟨1, s', rfl, rfl, by simpa using npShape_rectangular j s' hs⟩
    · split at h
      · rename_i s1 n s2 h1 h2
        have hj := npShape_rectangular j s1 h1
        have hl := npShapeList_rectangular l _ h2
        split at h
        · rename_i he
          subst he
          obtain ⟨n', s', e, h3, h4⟩ := hl
          obtain ⟨en, es⟩ := List.cons.inj e
          refine ⟨n + 1, s1, (Option.some.inj h).symm, by rw [List.length_cons, h3, en], by
            intro x hx
            rcases List.mem_cons.1 hx with rfl | hx
            · exact hj
            · exact es ▸ h4 x hx⟩
        · simp at h
      · simp at h
end

/-- **C126**, what is read: a configuration is made only from a dictionary with no keyword that the constructor does not have,
and only from nested lists of integers that form an array; the shape is that of the lists. Anything else is an exception. -/
theorem C126_accepted (o : List (String × Json R)) (c : Sigma NConfig) (h : configFromDict (.obj o) = .ok c) :
    (∀ x ∈ o, metaKey x.1 = true ∨ x.1 = "config" ∨ x.1 = "max_modifications" ∨ x.1 = "modifications") ∧
      ∃ j data, Dict.get? o "config" = some j ∧ arrayData j = some data ∧
        Rectangular (c.2.arr.types :: List.ofFn c.2.arr.shape) data := by
  rw [configFromDict] at h
  by_cases hk : o.all (fun x => metaKey x.1 || decide (x.1 ∈ ["config", "max_modifications", "modifications"])) = true
  · rw [if_neg (not_not.2 hk)] at h
    refine ⟨fun x hx => by simpa using List.all_eq_true.1 hk x hx, ?_⟩
    rcases hj : Dict.get? o "config" with _ | j
    · simp [hj] at h
    rcases hdata : arrayData j with _ | data
    · simp [hj, hdata] at h
    refine ⟨j, data, rfl, hdata, ?_⟩
    simp only [hj, hdata] at h
    rcases hs : npShape data with _ | s
    · simp [npArray, hs, bind, Except.bind] at h
    have hr := npShape_rectangular _ _ hs
    rcases hm : natArg o "max_modifications" 1 with e | m
    · cases s <;> simp [npArray, hs, hm, bind, Except.bind] at h
    rcases hn : natArg o "modifications" 0 with e | n
    · cases s <;> simp [npArray, hs, hm, hn, bind, Except.bind] at h
    rcases s with _ | ⟨k, s⟩
    · simp [npArray, hs, hm, hn, bind, Except.bind, ConfigVal.new] at h
    · simp only [npArray, hs, hm, hn, bind, Except.bind, ConfigVal.new, NConfig.new] at h
      split at h
      · simp at h
      · rename_i c' hc'
        split at hc'
        · simp at hc'
        · obtain rfl := Except.ok.inj hc'
          obtain rfl := Except.ok.inj h
          simpa [List.ofFn_get] using hr
  · rw [if_pos hk] at h
    simp at h

/-- lists of different lengths are refused, and so is a keyword that the constructor does not have -/
example : configFromDict (.obj [("config", .arr [.arr [.int 1, .int 0], .arr [.int 1]])] : Json ℚ) = .error .valueError ∧
    configFromDict (.obj [("config", .arr [.arr [.int 1]]), ("cofig", .null)] : Json ℚ) = .error .typeError :=
  ⟨rfl, rfl⟩

/-- a dictionary that meets the premise: one phonon on one site -/
example : ∃ c, configFromDict (NConfig.toJson (⟨⟨1, fun _ : Fin 1 => 1, fun _ _ => 1⟩, 1, 0⟩) : Json ℚ) = .ok c := by
  obtain ⟨c, h, -⟩ := C126_round_trip_partial (R := ℚ) le_rfl
    (⟨⟨1, fun _ : Fin 1 => 1, fun _ _ => 1⟩, 1, 0⟩) (by rfl) Nat.one_pos (fun _ => Nat.one_pos)
  exact ⟨_, h⟩

/-- **C126**, the part that fails. No term survives: reading back the JSON of a term of any class is a `TypeError`, because the
constructor wants the array and is given the `Config`. -/
theorem C126_term_fails {d : Nat} (hd : 1 ≤ d) (c : NConfig d) (hc : NConfig.new c.arr c.maxMods c.mods = .ok c)
    (ht : 0 < c.arr.types) (hs : ∀ j, 0 < c.arr.shape j) (cls : String) (rest : List (String × Json R)) :
    termFromDict (termToJson cls c rest) = .error .typeError := by
  obtain ⟨c', h, -⟩ := C126_round_trip_partial (R := R) hd c hc ht hs
  have e : termFromDict (termToJson cls c rest) = (do
      let v ← decodeConfig (c.toJson : Json R)
      v.new 1 0) := rfl
  have e2 : decodeConfig (c.toJson : Json R) = (do
      let v ← configFromDict (c.toJson : Json R)
      .ok (.config v)) := rfl
  rw [e, e2, h]
  rfl

/-- **C126**, the part that fails without phonon types: the array with no rows is a legal configuration, but its JSON is the empty
list, which has lost its axes. -/
theorem C126_no_types_fails : ∃ c : NConfig 1, NConfig.new c.arr c.maxMods c.mods = .ok c ∧
    configFromDict (c.toJson : Json R) = .error .abort := by
  refine ⟨⟨⟨0, fun _ => 1, fun _ _ => 0⟩, 1, 0⟩, rfl, ?_⟩
  rw [fromDict_toJson]
  have h : npShape ((⟨0, fun _ => 1, fun _ _ => 0⟩ : NArr 1).tolist : Json R) = some [0] := by
    unfold NArr.tolist
    rw [npShape.eq_def]
    simp [npShapeList.eq_def]
  unfold npArray
  rw [h]
  rfl

/-- **C126**, dictionaries that are not written to a text hold the array itself: adding a phonon inside the cloud afterwards also
adds it to what is read from the dictionary, and that configuration still has its budget. -/
theorem C126_dictionary_fails : ∃ (c : NConfig 1) (idx : List Int) (c' : NConfig 1) (s : Option (Fin 1 → Int)),
    c.addPhonon idx = .ok (c', s) ∧ ¬ SameND c.arr (dictAfterAdd c idx).arr ∧
      SameND c'.arr (dictAfterAdd c idx).arr ∧ (dictAfterAdd c idx).mods = 0 ∧ c'.mods = 1 := by
  refine ⟨⟨⟨1, fun _ => 1, fun _ _ => 2⟩, 1, 0⟩, [0, 0], _, _, rfl, fun h => ?_, ⟨rfl, fun _ => rfl, fun _ _ => rfl⟩, rfl, rfl⟩
  have := h.entries 0 (fun _ => 0)
  revert this
  decide +kernel

/-- the hypotheses are met by a two-dimensional cloud whose budget is spent -/
example : NConfig.new (arr2 [[[0, 1], [1, 0]]] 2 2) 1 1 = .ok ⟨arr2 [[[0, 1], [1, 0]]] 2 2, 1, 1⟩ ∧
    0 < (arr2 [[[0, 1], [1, 0]]] 2 2).types ∧ ∀ j, 0 < (arr2 [[[0, 1], [1, 0]]] 2 2).shape j := by
  refine ⟨?_, by decide, by decide⟩
  rfl

end GGCE.Props
