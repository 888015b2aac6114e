import Verif.Proofs.Json
import Verif.Props.AbsExtent
import Verif.Props.Disk
import Verif.Spec.Json

/-!
Property C102: a model survives being written as JSON and read back.
-/

set_option linter.unusedSectionVars false

namespace GGCE.Props
open Spec Arr Sys

variable {R K : Type} [Field R] [LinearOrder R] [Field K]

theorem shapes_fit {ct : String} {s : List (Num × Num × Dag × Bool)} (h : termShapes ct = some s) :
    ∀ x ∈ s, x.1.Fits ∧ x.2.1.Fits := by
  unfold termShapes at h
  split at h
  · cases h; simp [Num.Fits, Num.int]
  split at h
  · cases h; simp [Num.Fits, Num.int]
  split at h
  · cases h; simp [Num.Fits, Num.int]
  split at h
  · cases h; simp [Num.Fits, Num.int]
  · cases h

theorem termsOf_fit (ct : String) (g : R) (idx : Nat) (freq : R) :
    ∀ t ∈ termsOf ct g idx freq, t.psi.Fits ∧ t.phi.Fits := by
  unfold termsOf
  cases h : termShapes ct with
  | none => simp
  | some s =>
    intro t ht
    simp only [Option.getD_some, List.mem_map] at ht
    obtain ⟨x, hx, rfl⟩ := ht
    exact shapes_fit h x hx

theorem ham_add_fits {P : Prims R} {H H' : Hamiltonian R} {ct : String} {idx : Int} {freq : R}
    {g? lam? : Option R} {mult : R} (h : H.add P ct idx freq g? lam? mult = .ok H') (hf : H.Fits) : H'.Fits := by
  rcases ham_add_cases P H H' ct idx freq g? lam? mult h with rfl | ⟨-, -, g, -, rfl⟩
  · exact hf
  · intro t ht
    rcases List.mem_append.1 ht with ht | ht
    · exact hf t ht
    · exact termsOf_fit _ _ _ _ t ht

theorem step_fits {P : Prims R} {m m' : Model R} {o : ModelOp R} (h : m.step P o = .ok m') (hf : m.ham.Fits) :
    m'.ham.Fits := by
  cases o with
  | add a =>
    have h' : m.add P a = .ok m' := h
    rcases add_cases h' with ⟨-, rfl⟩ | ⟨-, H1, h1, ⟨-, rfl⟩ | ⟨-, H2, Mt, Nt, -, -, h2, rfl⟩⟩
    · exact hf
    · exact ham_add_fits h1 hf
    · exact ham_add_fits h2 (ham_add_fits h1 hf)
  | temperature x =>
    cases x with
    | none => cases h; exact hf
    | some x => cases h; unfold Model.setTemperature; split <;> exact hf
  | latticeConstant x =>
    cases x with
    | none => cases h; exact hf
    | some x => cases h; unfold Model.setLatticeConstant; split <;> exact hf
  | absExtent x =>
    cases h
    unfold Model.setAbsExtent
    split <;> exact hf
  | maxPerSite x => cases x <;> cases h; exact hf
  | extent b => cases b <;> cases h; exact hf
  | number b => cases b <;> cases h; exact hf

theorem run_fits {P : Prims R} : ∀ (os : List (ModelOp R)) {m m' : Model R}, m.run P os = .ok m' → m.ham.Fits → m'.ham.Fits
  | [], m, m', h, hf => by cases h; exact hf
  | o :: os, m, m', h, hf => by
    unfold Model.run at h
    cases h1 : m.step P o with
    | error e => rw [h1] at h; cases h
    | ok m1 =>
      rw [h1] at h
      exact run_fits os h (step_fits h1 hf)

theorem sameAttributes_jsonRT (m : Model R) : SameAttributes m m.jsonRT :=
  ⟨rfl, rfl, rfl, rfl, rfl, rfl, absExtent_jsonRT m, rfl⟩

/-- **C102**. Whatever was done to a model that began with `from_parameters`, writing it as JSON does not fail, reading that
back does not fail, and gives a model with the same public attributes, which is written as the same JSON, and for which the
same system of equations is built. -/
theorem C102_round_trip (P : Prims R) (hopping lattice T : R) (cap : Option Int) (dim : Nat) (os : List (ModelOp R))
    (m : Model R) (h : (Model.fromParameters hopping lattice T cap dim).run P os = .ok m) :
    ∃ j m', m.toJson = .ok j ∧ Model.fromDict j = .ok m' ∧ SameAttributes m m' ∧ m'.toJson = .ok j ∧
      ∀ σ : SetOrder, buildSystem σ m' = buildSystem σ m := by
  have hf : m.ham.Fits := run_fits os h (by intro t ht; cases ht)
  refine ⟨m.tree, m.jsonRT, toJson_model m, fromDict_tree m hf, sameAttributes_jsonRT m, ?_, fun σ => buildSystem_jsonRT σ m⟩
  rw [toJson_model]
  unfold Model.tree
  rw [absExtent_jsonRT]
  rfl

/-- **C102**. Two models that are written as the same JSON have the same public attributes. -/
theorem C102_distinct (P P' : Prims R) (hopping lattice T : R) (cap : Option Int) (dim : Nat) (os : List (ModelOp R))
    (hopping' lattice' T' : R) (cap' : Option Int) (dim' : Nat) (os' : List (ModelOp R)) (m m' : Model R)
    (h : (Model.fromParameters hopping lattice T cap dim).run P os = .ok m)
    (h' : (Model.fromParameters hopping' lattice' T' cap' dim').run P' os' = .ok m') (e : m.toJson = m'.toJson) :
    SameAttributes m m' := by
  have hf : m.ham.Fits := run_fits os h (by intro t ht; cases ht)
  have hf' : m'.ham.Fits := run_fits os' h' (by intro t ht; cases ht)
  rw [toJson_model, toJson_model] at e
  injection e with e
  have h1 := fromDict_tree m hf
  rw [e, fromDict_tree m' hf'] at h1
  injection h1 with h1
  have s := sameAttributes_jsonRT m
  have s' := sameAttributes_jsonRT m'
  rw [h1] at s'
  exact ⟨s'.lattice.symm.trans s.lattice, s'.temperature.symm.trans s.temperature, s'.ham.symm.trans s.ham,
    s'.cap.symm.trans s.cap, s'.extent.symm.trans s.extent, s'.number.symm.trans s.number, s'.abs.symm.trans s.abs,
    s'.types.symm.trans s.types⟩

/-- **C102**. A Hamiltonian, and each of its terms, is restored exactly. -/
theorem C102_hamiltonian (P : Prims R) (hopping lattice T : R) (cap : Option Int) (dim : Nat) (os : List (ModelOp R))
    (m : Model R) (h : (Model.fromParameters hopping lattice T cap dim).run P os = .ok m) :
    (∃ j, m.ham.toJson = .ok j ∧ Hamiltonian.fromDict j = .ok m.ham) ∧
      ∀ t ∈ m.ham.terms, ∃ j, t.toJson = .ok j ∧ SingleTerm.fromDict j = .ok t := by
  have hf : m.ham.Fits := run_fits os h (by intro t ht; cases ht)
  refine ⟨⟨_, toJson_ham _, ?_⟩, fun t ht => ⟨_, toJson_term t, ?_⟩⟩
  · have e := decodeFields_ham m.ham hf _ rfl
    unfold Hamiltonian.tree Hamiltonian.fromDict
    simp only [e, bind_ok, ofKw_ham]
  · have e := decodeFields_term t (hf t ht).1 (hf t ht).2 _ rfl
    unfold SingleTerm.tree SingleTerm.fromDict
    simp only [e, bind_ok, ofKw_term]

/-- replace the private absolute extent -/
def withAbs (x : Option Int) (m : Model R) : Model R := { m with absExtentOpt := x }

theorem add_withAbs (P : Prims R) (x : Option Int) (m : Model R) (a : AddArgs R) :
    (withAbs x m).add P a = (m.add P a).map (withAbs x) := by
  unfold Model.add
  have e : (withAbs x m).addRejected a = m.addRejected a := rfl
  have e2 : (withAbs x m).tfdPrefactors P a.freq = m.tfdPrefactors P a.freq := rfl
  have e3 : (withAbs x m).callIndex a = m.callIndex a := rfl
  have e4 : (withAbs x m).ham = m.ham := rfl
  have e5 : (withAbs x m).temperature = m.temperature := rfl
  rw [e, e2, e3, e4, e5]
  split
  · rfl
  · simp only
    cases m.ham.add P a.ctype (m.callIndex a) a.freq a.g a.lam (m.tfdPrefactors P a.freq).1 with
    | error e => rfl
    | ok H =>
      simp only
      split
      · cases H.add P a.ctype (m.callIndex a + 1) (-a.freq) a.g a.lam (m.tfdPrefactors P a.freq).2 with
        | error e => rfl
        | ok H2 =>
          simp only
          cases a.Mtfd <;> cases a.Ntfd <;> rfl
      · rfl

theorem adds_withAbs (P : Prims R) (x : Option Int) : ∀ (as : List (AddArgs R)) (m : Model R),
    (withAbs x m).adds P as = (m.adds P as).map (withAbs x)
  | [], m => rfl
  | a :: as, m => by
    unfold Model.adds
    rw [add_withAbs]
    cases m.add P a with
    | error e => rfl
    | ok m1 => exact adds_withAbs P x as m1

theorem adds_extent {P : Prims R} : ∀ (as : List (AddArgs R)) {m m' : Model R}, m.adds P as = .ok m' →
    m'.absExtentOpt = m.absExtentOpt ∧ m.extent <+: m'.extent
  | [], m, m', h => by cases h; exact ⟨rfl, List.prefix_rfl⟩
  | a :: as, m, m', h => by
    unfold Model.adds at h
    cases h1 : m.add P a with
    | error e => rw [h1] at h; cases h
    | ok m1 =>
      rw [h1] at h
      obtain ⟨e1, e2⟩ := adds_extent as h
      refine ⟨e1.trans (add_fixed h1).2.2.2.2.1, ?_⟩
      refine List.IsPrefix.trans ?_ e2
      rcases add_cases h1 with ⟨-, rfl⟩ | ⟨-, H1, h1, ⟨-, rfl⟩ | ⟨-, H2, Mt, Nt, -, -, h2, rfl⟩⟩
      · exact List.prefix_rfl
      · exact List.prefix_append _ _
      · rw [List.append_assoc]
        exact List.prefix_append _ _

theorem max?_prefix {l l' : List Int} (h : l <+: l') (hl : l ≠ []) :
    l'.max? = l.max? ↔ ∀ e ∈ l', ∃ e' ∈ l, e ≤ e' := by
  cases h0 : l.max? with
  | none => exact absurd (List.max?_eq_none_iff.1 h0) hl
  | some x =>
    have hx := List.max?_eq_some_iff.1 h0
    rw [List.max?_eq_some_iff]
    constructor
    · rintro ⟨-, h2⟩ e he
      exact ⟨x, hx.1, h2 e he⟩
    · intro h2
      refine ⟨h.subset hx.1, fun e he => ?_⟩
      obtain ⟨e', he', hle⟩ := h2 e he
      exact hle.trans (hx.2 e' he')

/-- **C102**. Adding couplings to the restored model: the calls fail exactly when they fail for the original, with the same
exception; otherwise the two models agree in everything except perhaps the absolute extent, and in that exactly when it was
set explicitly, or there was no coupling at the time of writing, or no extent added since is larger than all extents present
at the time of writing. -/
theorem C102_later (P P' : Prims R) (hopping lattice T : R) (cap : Option Int) (dim : Nat) (os : List (ModelOp R))
    (m r : Model R) (j : Json R) (h : (Model.fromParameters hopping lattice T cap dim).run P os = .ok m)
    (hj : m.toJson = .ok j) (hr : Model.fromDict j = .ok r) (as : List (AddArgs R)) :
    (∀ e, r.adds P' as = .error e ↔ m.adds P' as = .error e) ∧
    ∀ m1, m.adds P' as = .ok m1 → ∃ r1, r.adds P' as = .ok r1 ∧
      r1.latticeConstant = m1.latticeConstant ∧ r1.temperature = m1.temperature ∧ r1.ham = m1.ham ∧
      r1.maxPerSite = m1.maxPerSite ∧ r1.extent = m1.extent ∧ r1.number = m1.number ∧ r1.nTypes = m1.nTypes ∧
      (r1.absExtent = m1.absExtent ↔
        m.absExtentOpt ≠ none ∨ m.extent = [] ∨ ∀ e ∈ m1.extent, ∃ e' ∈ m.extent, e ≤ e') := by
  have hf : m.ham.Fits := run_fits os h (by intro t ht; cases ht)
  rw [toJson_model] at hj
  injection hj with hj
  subst hj
  rw [fromDict_tree m hf] at hr
  injection hr with hr
  subst hr
  have e : m.jsonRT.adds P' as = (m.adds P' as).map (withAbs m.absExtent) := adds_withAbs P' m.absExtent as m
  rw [e]
  refine ⟨fun x => ?_, fun m1 h1 => ?_⟩
  · cases m.adds P' as with
    | error y => simp [Except.map]
    | ok m1 => simp [Except.map]
  · rw [h1]
    refine ⟨withAbs m.absExtent m1, rfl, rfl, rfl, rfl, rfl, rfl, rfl, rfl, ?_⟩
    obtain ⟨e1, e2⟩ := adds_extent as h1
    unfold Model.absExtent withAbs
    simp only
    cases h0 : m.absExtentOpt with
    | some x => rw [h0] at e1; simp [e1]
    | none =>
      rw [h0] at e1
      simp only [e1, ne_eq, not_true_eq_false, false_or]
      cases hm : m.extent with
      | nil => simp
      | cons y ys =>
        rw [← hm, ← max?_prefix e2 (by rw [hm]; simp)]
        have : m.extent.max? ≠ none := by rw [hm]; simp
        cases hx : m.extent.max? with
        | none => exact absurd hx this
        | some x =>
          simp only [hm, reduceCtorEq, false_or]
          rw [eq_comm]

/-! ### Examples -/

/-- the statements of the example: a coupling with half-integer shifts at finite temperature, an explicit absolute extent and
a changed temperature -/
def exJsonOps : List (ModelOp ℚ) :=
  [.absExtent (some 4), .add { ctype := "BondPeierls", freq := 1, M := 2, N := 3, Mtfd := some 1, Ntfd := some 1, g := some 1 },
    .temperature (some (1/2)), .maxPerSite (some (some 2))]

example : ((Model.fromParameters (1 : ℚ) 1 1 none 1).run exPrimsQ exJsonOps).map
    (fun m => (m.ham.terms.length, m.absExtentOpt, m.extent, m.temperature, m.maxPerSite)) =
      .ok (8, some 4, [2, 1], 1/2, some 2) := by decide +kernel

/-- both sides of the equivalence in `C102_later` occur -/
def exJsonAdds (M : Int) : List (AddArgs ℚ) := [{ ctype := "Holstein", freq := 2, M := M, N := 1, g := some 1 }]

example : (do
    let m ← (Model.fromParameters (1 : ℚ) 1 0 none 1).run exPrimsQ
      [.add { ctype := "Holstein", freq := 1, M := 2, N := 2, g := some 1 }]
    let m1 ← m.adds exPrimsQ (exJsonAdds 3)
    let m2 ← m.adds exPrimsQ (exJsonAdds 1)
    pure (m.absExtentOpt, m.extent, m1.extent, m2.extent) : Py _) = .ok (none, [2], [2, 3], [2, 1]) := by decide +kernel

/-! ### files that were not written by the library -/

/-- the arguments of the constructors of the three classes -/
def termArgs : List String := ["coupling_type", "psi", "phi", "dag", "coupling", "phonon_index", "phonon_frequency"]
def hamArgs : List String := ["terms", "phonon_frequencies", "dimension", "hopping"]
def modelArgs : List String := ["lattice_constant", "temperature", "hamiltonian", "phonon_max_per_site", "phonon_extent",
  "phonon_number", "phonon_absolute_extent", "n_phonon_types"]

theorem kwcheck_unknown {args : List String} {kw : List (String × PyVal R)} {k : String} {v : PyVal R}
    (h : (k, v) ∈ kw) (hk : k ∉ args) : kwcheck args kw = .error .typeError := by
  unfold kwcheck
  rw [if_neg]
  intro hc
  have := List.all_eq_true.1 hc _ h
  exact hk (by simpa using this)

/-- **C102**, misspelt entries. One entry whose name is not an argument of the constructor is refused, whatever the
other entries are: nothing is silently ignored. -/
theorem C102_unknown (kw : List (String × PyVal R)) (k : String) (v : PyVal R) (h : (k, v) ∈ kw) :
    (k ∉ termArgs → SingleTerm.ofKw kw = .error .typeError) ∧
    (k ∉ hamArgs → Hamiltonian.ofKw kw = .error .typeError) ∧
    (k ∉ modelArgs → Model.ofKw kw = .error .typeError) := by
  refine ⟨fun hk => ?_, fun hk => ?_, fun hk => ?_⟩
  · unfold SingleTerm.ofKw
    have := kwcheck_unknown h hk
    unfold termArgs at this
    rw [this]; rfl
  · unfold Hamiltonian.ofKw
    have := kwcheck_unknown h hk
    unfold hamArgs at this
    rw [this]; rfl
  · unfold Model.ofKw
    have := kwcheck_unknown h hk
    unfold modelArgs at this
    rw [this]; rfl

theorem decodeFields_key : ∀ {d : List (String × Json R)} {kw : List (String × PyVal R)}, decodeFields d = .ok kw →
    ∀ {k : String} {j : Json R}, (k, j) ∈ d → metaKey k = false → ∃ v, (k, v) ∈ kw
  | [], _, _, _, _, hm, _ => by cases hm
  | (k', j') :: d, kw, h, k, j, hm, hk => by
    unfold decodeFields at h
    by_cases hk' : metaKey k' = true
    · rw [if_pos hk'] at h
      rcases List.mem_cons.1 hm with e | hm
      · cases e
        rw [hk] at hk'; cases hk'
      · exact decodeFields_key h hm hk
    · rw [if_neg hk'] at h
      cases hv : decode j' with
      | error e => rw [hv] at h; cases h
      | ok v =>
        rw [hv] at h
        cases hr : decodeFields d with
        | error e => rw [hr] at h; cases h
        | ok r =>
          rw [hr] at h
          cases h
          rcases List.mem_cons.1 hm with e | hm
          · cases e
            exact ⟨v, by simp⟩
          · obtain ⟨v', hv'⟩ := decodeFields_key hr hm hk
            exact ⟨v', by simp [hv']⟩

/-- C102, the same in a file: a model file with an entry that is not an argument of `Model` is never read as a model. -/
theorem C102_unknown_file (d : List (String × Json R)) (k : String) (j : Json R) (h : (k, j) ∈ d)
    (hm : metaKey k = false) (hk : k ∉ modelArgs) (m : Model R) : Model.fromDict (.obj d) ≠ .ok m := by
  intro hc
  have hc : (decodeFields d >>= Model.ofKw) = .ok m := hc
  cases hd : decodeFields d with
  | error e => rw [hd] at hc; cases hc
  | ok kw =>
    rw [hd] at hc
    obtain ⟨v, hv⟩ := decodeFields_key hd h hm
    have hc' : Model.ofKw kw = .ok m := hc
    rw [(C102_unknown kw k v hv).2.2 hk] at hc'
    cases hc'

/-- the number that a JSON number literal denotes -/
def literal : Json R → Option R
  | .int n => some n
  | .num x => some x
  | .halves n => some (n / 2)
  | _ => none

/-- the number that a Python number or the entry of an array denotes (`tw` counts halves) -/
def denoted : PyVal R → Option R
  | .int n => some n
  | .num x => some x
  | .ndarray a => some (a.tw / 2)
  | _ => none

/-- **C102**, numbers written by hand. A number is read with its value, and so is the entry of an array of floats,
written with a decimal point or not; an array of integers written with a decimal point is cut off towards zero. -/
theorem C102_numbers [CharZero R] (j : Json R) (x : R) (h : literal j = some x) :
    (∃ v, decode j = .ok v ∧ denoted v = some x) ∧
    ((∀ y, j ≠ .num y) → ∃ a, decodeArray [("dtype", .str "float64"), ("data", .arr [j])] = .ok (.ndarray a) ∧
      a.flt = true ∧ (a.tw : R) / 2 = x) ∧
    (∀ n : Int, j = .int n → decodeArray [("dtype", .str "int64"), ("data", .arr [j])] = .ok (.ndarray ⟨false, 2 * n⟩)) ∧
    (∀ n : Int, j = .halves n →
      decodeArray [("dtype", .str "int64"), ("data", .arr [j])] = .ok (.ndarray ⟨false, 2 * (n.tdiv 2)⟩)) := by
  cases j with
  | int n =>
    have hx : (n : R) = x := by simpa [literal] using h
    refine ⟨⟨_, rfl, h⟩, fun _ => ⟨_, rfl, rfl, ?_⟩, fun m e => ?_, fun m e => (by cases e)⟩
    · rw [← hx]; push_cast; field_simp
    · cases e; rfl
  | num y =>
    refine ⟨⟨_, rfl, h⟩, fun hc => absurd rfl (hc y), fun m e => (by cases e), fun m e => (by cases e)⟩
  | halves n =>
    have hx : (n : R) / 2 = x := by simpa [literal] using h
    refine ⟨⟨_, rfl, h⟩, fun _ => ⟨_, rfl, rfl, hx⟩, fun m e => (by cases e), fun m e => ?_⟩
    cases e; rfl
  | _ => simp [literal] at h

/-- a model file with the hopping in the wrong place, and the same file without it -/
example (m : Model ℚ) :
    Model.fromDict (.obj [("@module", .str "ggce.model"), ("@class", .str "Model"), ("hopping", .num 1)]) ≠ .ok m :=
  C102_unknown_file _ "hopping" (.num 1) (by simp) (by decide) (by decide) m

example : (Model.fromDict (.obj [("@module", .str "ggce.model"), ("@class", .str "Model"), ("temperature", .halves 5)]) :
    Py (Model ℚ)).map (fun m => m.temperature) = .ok (5 / 2) := by decide +kernel

example : literal (.halves (-3) : Json ℚ) = some (-3 / 2) := by decide +kernel

end GGCE.Props
