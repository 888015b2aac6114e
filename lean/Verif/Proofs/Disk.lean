import Verif.Model.Disk
import Verif.Proofs.Build

/-!
Lemmas about the checkpoint directory.
-/

set_option linter.unusedSectionVars false

namespace GGCE

variable {R : Type} [Field R] [LinearOrder R]

/-! ### The disk -/

@[simp] theorem FS.at_put (fs : FS R) (r : String) (d : Dir R) : (fs.put r d).at r = d := by
  simp [FS.at, FS.put]

@[simp] theorem FS.put_put (fs : FS R) (r : String) (d d' : Dir R) : (fs.put r d).put r d' = fs.put r d' := by
  funext q
  simp only [FS.put]
  split <;> rfl

theorem FS.at_put_ne (fs : FS R) {r q : String} (h : q ≠ r) (d : Dir R) : (fs.put r d).at q = fs.at q := by
  simp [FS.at, FS.put, h]

namespace Io
variable {α β : Type}

theorem bind_ok {x : Io R α} {f : α → Io R β} {fs : FS R} {a : α} (h : (x fs).result = .ok a) :
    (x >>= f) fs = ⟨(f a (x fs).fs).result, (f a (x fs).fs).fs, (x fs).states ++ (f a (x fs).fs).states⟩ := by
  show andThen x f fs = _
  unfold andThen
  rw [h]

theorem bind_error {x : Io R α} {f : α → Io R β} {fs : FS R} {e : Err} (h : (x fs).result = .error e) :
    (x >>= f) fs = ⟨.error e, (x fs).fs, (x fs).states⟩ := by
  show andThen x f fs = _
  unfold andThen
  rw [h]

theorem pure_apply (a : α) (fs : FS R) : (pure a : Io R α) fs = ⟨.ok a, fs, []⟩ := rfl

/-- `x` keeps `P`: it holds in every state the disk goes through -/
def Keeps (P : FS R → Prop) (x : Io R α) : Prop := ∀ fs, P fs → P (x fs).fs ∧ ∀ s ∈ (x fs).states, P s

theorem Keeps.bind {P : FS R → Prop} {x : Io R α} {f : α → Io R β} (hx : Keeps P x) (hf : ∀ a, Keeps P (f a)) :
    Keeps P (x >>= f) := by
  intro fs hP
  obtain ⟨h1, h2⟩ := hx fs hP
  cases hr : (x fs).result with
  | error e => rw [bind_error hr]; exact ⟨h1, h2⟩
  | ok a =>
    rw [bind_ok hr]
    obtain ⟨h3, h4⟩ := hf a _ h1
    refine ⟨h3, fun s hs => ?_⟩
    rcases List.mem_append.1 hs with h | h
    · exact h2 s h
    · exact h4 s h

theorem Keeps.pure {P : FS R → Prop} (a : α) : Keeps P (Pure.pure a : Io R α) := fun _ h => ⟨h, by simp [pure_apply]⟩
theorem Keeps.lift {P : FS R → Prop} (x : Py α) : Keeps P (Io.lift x : Io R α) := fun _ h => ⟨h, by simp [Io.lift]⟩
theorem Keeps.look {P : FS R → Prop} (r : String) : Keeps P (Io.look r : Io R _) := fun _ h => ⟨h, by simp [Io.look]⟩
theorem Keeps.load {P : FS R → Prop} (f : Option (File β)) : Keeps P (Io.load f : Io R _) := by
  intro fs h
  match f with
  | none => exact ⟨h, by simp [Io.load, ret]⟩
  | some .torn => exact ⟨h, by simp [Io.load, Io.lift]⟩
  | some (.full a) => exact ⟨h, by simp [Io.load, ret]⟩

end Io

/-! ### Results do not depend on the disk -/

namespace Sys

theorem saveModel_ok (s : Sys R) (fs : FS R) : (s.saveModel fs).result = .ok () := by
  unfold saveModel
  cases s.root <;> rfl

theorem saveAttr_ok {β : Type} (r : String) (get : Dir R → Option (File β)) (upd : File β → Dir R → Dir R)
    (obj : Option β) (fs : FS R) : (saveAttr r get upd obj fs).result = .ok () := by
  unfold saveAttr
  cases obj with
  | none => rfl
  | some b =>
    simp only
    rw [Io.bind_ok (a := fs.at r) rfl]
    simp only
    split <;> rfl

theorem checkpoint_ok (s : Sys R) (fs : FS R) : (s.checkpoint fs).result = .ok () := by
  unfold checkpoint
  cases s.root with
  | none => rfl
  | some r =>
    simp only
    split
    · rfl
    · rw [Io.bind_ok (saveAttr_ok ..), Io.bind_ok (saveAttr_ok ..)]
      exact saveAttr_ok ..

/-- what `prime` returns -/
def primed (σ : SetOrder) (s : Sys R) : Py (Sys R) :=
  (primeGens σ s).bind fun s1 => (primeEqs s1).bind fun s2 => match s2.eqs with
    | none => .error .attributeError
    | some e => (finalChecks e).bind fun _ => .ok s2

theorem prime_result (σ : SetOrder) (s : Sys R) (fs : FS R) : (s.prime σ fs).result = primed σ s := by
  unfold prime primed
  cases h1 : primeGens σ s with
  | error e => rw [Io.bind_error (e := e) (by simp [Io.lift])]; rfl
  | ok s1 =>
    rw [Io.bind_ok (a := s1) (by simp [Io.lift]), Io.bind_ok (checkpoint_ok ..)]
    simp only [Except.bind]
    cases h2 : primeEqs s1 with
    | error e => rw [Io.bind_error (e := e) (by simp [Io.lift])]
    | ok s2 =>
      rw [Io.bind_ok (a := s2) (by simp [Io.lift]), Io.bind_ok (checkpoint_ok ..)]
      simp only
      cases s2.eqs with
      | none => rfl
      | some e =>
        simp only
        cases h3 : finalChecks e with
        | error e' => rw [Io.bind_error (e := e') (by simp [Io.lift])]
        | ok u => rw [Io.bind_ok (a := u) (by simp [Io.lift])]; rfl

theorem init_result (σ : SetOrder) (s : Sys R) (fs : FS R) : (s.init σ true fs).result = primed σ s := by
  unfold init
  cases s.root with
  | none =>
    simp only
    rw [Io.bind_ok (saveModel_ok ..)]
    exact prime_result ..
  | some r =>
    simp only
    rw [Io.bind_ok (a := ()) rfl, Io.bind_ok (saveModel_ok ..)]
    exact prime_result ..

/-! ### The model after a round trip through the file -/

theorem absExtent_jsonRT (m : Model R) : m.jsonRT.absExtent = m.absExtent := by
  unfold Model.jsonRT Model.absExtent
  cases m.absExtentOpt with
  | some x => rfl
  | none => cases h : m.extent.max? <;> simp [h]

theorem jsonRT_jsonRT (m : Model R) : m.jsonRT.jsonRT = m.jsonRT := by
  unfold Model.jsonRT
  have := absExtent_jsonRT m
  unfold Model.jsonRT at this
  rw [this]

theorem creTerms_jsonRT (m : Model R) (a : Arr) (h : SingleTerm R) (row : List Int) :
    creTerms m.jsonRT a h row = creTerms m a h row := by
  unfold creTerms
  rw [absExtent_jsonRT]
  rfl

theorem initTerms_jsonRT (m : Model R) (a : Arr) (hs : List (SingleTerm R)) :
    initTerms m.jsonRT a hs = initTerms m a hs := by
  induction hs with
  | nil => rfl
  | cons h hs ih =>
    unfold initTerms
    simp only [creTerms_jsonRT, ih]
    rfl

theorem mkEquation_jsonRT (m : Model R) (a : Arr) : mkEquation m.jsonRT a = mkEquation m a := by
  unfold mkEquation
  rw [initTerms_jsonRT]
  rfl

theorem initGeneralized_jsonRT (σ : SetOrder) (m : Model R) (confs : Dict Nat (List Arr)) :
    initGeneralized σ m.jsonRT confs = initGeneralized σ m confs := by
  unfold initGeneralized
  simp only [mkEquation_jsonRT]
  rfl

theorem generateAll_jsonRT (m : Model R) : generateAll m.jsonRT = generateAll m := by
  unfold generateAll configsOfNumber
  rw [absExtent_jsonRT]
  rfl

theorem buildSystem_jsonRT (σ : SetOrder) (m : Model R) : buildSystem σ m.jsonRT = buildSystem σ m := by
  unfold buildSystem
  rw [generateAll_jsonRT]
  simp only [initGeneralized_jsonRT]

/-! ### What priming gives -/

/-- the steps of a successful construction -/
theorem buildSystem_steps {σ : SetOrder} {m : Model R} {b : Built R} (hb : buildSystem σ m = .ok b) :
    ∃ confs, generateAll m = .ok confs ∧ initGeneralized σ m confs = .ok (b.gens, b.fargs) ∧
      initEquations b.gens b.fargs = .ok b.eqs ∧ finalChecks b.eqs = .ok () := by
  unfold buildSystem at hb
  cases h1 : generateAll m with
  | error e => rw [h1] at hb; cases hb
  | ok confs =>
    rw [h1] at hb
    simp only [bind, Except.bind] at hb
    cases h2 : initGeneralized σ m confs with
    | error e => rw [h2] at hb; cases hb
    | ok gf =>
      obtain ⟨g, f⟩ := gf
      rw [h2] at hb
      simp only at hb
      cases h3 : initEquations g f with
      | error e => rw [h3] at hb; cases hb
      | ok e =>
        rw [h3] at hb
        simp only at hb
        cases h4 : finalChecks e with
        | error e' => rw [h4] at hb; cases hb
        | ok u =>
          rw [h4] at hb
          cases hb
          exact ⟨confs, rfl, h2, h3, h4⟩

theorem primeGens_fresh {σ : SetOrder} {m : Model R} {b : Built R} (hb : buildSystem σ m = .ok b)
    (root : Option String) (lim : Int) : primeGens σ ⟨root, m, none, none, none, lim⟩ =
      .ok ⟨root, m, some b.gens, some b.fargs, none, lim⟩ := by
  obtain ⟨confs, h1, h2, -, -⟩ := buildSystem_steps hb
  unfold primeGens
  simp only [bind, Except.bind, h1, h2]
  rfl

theorem primeEqs_half {σ : SetOrder} {m : Model R} {b : Built R} (hb : buildSystem σ m = .ok b) (m' : Model R)
    (root : Option String) (lim : Int) : primeEqs ⟨root, m', some b.gens, some b.fargs, none, lim⟩ =
      .ok ⟨root, m', some b.gens, some b.fargs, some b.eqs, lim⟩ := by
  obtain ⟨confs, -, -, h3, -⟩ := buildSystem_steps hb
  unfold primeEqs
  simp only [bind, Except.bind, h3]
  rfl

/-- from nothing -/
theorem primed_fresh {σ : SetOrder} {m : Model R} {b : Built R} (hb : buildSystem σ m = .ok b)
    (root : Option String) (lim : Int) : primed σ ⟨root, m, none, none, none, lim⟩ =
      .ok ⟨root, m, some b.gens, some b.fargs, some b.eqs, lim⟩ := by
  obtain ⟨confs, -, -, -, h4⟩ := buildSystem_steps hb
  unfold primed
  rw [primeGens_fresh hb]
  simp only [Except.bind]
  rw [primeEqs_half hb]
  simp only [h4]

/-- from generalized equations and arguments -/
theorem primed_half {σ : SetOrder} {m : Model R} {b : Built R} (hb : buildSystem σ m = .ok b) (σ' : SetOrder)
    (m' : Model R) (root : Option String) (lim : Int) :
    primed σ' ⟨root, m', some b.gens, some b.fargs, none, lim⟩ =
      .ok ⟨root, m', some b.gens, some b.fargs, some b.eqs, lim⟩ := by
  obtain ⟨confs, -, -, -, h4⟩ := buildSystem_steps hb
  unfold primed primeGens
  simp only [Except.bind]
  rw [primeEqs_half hb]
  simp only [h4]

/-- from everything -/
theorem primed_full {σ : SetOrder} {m : Model R} {b : Built R} (hb : buildSystem σ m = .ok b) (σ' : SetOrder)
    (m' : Model R) (root : Option String) (lim : Int) :
    primed σ' ⟨root, m', some b.gens, some b.fargs, some b.eqs, lim⟩ =
      .ok ⟨root, m', some b.gens, some b.fargs, some b.eqs, lim⟩ := by
  obtain ⟨confs, -, -, -, h4⟩ := buildSystem_steps hb
  unfold primed primeGens primeEqs
  simp only [Except.bind, h4]

/-- generalized equations without arguments -/
theorem primed_gens_only (σ : SetOrder) (g : EqDict R) (m' : Model R) (root : Option String) (lim : Int) :
    primed σ ⟨root, m', some g, none, none, lim⟩ = .error .attributeError := by
  unfold primed primeGens primeEqs
  rfl

/-! ### Reading a checkpoint -/

/-- a complete file, if there is one -/
def complete {α : Type} (x : Option α) : Option (File α) := x.map File.full

theorem load_complete {α : Type} (x : Option α) : (Io.load (complete x) : Io R _) = Io.ret x := by
  cases x <;> rfl

theorem fromCheckpoint_result (σ : SetOrder) (r : String) (fs : FS R) (m : Model R) (g : Option (EqDict R))
    (f : Option FArgs) (e : Option (EqDict R))
    (h : fs.at r = ⟨some (.full m), complete g, complete f, complete e⟩) :
    (fromCheckpoint σ r fs).result = primed σ ⟨some r, m, g, f, e, 1000000⟩ := by
  unfold fromCheckpoint
  rw [Io.bind_ok (a := fs.at r) rfl, h]
  simp only [load_complete]
  rw [Io.bind_ok (a := g) rfl, Io.bind_ok (a := f) rfl, Io.bind_ok (a := e) rfl]
  exact init_result ..

theorem fromCheckpoint_no_model (σ : SetOrder) (r : String) (fs : FS R) (h : (fs.at r).model = none) :
    (fromCheckpoint σ r fs) = ⟨.error .abort, fs, []⟩ := by
  unfold fromCheckpoint
  rw [Io.bind_ok (a := fs.at r) rfl, h]
  rfl

theorem fromCheckpoint_torn_model (σ : SetOrder) (r : String) (fs : FS R) (h : (fs.at r).model = some .torn) :
    (fromCheckpoint σ r fs) = ⟨.error .valueError, fs, []⟩ := by
  unfold fromCheckpoint
  rw [Io.bind_ok (a := fs.at r) rfl, h]
  rfl

/-- an unfinished pickle makes the checkpoint unreadable -/
theorem fromCheckpoint_torn (σ : SetOrder) (r : String) (fs : FS R) (m : Model R)
    (hm : (fs.at r).model = some (.full m))
    (h : (fs.at r).gens = some .torn ∨ (fs.at r).fargs = some .torn ∨ (fs.at r).eqs = some .torn) :
    (fromCheckpoint σ r fs).result = .error .eofError := by
  unfold fromCheckpoint
  rw [Io.bind_ok (a := fs.at r) rfl, hm]
  simp only
  have key : ∀ {α : Type} (x : Option (File α)) (fs : FS R), (Io.load x : Io R _) fs = ⟨.error .eofError, fs, []⟩ ∨
      ∃ y, (Io.load x : Io R _) fs = ⟨.ok y, fs, []⟩ := by
    intro α x fs
    match x with
    | none => exact Or.inr ⟨none, rfl⟩
    | some .torn => exact Or.inl rfl
    | some (.full a) => exact Or.inr ⟨some a, rfl⟩
  have torn : ∀ {α : Type} (fs : FS R), (Io.load (some (File.torn (α := α))) : Io R _) fs = ⟨.error .eofError, fs, []⟩ :=
    fun _ => rfl
  simp only [Io.look]
  rcases key (fs.at r).gens fs with h1 | ⟨y1, h1⟩
  · rw [Io.bind_error (by rw [h1])]
  · rw [Io.bind_ok (a := y1) (by rw [h1]), h1]
    simp only
    rcases key (fs.at r).fargs fs with h2 | ⟨y2, h2⟩
    · rw [Io.bind_error (by rw [h2])]
    · rw [Io.bind_ok (a := y2) (by rw [h2]), h2]
      simp only
      rcases key (fs.at r).eqs fs with h3 | ⟨y3, h3⟩
      · rw [Io.bind_error (by rw [h3])]
      · exfalso
        rcases h with h | h | h
        · rw [h, torn] at h1; cases h1
        · rw [h, torn] at h2; cases h2
        · rw [h, torn] at h3; cases h3

/-! ### The writes of a construction -/

theorem saveAttr_skip {β : Type} (r : String) (get : Dir R → Option (File β)) (upd : File β → Dir R → Dir R)
    (obj : Option β) (fs : FS R) (h : obj = none ∨ (get (fs.at r)).isSome) :
    saveAttr r get upd obj fs = ⟨.ok (), fs, []⟩ := by
  unfold saveAttr
  cases obj with
  | none => rfl
  | some b =>
    rcases h with h | h
    · cases h
    · simp only
      rw [Io.bind_ok (a := fs.at r) rfl]
      have : (get (fs.at r)).isNone = false := by cases hg : get (fs.at r) <;> simp_all
      rw [this]
      rfl

theorem saveAttr_write {β : Type} (r : String) (get : Dir R → Option (File β)) (upd : File β → Dir R → Dir R)
    (b : β) (fs : FS R) (h : get (fs.at r) = none) :
    saveAttr r get upd (some b) fs = ⟨.ok (), fs.put r (upd (.full b) (fs.at r)),
      [fs.put r (upd .torn (fs.at r)), fs.put r (upd (.full b) (fs.at r))]⟩ := by
  unfold saveAttr
  simp only
  rw [Io.bind_ok (a := fs.at r) rfl]
  simp [h, Io.write, Io.look]

theorem checkpoint_first (r : String) (m : Model R) (g : EqDict R) (f : FArgs) (lim : Int) (fs : FS R)
    (h1 : (fs.at r).gens = none) (h2 : (fs.at r).fargs = none) :
    checkpoint ⟨some r, m, some g, some f, none, lim⟩ fs = ⟨.ok (),
      fs.put r { fs.at r with gens := some (.full g), fargs := some (.full f) },
      [fs.put r { fs.at r with gens := some .torn }, fs.put r { fs.at r with gens := some (.full g) },
       fs.put r { fs.at r with gens := some (.full g), fargs := some .torn },
       fs.put r { fs.at r with gens := some (.full g), fargs := some (.full f) }]⟩ := by
  unfold checkpoint overLimit
  simp only
  rw [if_neg (by simp), Io.bind_ok (saveAttr_ok ..), Io.bind_ok (saveAttr_ok ..),
    saveAttr_write _ _ _ _ _ h1, saveAttr_write _ _ _ _ _ (by simpa using h2), saveAttr_skip _ _ _ _ _ (Or.inl rfl)]
  simp

theorem checkpoint_second (r : String) (m : Model R) (g : EqDict R) (f : FArgs) (e : EqDict R) (lim : Int)
    (fs : FS R) (hl : ¬ ((allEqs e).length : Int) > lim) (h1 : (fs.at r).gens.isSome)
    (h2 : (fs.at r).fargs.isSome) (h3 : (fs.at r).eqs = none) :
    checkpoint ⟨some r, m, some g, some f, some e, lim⟩ fs = ⟨.ok (),
      fs.put r { fs.at r with eqs := some (.full e) },
      [fs.put r { fs.at r with eqs := some .torn }, fs.put r { fs.at r with eqs := some (.full e) }]⟩ := by
  unfold checkpoint overLimit
  simp only
  rw [if_neg (by simpa using hl), Io.bind_ok (saveAttr_ok ..), Io.bind_ok (saveAttr_ok ..),
    saveAttr_skip _ _ _ _ _ (Or.inr h1), saveAttr_skip _ _ _ _ _ (Or.inr h2), saveAttr_write _ _ _ _ _ h3]
  rfl

theorem checkpoint_present (r : String) (s : Sys R) (hr : s.root = some r) (fs : FS R) (h1 : (fs.at r).gens.isSome)
    (h2 : (fs.at r).fargs.isSome) (h3 : (fs.at r).eqs.isSome) : s.checkpoint fs = ⟨.ok (), fs, []⟩ := by
  unfold checkpoint
  rw [hr]
  simp only
  split
  · rfl
  · rw [Io.bind_ok (saveAttr_ok ..), saveAttr_skip _ _ _ _ _ (Or.inr h1)]
    simp only
    rw [Io.bind_ok (saveAttr_ok ..), saveAttr_skip _ _ _ _ _ (Or.inr h2)]
    simp only
    rw [saveAttr_skip _ _ _ _ _ (Or.inr h3)]
    rfl

theorem checkpoint_over (s : Sys R) (fs : FS R) (h : s.overLimit = true) :
    s.checkpoint fs = ⟨.ok (), fs, []⟩ := by
  unfold checkpoint
  cases s.root with
  | none => rfl
  | some r => simp only [h, if_true]; rfl

/-- the states the root goes through when a system is constructed in a fresh directory, in order -/
def constructionDirs (m : Model R) (b : Built R) (lim : Int) : List (Dir R) :=
  [({} : Dir R), { model := some .torn }, { model := some (.full m.jsonRT) },
   { model := some (.full m.jsonRT), gens := some .torn },
   { model := some (.full m.jsonRT), gens := some (.full b.gens) },
   { model := some (.full m.jsonRT), gens := some (.full b.gens), fargs := some .torn },
   { model := some (.full m.jsonRT), gens := some (.full b.gens), fargs := some (.full b.fargs) }] ++
  if (allEqs b.eqs).length > lim then [] else
  [{ model := some (.full m.jsonRT), gens := some (.full b.gens), fargs := some (.full b.fargs), eqs := some .torn },
   { model := some (.full m.jsonRT), gens := some (.full b.gens), fargs := some (.full b.fargs),
     eqs := some (.full b.eqs) }]

theorem new_fresh {σ : SetOrder} {m : Model R} {b : Built R} (hb : buildSystem σ m = .ok b) (r : String)
    (lim : Int) (fs : FS R) (hf : fs.at r = {}) :
    (Sys.new σ m (some r) lim true fs).result = .ok ⟨some r, m, some b.gens, some b.fargs, some b.eqs, lim⟩ ∧
    (Sys.new σ m (some r) lim true fs).states = (constructionDirs m b lim).map (fun d => fs.put r d) ∧
    (Sys.new σ m (some r) lim true fs).fs.at r =
      { model := some (.full m.jsonRT), gens := some (.full b.gens), fargs := some (.full b.fargs),
        eqs := if (allEqs b.eqs).length > lim then none else some (.full b.eqs) } := by
  refine ⟨by rw [Sys.new, init_result]; exact primed_fresh hb _ _, ?_⟩
  obtain ⟨confs, -, -, -, h4⟩ := buildSystem_steps hb
  unfold Sys.new init prime
  simp only
  rw [Io.bind_ok (a := ()) rfl, Io.bind_ok (saveModel_ok ..)]
  simp only [if_true]
  rw [Io.bind_ok (a := (⟨some r, m, some b.gens, some b.fargs, none, lim⟩ : Sys R))
    (by simp [Io.lift, primeGens_fresh hb]), Io.bind_ok (checkpoint_ok ..),
    Io.bind_ok (a := (⟨some r, m, some b.gens, some b.fargs, some b.eqs, lim⟩ : Sys R))
    (by simp [Io.lift, primeEqs_half hb]), Io.bind_ok (checkpoint_ok ..)]
  simp only
  rw [Io.bind_ok (a := ()) (by simp [Io.lift, h4])]
  simp only [Io.mkdir, hf, saveModel, Io.write, FS.at_put, FS.put_put, Io.lift, Io.pure_apply,
    List.nil_append, List.append_nil]
  rw [checkpoint_first _ _ _ _ _ _ (by simp) (by simp)]
  simp only [FS.at_put, FS.put_put]
  unfold constructionDirs
  by_cases hl : (allEqs b.eqs).length > lim
  · rw [checkpoint_over _ _ (by simpa [overLimit] using hl)]
    simp [hl]
  · rw [checkpoint_second _ _ _ _ _ _ _ (by simpa using hl) (by simp) (by simp) (by simp)]
    simp [hl]

/-! ### Pickles are never changed -/

/-- the three pickles of `d` that exist are in `d'` as they are -/
def Pickles (d d' : Dir R) : Prop :=
  (∀ x, d.gens = some x → d'.gens = some x) ∧ (∀ x, d.fargs = some x → d'.fargs = some x) ∧
    (∀ x, d.eqs = some x → d'.eqs = some x)

theorem keeps_put {α : Type} {d : Dir R} {q : String} (x : Io R α)
    (h : ∀ fs, ∀ s ∈ (x fs).fs :: (x fs).states, s = fs ∨ ∃ r d', s = fs.put r d' ∧ Pickles (fs.at r) d') :
    Io.Keeps (fun fs => Pickles d (fs.at q)) x := by
  have key : ∀ fs, Pickles d (fs.at q) → ∀ s ∈ (x fs).fs :: (x fs).states, Pickles d (s.at q) := by
    intro fs hP s hs
    rcases h fs s hs with rfl | ⟨r, d', rfl, hd⟩
    · exact hP
    · by_cases hr : q = r
      · subst hr
        rw [FS.at_put]
        exact ⟨fun x hx => hd.1 x (hP.1 x hx), fun x hx => hd.2.1 x (hP.2.1 x hx), fun x hx => hd.2.2 x (hP.2.2 x hx)⟩
      · rw [FS.at_put_ne _ hr]
        exact hP
  exact fun fs hP => ⟨key fs hP _ (by simp), fun s hs => key fs hP s (by simp [hs])⟩

theorem Pickles.rfl {d : Dir R} : Pickles d d := ⟨fun _ h => h, fun _ h => h, fun _ h => h⟩

variable {d : Dir R} {q : String}

theorem keeps_mkdir (r : String) : Io.Keeps (fun fs => Pickles d (fs.at q)) (Io.mkdir r : Io R Unit) := by
  apply keeps_put
  intro fs s hs
  simp only [Io.mkdir, List.mem_cons, List.not_mem_nil, or_false, or_self] at hs
  exact Or.inr ⟨r, _, hs, Pickles.rfl⟩

theorem keeps_saveModel (s : Sys R) : Io.Keeps (fun fs => Pickles d (fs.at q)) s.saveModel := by
  unfold saveModel
  cases s.root with
  | none => exact Io.Keeps.pure ()
  | some r =>
    apply keeps_put
    intro fs s hs
    simp only [Io.write, List.mem_cons, List.not_mem_nil, or_false] at hs
    rcases hs with hs | hs | hs <;> exact Or.inr ⟨r, _, hs, Pickles.rfl⟩

theorem keeps_saveAttr {β : Type} (r : String) (get : Dir R → Option (File β)) (upd : File β → Dir R → Dir R)
    (obj : Option β) (hu : ∀ d f, get d = none → Pickles d (upd f d)) :
    Io.Keeps (fun fs => Pickles d (fs.at q)) (saveAttr r get upd obj) := by
  apply keeps_put
  intro fs s hs
  cases obj with
  | none =>
    rw [saveAttr_skip _ _ _ _ _ (Or.inl _root_.rfl)] at hs
    simp only [List.mem_cons, List.not_mem_nil, or_false] at hs
    exact Or.inl hs
  | some b =>
    cases hg : get (fs.at r) with
    | some x =>
      rw [saveAttr_skip _ _ _ _ _ (Or.inr (by simp [hg]))] at hs
      simp only [List.mem_cons, List.not_mem_nil, or_false] at hs
      exact Or.inl hs
    | none =>
      rw [saveAttr_write _ _ _ _ _ hg] at hs
      simp only [List.mem_cons, List.not_mem_nil, or_false] at hs
      rcases hs with hs | hs | hs <;> exact Or.inr ⟨r, _, hs, hu _ _ hg⟩

theorem keeps_checkpoint (s : Sys R) : Io.Keeps (fun fs => Pickles d (fs.at q)) s.checkpoint := by
  unfold checkpoint
  cases s.root with
  | none => exact Io.Keeps.pure ()
  | some r =>
    simp only
    split
    · exact Io.Keeps.pure ()
    · refine (keeps_saveAttr _ _ _ _ ?_).bind fun _ => (keeps_saveAttr _ _ _ _ ?_).bind fun _ => keeps_saveAttr _ _ _ _ ?_
      · exact fun d f h => ⟨fun x hx => (by rw [h] at hx; cases hx), fun x hx => hx, fun x hx => hx⟩
      · exact fun d f h => ⟨fun x hx => hx, fun x hx => (by rw [h] at hx; cases hx), fun x hx => hx⟩
      · exact fun d f h => ⟨fun x hx => hx, fun x hx => hx, fun x hx => (by rw [h] at hx; cases hx)⟩

theorem keeps_prime (σ : SetOrder) (s : Sys R) : Io.Keeps (fun fs => Pickles d (fs.at q)) (s.prime σ) := by
  unfold prime
  refine (Io.Keeps.lift _).bind fun s1 => (keeps_checkpoint s1).bind fun _ => (Io.Keeps.lift _).bind fun s2 =>
    (keeps_checkpoint s2).bind fun _ => ?_
  cases s2.eqs with
  | none => exact Io.Keeps.lift _
  | some e => exact (Io.Keeps.lift _).bind fun _ => Io.Keeps.pure _

theorem keeps_init (σ : SetOrder) (s : Sys R) (auto : Bool) :
    Io.Keeps (fun fs => Pickles d (fs.at q)) (s.init σ auto) := by
  unfold init
  have h : Io.Keeps (fun fs => Pickles d (fs.at q)) (do
      s.saveModel
      if auto then s.prime σ else pure s) := by
    refine (keeps_saveModel s).bind fun _ => ?_
    split
    · exact keeps_prime σ s
    · exact Io.Keeps.pure _
  cases s.root with
  | none => exact h
  | some r => exact (keeps_mkdir r).bind fun _ => h

theorem keeps_fromCheckpoint (σ : SetOrder) (r : String) :
    Io.Keeps (fun fs => Pickles d (fs.at q)) (fromCheckpoint σ r) := by
  unfold fromCheckpoint
  refine (Io.Keeps.look r).bind fun d' => ?_
  cases d'.model with
  | none => exact Io.Keeps.lift _
  | some m =>
    cases m with
    | torn => exact Io.Keeps.lift _
    | full m =>
      exact (Io.Keeps.load _).bind fun _ => (Io.Keeps.load _).bind fun _ => (Io.Keeps.load _).bind fun _ =>
        keeps_init σ _ true

theorem keeps_solverInit (σ : SetOrder) (s : Option (Sys R)) (r : Option String) :
    Io.Keeps (fun fs => Pickles d (fs.at q)) (solverInit σ s r) := by
  unfold solverInit
  cases r with
  | none =>
    cases s with
    | none => exact (Io.Keeps.lift _).bind fun s => (keeps_checkpoint s).bind fun _ => Io.Keeps.pure _
    | some s => exact (Io.Keeps.pure _).bind fun s => (keeps_checkpoint s).bind fun _ => Io.Keeps.pure _
  | some r =>
    refine (keeps_mkdir r).bind fun _ => ?_
    cases s with
    | none => exact (keeps_fromCheckpoint σ r).bind fun s => (keeps_checkpoint s).bind fun _ => Io.Keeps.pure _
    | some s => exact (Io.Keeps.pure _).bind fun s => (keeps_checkpoint s).bind fun _ => Io.Keeps.pure _

/-! ### `model.json` is only written by `saveModel` -/

theorem keeps_model_saveAttr {β : Type} (r q : String) (x : Option (File (Model R))) (get : Dir R → Option (File β))
    (upd : File β → Dir R → Dir R) (obj : Option β) (hu : ∀ d f, (upd f d).model = d.model) :
    Io.Keeps (fun fs => (fs.at q).model = x) (saveAttr r get upd obj) := by
  intro fs hP
  cases obj with
  | none =>
    rw [saveAttr_skip _ _ _ _ _ (Or.inl _root_.rfl)]
    exact ⟨hP, by simp⟩
  | some b =>
    cases hg : get (fs.at r) with
    | some y =>
      rw [saveAttr_skip _ _ _ _ _ (Or.inr (by simp [hg]))]
      exact ⟨hP, by simp⟩
    | none =>
      rw [saveAttr_write _ _ _ _ _ hg]
      have : ∀ f, ((fs.put r (upd f (fs.at r))).at q).model = x := by
        intro f
        by_cases hq : q = r
        · subst hq; rw [FS.at_put, hu, hP]
        · rw [FS.at_put_ne _ hq, hP]
      exact ⟨this _, by simp [this]⟩

theorem keeps_model_checkpoint (s : Sys R) (q : String) (x : Option (File (Model R))) :
    Io.Keeps (fun fs => (fs.at q).model = x) s.checkpoint := by
  unfold checkpoint
  cases s.root with
  | none => exact Io.Keeps.pure ()
  | some r =>
    simp only
    split
    · exact Io.Keeps.pure ()
    · refine (keeps_model_saveAttr _ _ _ _ _ _ ?_).bind fun _ => (keeps_model_saveAttr _ _ _ _ _ _ ?_).bind fun _ =>
        keeps_model_saveAttr _ _ _ _ _ _ ?_ <;> intros <;> exact _root_.rfl

theorem keeps_model_prime (σ : SetOrder) (s : Sys R) {q : String} {x : Option (File (Model R))} :
    Io.Keeps (fun fs => (fs.at q).model = x) (s.prime σ) := by
  unfold prime
  refine (Io.Keeps.lift _).bind fun s1 => (keeps_model_checkpoint s1 q x).bind fun _ => (Io.Keeps.lift _).bind fun s2 =>
    (keeps_model_checkpoint s2 q x).bind fun _ => ?_
  cases s2.eqs with
  | none => exact Io.Keeps.lift _
  | some e => exact (Io.Keeps.lift _).bind fun _ => Io.Keeps.pure _

/-! ### A checkpoint only touches the system's own root -/

theorem saveAttr_other {β : Type} (r q : String) (hq : q ≠ r) (d : Dir R) (get : Dir R → Option (File β))
    (upd : File β → Dir R → Dir R) (obj : Option β) :
    Io.Keeps (fun fs => fs.at q = d) (saveAttr r get upd obj) := by
  intro fs hP
  cases obj with
  | none =>
    rw [saveAttr_skip _ _ _ _ _ (Or.inl _root_.rfl)]
    exact ⟨hP, by simp⟩
  | some b =>
    cases hg : get (fs.at r) with
    | some y =>
      rw [saveAttr_skip _ _ _ _ _ (Or.inr (by simp [hg]))]
      exact ⟨hP, by simp⟩
    | none =>
      rw [saveAttr_write _ _ _ _ _ hg]
      simp [FS.at_put_ne _ hq, hP]

theorem checkpoint_other (s : Sys R) (q : String) (hq : s.root ≠ some q) (fs : FS R) :
    (s.checkpoint fs).fs.at q = fs.at q := by
  have : Io.Keeps (fun fs' : FS R => fs'.at q = fs.at q) s.checkpoint := by
    unfold checkpoint
    cases hr : s.root with
    | none => exact Io.Keeps.pure ()
    | some r =>
      have hq' : q ≠ r := fun e => hq (by rw [hr, e])
      simp only
      split
      · exact Io.Keeps.pure ()
      · exact (saveAttr_other _ _ hq' _ _ _ _).bind fun _ => (saveAttr_other _ _ hq' _ _ _ _).bind fun _ =>
          saveAttr_other _ _ hq' _ _ _ _
  exact (this fs _root_.rfl).1

theorem solverInit_given (σ : SetOrder) (s : Sys R) (root : Option String) (fs : FS R) :
    (solverInit σ (some s) root fs).result = .ok s := by
  unfold solverInit
  cases root with
  | none =>
    simp only
    rw [Io.bind_ok (a := s) _root_.rfl, Io.bind_ok (checkpoint_ok ..)]
    exact _root_.rfl
  | some r =>
    simp only
    rw [Io.bind_ok (a := ()) _root_.rfl, Io.bind_ok (a := s) _root_.rfl, Io.bind_ok (checkpoint_ok ..)]
    exact _root_.rfl

end Sys
end GGCE
