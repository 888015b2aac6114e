import Mathlib.Tactic.ByContra
import Mathlib.Tactic.Set
import Mathlib.Tactic.Push
import Mathlib.Tactic.SplitIfs
import Mathlib.Tactic.Tauto
import Verif.Model.Logger

/-!
Properties C84 and C85: a refused input ends the program in every configuration of the logger, and using the
library leaves the configuration of the logger as the user set it. Both are true only in part.
-/

set_option linter.unusedSectionVars false

namespace GGCE.Props
open Log

/-! ### the handlers -/

theorem emitLoop_append (l : Level) (hs hs' : List Handler) (h : ∀ x ∈ hs, x.action ≠ .exit) :
    emitLoop l (hs ++ hs') = ((hs.filter (·.accepts l)).map (·.action) ++ (emitLoop l hs').1, (emitLoop l hs').2) := by
  induction hs with
  | nil => simp
  | cons a hs ih =>
    have h1 := ih (fun x hx => h x (List.mem_cons_of_mem _ hx))
    rw [List.cons_append, emitLoop, h1]
    have h2 := h a (by simp)
    by_cases hc : a.accepts l <;> simp [hc, h2]

theorem emitLoop_nil_exit (l : Level) (hs : List Handler) (h : ∀ x ∈ hs, x.action ≠ .exit) :
    emitLoop l hs = ((hs.filter (·.accepts l)).map (·.action), false) := by
  have := emitLoop_append l hs [] h
  simpa [emitLoop] using this

/-- after any call of `configure_loggers`, exactly the critical records end the program -/
theorem ends_iff (rank : Nat) (a : ConfigArgs) (l : Level) : (emitLoop l (handlersOf rank a)).2 = decide (l = .critical) := by
  unfold handlersOf
  rw [List.append_assoc, List.append_assoc, emitLoop_append _ _ _ (by split <;> simp), emitLoop_append _ _ _ (by split <;> simp)]
  have hx : ∀ x ∈ (if a.warnings then [{ min := .warning, action := .warn }, { min := .error, action := .warn }] else [] :
      List Handler), x.action ≠ .exit := by split <;> simp
  simp only [List.cons_append, List.nil_append]
  rw [emitLoop, emitLoop, emitLoop_nil_exit _ _ hx]
  cases l <;> simp [Handler.accepts, Level.no] <;> split <;> (try split_ifs) <;> simp

/-! ### activation -/

/-- no entry that concerns the module is off -/
def On (acts : List (PyStr × Bool)) (mod : PyStr) : Prop :=
  ∀ q ∈ acts, q.1 <+: mod ++ ['.'] → q.2 = true

theorem On.enabled {acts : List (PyStr × Bool)} {mod : PyStr} (h : On acts mod) : Log.enabled acts mod = true := by
  unfold Log.enabled
  cases hf : acts.find? (fun q => q.1.isPrefixOf (mod ++ ['.'])) with
  | none => rfl
  | some q =>
    have h1 := List.mem_of_find?_eq_some hf
    have h2 := List.find?_some hf
    simpa using h q h1 (List.isPrefixOf_iff_prefix.1 h2)

theorem mem_insertAct {q q' : PyStr × Bool} {l : List (PyStr × Bool)} : q' ∈ insertAct q l ↔ q' = q ∨ q' ∈ l := by
  induction l with
  | nil => simp [insertAct]
  | cons a l ih =>
    unfold insertAct
    split
    · simp
    · simp only [List.mem_cons, ih]; tauto

theorem mem_change {acts : List (PyStr × Bool)} {name : PyStr} {status : Bool} {q : PyStr × Bool}
    (h : q ∈ changeActivation acts name status) : q = (dotted name, status) ∨ q ∈ acts := by
  unfold changeActivation at h
  simp only at h
  split at h
  · rcases mem_insertAct.1 h with h | h
    · exact Or.inl h
    · exact Or.inr (List.mem_filter.1 h).1
  · exact Or.inr (List.mem_filter.1 h).1

theorem On.change {acts : List (PyStr × Bool)} {mod name : PyStr} {status : Bool} (h : On acts mod)
    (hs : status = true ∨ ¬ dotted name <+: mod ++ ['.']) : On (changeActivation acts name status) mod := by
  intro q hq hp
  rcases mem_change hq with rfl | hq
  · rcases hs with hs | hs
    · exact hs
    · exact absurd hp hs
  · exact h q hq hp

/-- `logger.enable("")` forgets everything that was disabled -/
theorem enable_all (acts : List (PyStr × Bool)) : changeActivation acts [] true = [] := by
  simp [changeActivation, dotted]

theorem disable_all (acts : List (PyStr × Bool)) : changeActivation acts [] false = [([], false)] := by
  have h : acts.filter (fun q => !(List.isPrefixOf (dotted []) q.1)) = [] := by simp [dotted]
  unfold changeActivation
  simp only [h]
  rfl

/-- a statement that does not disable the module: `logger.disable` is allowed for names that are neither the
module nor a package containing it -/
def Harmless (mod : PyStr) : Op → Prop
  | .disable n => n ≠ [] ∧ n ≠ mod ∧ ¬ n ++ ['.'] <+: mod
  | _ => True

theorem harmless_prefix {mod n : PyStr} (h : Harmless mod (.disable n)) : ¬ dotted n <+: mod ++ ['.'] := by
  obtain ⟨h1, h2, h3⟩ := h
  unfold dotted
  rw [if_neg h1]
  rintro ⟨r, hr⟩
  rcases List.eq_nil_or_concat r with rfl | ⟨r', c, rfl⟩
  · rw [List.append_nil] at hr
    exact h2 (List.append_cancel_right hr)
  · rw [List.concat_eq_append, ← List.append_assoc] at hr
    exact h3 ⟨r', (List.append_inj' hr rfl).1⟩

theorem ops_ready (rank : Nat) (mod : PyStr) (os : List Op) (s : State) (h : ∀ o ∈ os, Harmless mod o)
    (h1 : ∃ a, s.handlers = handlersOf rank a) (h2 : On s.acts mod) :
    (∃ a, (s.ops rank os).handlers = handlersOf rank a) ∧ On (s.ops rank os).acts mod := by
  induction os generalizing s with
  | nil => exact ⟨h1, h2⟩
  | cons o os ih =>
    refine ih (s.op rank o) (fun o ho => h o (List.mem_cons_of_mem _ ho)) ?_ ?_
    · cases o with
      | configure a => exact ⟨a, rfl⟩
      | debugOn => exact ⟨_, rfl⟩
      | debugOff => exact ⟨_, rfl⟩
      | testing => exact ⟨_, rfl⟩
      | enable n => exact h1
      | disable n => exact h1
    · cases o with
      | configure a => exact h2
      | debugOn => exact h2
      | debugOff => exact h2
      | testing => exact h2
      | enable n => exact h2.change (Or.inl rfl)
      | disable n => exact h2.change (Or.inr (harmless_prefix (h _ (by simp))))

/-! ### C84 -/

/-- **C84**, the part that holds: whatever is done to the logger — any filters, debug and testing mode on or off,
other libraries silenced — as long as the module itself is not disabled, a critical record ends the program and no
other record does. -/
theorem C84_critical_partial (rank : Nat) (mod : PyStr) (os : List Op) (h : ∀ o ∈ os, Harmless mod o) (l : Level) :
    (emit ((imported rank).ops rank os) mod l).2 = decide (l = .critical) := by
  obtain ⟨⟨a, h1⟩, h2⟩ := ops_ready rank mod os (imported rank) h ⟨_, rfl⟩ (by intro q hq; cases hq)
  unfold emit
  rw [h2.enabled, if_pos rfl, h1, ends_iff]

/-- C84, for the checks of the library: then every refusal is the one modelled in the rest of this development. -/
theorem C84_refusals_partial (rank : Nat) (os : List Op) (h : ∀ o ∈ os, Harmless termsMod o) (a : Arr) (c : Config)
    (t x : Int) :
    Log.validate ((imported rank).ops rank os) a = a.validate ∧
    Log.newConfig ((imported rank).ops rank os) a = Config.new a ∧
    Log.removePhonon ((imported rank).ops rank os) c t x = c.removePhonon t x := by
  have hc : critical ((imported rank).ops rank os) termsMod = .error .abort := by
    unfold critical
    rw [C84_critical_partial rank termsMod os h]; rfl
  have hv : Log.validate ((imported rank).ops rank os) a = a.validate := by
    unfold Log.validate Arr.validate
    rw [hc]
    by_cases h1 : a.valuesLegal = true
    · simp only [h1]
      rfl
    · simp only [Bool.not_eq_true] at h1
      rw [h1]; rfl
  refine ⟨hv, ?_, ?_⟩
  · unfold Log.newConfig Config.new
    rw [hv]
  · unfold Log.removePhonon Config.removePhonon
    rw [hc]
    by_cases h1 : c.maxMods ≤ c.mods
    · rw [if_pos h1, if_pos h1]; rfl
    · rw [if_neg h1, if_neg h1]
      cases hn1 : Arr.npIndex c.arr.nTypes t with
      | none => rfl
      | some t' =>
        cases hn2 : Arr.npIndex c.arr.len x with
        | none => rfl
        | some x' =>
          simp only
          by_cases h2 : (c.arr.bump t' x' (-1)).get t' x' < 0
          · rw [if_pos h2, if_pos h2]; rfl
          · rw [if_neg h2, if_neg h2]

/-- C84, what is shown where, in the configuration after the import: on rank 0 every record above `debug` once; on
the other ranks only errors and critical records. -/
theorem C84_ranks (rank : Nat) (mod : PyStr) (l : Level) :
    (emit (imported rank) mod l).1 =
      match l with
      | .debug => []
      | .info | .success | .warning => if rank = 0 then [.stdout] else []
      | .error | .critical => [.stderr] := by
  unfold emit imported State.debugOff State.configure handlersOf
  by_cases h : rank = 0 <;> cases l <;>
    simp [h, enabled, emitLoop, Handler.accepts, Level.no]

/-- C84 fails inside `disable_logger` and after `logger.disable` of a package containing the module: nothing is
shown and the program goes on. -/
theorem C84_silenced_fails (s : State) (mod name : PyStr) (l : Level) :
    (emit (s.disable []) mod l) = ([], false) ∧
    (s.acts = [] → dotted name <+: mod ++ ['.'] → emit (s.disable name) mod l = ([], false)) := by
  constructor
  · unfold emit State.disable
    rw [disable_all]
    simp [enabled]
  · intro h1 h2
    unfold emit State.disable
    rw [h1]
    have : changeActivation [] name false = [(dotted name, false)] := by
      simp [changeActivation, insertAct]
    rw [this]
    simp [enabled, List.isPrefixOf_iff_prefix, h2]

/-- C84, consequences: with `logger.disable("ggce")` after the import, a configuration with a negative occupation
is accepted, a phonon is removed from an empty site, a shift that is not an array is stored; only where the code
says `raise logger.critical` is there still an error, of another kind. -/
theorem C84_accepted_fails (rank : Nat) :
    let s := (imported rank).disable "ggce".toList
    Log.newConfig s ⟨[[1, -1, 1]], 3⟩ = .ok ⟨⟨[[1, -1, 1]], 3⟩, 1, 0⟩ ∧
    Config.new ⟨[[1, -1, 1]], 3⟩ = .error .abort ∧
    Log.removePhonon s ⟨⟨[[1, 0, 1]], 3⟩, 1, 0⟩ 0 1 = .ok (⟨⟨[[1, -1, 1]], 3⟩, 1, 1⟩, 0) ∧
    Config.removePhonon ⟨⟨[[1, 0, 1]], 3⟩, 1, 0⟩ 0 1 = .error .abort ∧
    (∀ α : Type, setPsi (α := α) s none = .ok none) ∧
    setDag s ['x'] = .error .typeError ∧ setDag (imported rank) ['x'] = .error .abort := by
  intro s
  have hm : ∀ mod : PyStr, "ggce.".toList <+: mod ++ ['.'] → critical s mod = .ok () := by
    intro mod hmod
    unfold critical
    rw [((C84_silenced_fails (imported rank) mod "ggce".toList .critical).2 rfl hmod)]
    rfl
  have h1 : critical s termsMod = .ok () := hm _ (by decide)
  have h2 : critical s modelMod = .ok () := hm _ (by decide)
  refine ⟨?_, rfl, ?_, rfl, ?_, ?_, ?_⟩
  · unfold Log.newConfig Log.validate
    rw [h1]
    rfl
  · unfold Log.removePhonon
    rw [h1]
    rfl
  · intro α
    unfold setPsi
    rw [h2]
    rfl
  · unfold setDag raiseCritical
    rw [h2]
    rfl
  · unfold setDag raiseCritical critical
    rw [show imported rank = (imported rank).ops rank [] from rfl, C84_critical_partial rank _ [] (by simp)]
    rfl

/-! ### which modules are enabled -/

theorem find_insert_new {P : PyStr × Bool → Bool} {q : PyStr × Bool} (hq : P q = true) {l : List (PyStr × Bool)}
    (h : ∀ a ∈ l, P a = true → depth a.1 < depth q.1) : (insertAct q l).find? P = some q := by
  induction l with
  | nil => simp [insertAct, hq]
  | cons a l ih =>
    unfold insertAct
    split
    · simp [hq]
    · rename_i hd
      have ha : P a = false := by
        by_contra hc
        exact hd (h a (by simp) (by simpa using hc))
      rw [List.find?_cons, ha]
      exact ih (fun b hb => h b (List.mem_cons_of_mem _ hb))

theorem find_insert_old {P : PyStr × Bool → Bool} {q : PyStr × Bool} (hq : P q = false) {l : List (PyStr × Bool)} :
    (insertAct q l).find? P = l.find? P := by
  induction l with
  | nil => simp [insertAct, hq]
  | cons a l ih =>
    unfold insertAct
    split
    · rw [List.find?_cons, hq]
    · rw [List.find?_cons, List.find?_cons, ih]

theorem depth_lt {p n : PyStr} (h : p <+: dotted n) (hne : ¬ dotted n <+: p) : depth p < depth (dotted n) := by
  obtain ⟨r, hr⟩ := h
  by_cases hn : n = []
  · exact absurd (by rw [hn]; exact List.nil_prefix) hne
  · have hr0 : r ≠ [] := by
      rintro rfl
      exact hne (by rw [← hr, List.append_nil]; exact List.prefix_rfl)
    obtain ⟨r', c, rfl⟩ := (List.eq_nil_or_concat r).resolve_left hr0
    have hc : c = '.' := by
      unfold dotted at hr
      rw [if_neg hn, List.concat_eq_append, ← List.append_assoc] at hr
      simpa using (List.append_inj' hr rfl).2
    unfold depth
    rw [← hr, hc]
    simp

theorem find_congr {α : Type} {P Q : α → Bool} {l : List α} (h : ∀ a ∈ l, P a = Q a) : l.find? P = l.find? Q := by
  induction l with
  | nil => rfl
  | cons a l ih =>
    rw [List.find?_cons, List.find?_cons, h a (by simp), ih (fun b hb => h b (List.mem_cons_of_mem _ hb))]

theorem find_filter {α : Type} {P Q : α → Bool} {l : List α} (h : ∀ a ∈ l, P a = true → Q a = true) :
    (l.filter Q).find? P = l.find? P := by
  induction l with
  | nil => rfl
  | cons a l ih =>
    have ih' := ih (fun b hb => h b (List.mem_cons_of_mem _ hb))
    by_cases hq : Q a = true
    · rw [List.filter_cons_of_pos hq, List.find?_cons, List.find?_cons, ih']
    · rw [List.filter_cons_of_neg hq, List.find?_cons, ih']
      have hp : P a = false := by
        by_contra hc
        exact hq (h a (by simp) (by simpa using hc))
      rw [hp]

theorem enabled_change (acts : List (PyStr × Bool)) (name : PyStr) (status : Bool) (mod : PyStr) :
    enabled (changeActivation acts name status) mod =
      if dotted name <+: mod ++ ['.'] then status else enabled acts mod := by
  set M := mod ++ ['.'] with hM
  set nm := dotted name with hnm
  set rest := acts.filter (fun q => !(nm.isPrefixOf q.1)) with hrest
  have hmem : ∀ a ∈ rest, ¬ nm <+: a.1 := fun a ha => by
    have h1 := (List.mem_filter.1 ha).2
    intro h2
    rw [List.isPrefixOf_iff_prefix.2 h2] at h1
    cases h1
  by_cases hp : nm <+: M
  · rw [if_pos hp]
    have hsame : ∀ a ∈ rest, a.1.isPrefixOf nm = a.1.isPrefixOf M := fun a ha => by
      rw [Bool.eq_iff_iff, List.isPrefixOf_iff_prefix, List.isPrefixOf_iff_prefix]
      refine ⟨fun h => h.trans hp, fun h => ?_⟩
      rcases List.prefix_or_prefix_of_prefix h hp with h | h
      · exact h
      · exact absurd h (hmem a ha)
    by_cases hc : (rest.find? (fun q => q.1.isPrefixOf nm)).map Prod.snd ≠ some status ∧ ¬(nm = [] ∧ status = true)
    · have e : changeActivation acts name status = insertAct (nm, status) rest := by
        unfold changeActivation
        exact if_pos hc
      unfold enabled
      rw [e, find_insert_new (by simpa [List.isPrefixOf_iff_prefix] using hp) (fun a ha h => ?_)]
      · rfl
      · have h' : a.1.isPrefixOf M = true := h
        rw [← hsame a ha, List.isPrefixOf_iff_prefix] at h'
        exact depth_lt h' (hmem a ha)
    · have e : changeActivation acts name status = rest := by
        unfold changeActivation
        exact if_neg hc
      unfold enabled
      rw [e, ← find_congr hsame]
      by_cases h1 : (rest.find? (fun q => q.1.isPrefixOf nm)).map Prod.snd = some status
      · rw [h1]; rfl
      · have h2 : nm = [] ∧ status = true := by
          by_contra h2
          exact hc ⟨h1, h2⟩
        have h3 : rest = [] := by
          rw [hrest, h2.1]
          simp
        rw [h3, h2.2]
        rfl
  · rw [if_neg hp]
    have hkeep : rest.find? (fun q => q.1.isPrefixOf M) = acts.find? (fun q => q.1.isPrefixOf M) :=
      find_filter (fun a _ h => by
        have h' : a.1 <+: M := List.isPrefixOf_iff_prefix.1 h
        have h3 : nm.isPrefixOf a.1 = false := by
          rw [← Bool.not_eq_true, List.isPrefixOf_iff_prefix]
          exact fun h2 => hp (h2.trans h')
        simp only [h3, Bool.not_false])
    have hfind : (changeActivation acts name status).find? (fun q => q.1.isPrefixOf M) =
        acts.find? (fun q => q.1.isPrefixOf M) := by
      unfold changeActivation
      simp only
      split
      · rw [find_insert_old]
        · exact hkeep
        · simpa [← Bool.not_eq_true, List.isPrefixOf_iff_prefix] using hp
      · exact hkeep
    unfold enabled
    rw [hfind]

/-- the name denotes the module or a package that contains it -/
def Covers (name mod : PyStr) : Prop := name = [] ∨ name = mod ∨ name ++ ['.'] <+: mod

theorem covers_iff {name mod : PyStr} : Covers name mod ↔ dotted name <+: mod ++ ['.'] := by
  constructor
  · rintro (rfl | rfl | h)
    · simp [dotted]
    · unfold dotted
      split
      · exact List.nil_prefix
      · exact List.prefix_rfl
    · unfold dotted
      split
      · exact List.nil_prefix
      · exact h.trans (List.prefix_append _ _)
  · intro h
    by_contra hc
    unfold Covers at hc
    push Not at hc
    exact harmless_prefix (mod := mod) (n := name) ⟨hc.1, hc.2.1, hc.2.2⟩ h

open Classical in
/-- what a statement says about a module: on, off, or what it was before -/
noncomputable def says (mod : PyStr) (before : Bool) : Op → Bool
  | .enable n => if Covers n mod then true else before
  | .disable n => if Covers n mod then false else before
  | _ => before

/-- C84: after any sequence of statements a module is enabled unless the last `logger.enable` or `logger.disable` that
names it or a package containing it was a `disable`. -/
theorem C84_activation (rank : Nat) (mod : PyStr) (os : List Op) :
    enabled ((imported rank).ops rank os).acts mod = os.foldl (says mod) true := by
  have key : ∀ (os : List Op) (s : State), enabled (s.ops rank os).acts mod = os.foldl (says mod) (enabled s.acts mod) := by
    intro os
    induction os with
    | nil => intro s; rfl
    | cons o os ih =>
      intro s
      have h : enabled (s.op rank o).acts mod = says mod (enabled s.acts mod) o := by
        cases o with
        | enable n =>
          show enabled (changeActivation s.acts n true) mod = _
          rw [enabled_change]
          simp only [says, covers_iff]
        | disable n =>
          show enabled (changeActivation s.acts n false) mod = _
          rw [enabled_change]
          simp only [says, covers_iff]
        | _ => rfl
      rw [List.foldl_cons, ← h]
      exact ih (s.op rank o)
  exact key os (imported rank)

/-- C84, a silenced package with one module switched on again: only that module talks. -/
theorem C84_exception (rank : Nat) :
    let s := ((imported rank).disable "ggce".toList).enable modelMod
    enabled s.acts modelMod = true ∧ enabled s.acts termsMod = false ∧ enabled s.acts "numpy".toList = true := by
  show enabled (changeActivation (changeActivation [] "ggce".toList false) modelMod true) modelMod = true ∧
    enabled (changeActivation (changeActivation [] "ggce".toList false) modelMod true) termsMod = false ∧
    enabled (changeActivation (changeActivation [] "ggce".toList false) modelMod true) "numpy".toList = true
  decide

/-- C84, the testing mode: on every rank each warning and each error also raises a Python warning (an error two). -/
theorem C84_testing (rank : Nat) (mod : PyStr) (l : Level) :
    (emit ((imported rank).testing rank) mod l).1 =
      match l with
      | .debug => [.stdout]
      | .info | .success => if rank = 0 then [.stdout] else []
      | .warning => (if rank = 0 then [.stdout] else []) ++ [.warn]
      | .error => [.stderr, .warn, .warn]
      | .critical => [.stderr] := by
  unfold emit imported State.testing State.debugOff State.configure handlersOf
  by_cases h : rank = 0 <;> cases l <;>
    simp [h, enabled, emitLoop, Handler.accepts, Level.no]

/-- C84, for the setters of a term: then they store what they are given if it has the right kind, and end the program
otherwise. -/
theorem C84_setters_partial (rank : Nat) (os : List Op) (h : ∀ o ∈ os, Harmless modelMod o) (α : Type) (x : Option α)
    (d : PyStr) :
    (setPsi ((imported rank).ops rank os) x = if x = none then .error .abort else .ok x) ∧
    (setDag ((imported rank).ops rank os) d = if d = ['+'] ∨ d = ['-'] then .ok d else .error .abort) := by
  have hc : critical ((imported rank).ops rank os) modelMod = .error .abort := by
    unfold critical
    rw [C84_critical_partial rank modelMod os h]; rfl
  constructor
  · unfold setPsi
    rw [hc]
    cases x <;> rfl
  · unfold setDag raiseCritical
    rw [hc]

/-! ### C85 -/

/-- **C85**, the part that holds: if nothing is disabled, a block with the logger disabled leaves the logger as it
was, also when the body raises; so does a debug block if the configuration was the one after the import. -/
theorem C85_restored_partial {α : Type} (rank : Nat) (body : State → Py α × State) (hb : ∀ s, (body s).2 = s) (s : State)
    (hs : s.acts = []) :
    (withDisabled body s).2 = s ∧ (withDebug rank body (imported rank)).2 = imported rank := by
  constructor
  · unfold withDisabled State.enable State.disable
    simp only [hb, enable_all]
    cases s
    simp only at hs
    rw [hs]
  · unfold withDebug
    simp only [hb]
    rfl

/-- C85 fails: after a block with the logger disabled, every module is enabled, whatever the user had disabled. -/
theorem C85_block_fails {α : Type} (body : State → Py α × State) (s : State) (mod : PyStr) :
    enabled (withDisabled body s).2.acts mod = true := by
  unfold withDisabled State.enable
  simp only [enable_all]
  rfl

/-- C85 fails for every solver: whatever was disabled before, after the construction nothing is, also when the
checkpoint raises. -/
theorem C85_construction_fails (s : State) (root : Bool) (checkpoint : State → Py Unit × State) (mod : PyStr) :
    enabled (solverInit s root checkpoint).2.1.acts mod = true := by
  have h := C85_block_fails checkpoint s mod
  unfold solverInit
  simp only
  split <;> exact h

/-- C85 fails for a user who silenced the library with `logger.disable("ggce")`: constructing a solver with a
system that needs no checkpoint makes it talk again. The first construction without a root shows nothing, the
second shows its warning. -/
theorem C85_solver_fails :
    let s := (imported 0).disable "ggce".toList
    let first := solverInit s false (fun t => (.ok (), t))
    let second := solverInit first.2.1 false (fun t => (.ok (), t))
    first.2.2 = [(.warning, [])] ∧ second.2.2 = [(.warning, [.stdout])] := by decide

/-- C85 fails for nested debug blocks (after the inner one the outer one shows no debug messages any more), and
for the testing mode (debug messages stay on afterwards). -/
theorem C85_nested_fails (mod : PyStr) :
    (withDebug 0 (fun s => let r := withDebug 0 (fun s => (.ok (), s)) s
        (.ok (emit s mod .debug, emit r.2 mod .debug), r.2)) (imported 0)).1 =
      .ok (([.stdout], false), ([], false)) ∧
    (emit (imported 0) mod .debug).1 = [] ∧
    (emit (withTesting 0 (fun s => (.ok (), s)) (imported 0)).2 mod .debug).1 = [.stdout] := by
  refine ⟨?_, ?_, ?_⟩ <;>
    simp [withDebug, withTesting, emit, imported, State.debugOn, State.debugOff, State.testing, State.configure,
      enabled, handlersOf, emitLoop, Handler.accepts, Level.no]

/-! ### the hypotheses are met -/

/-- silencing another library, switching to debug mode and changing all filters are harmless -/
example : ∀ o ∈ [Op.disable "matplotlib".toList, .debugOn, .configure { stderrFilter := some [] }, .enable [],
    .disable "ggce.model".toList], Harmless termsMod o := by
  intro o ho
  simp only [List.mem_cons, List.not_mem_nil, or_false] at ho
  rcases ho with rfl | rfl | rfl | rfl | rfl
  · exact ⟨by decide, by decide, by decide⟩
  · trivial
  · trivial
  · trivial
  · exact ⟨by decide, by decide, by decide⟩

/-- with an empty filter for errors, a critical record shows nothing but still ends the program -/
example : emit ((imported 0).ops 0 [.configure { stderrFilter := some [] }]) termsMod .critical = ([], true) := by
  decide

/-- disabling a package inside a disabled one is forgotten when the outer one is enabled -/
example : (((imported 0).disable "ggce.model".toList).disable "ggce".toList).acts = [("ggce.".toList, false)] ∧
    (((imported 0).disable "ggce".toList).disable "ggce.model".toList).acts = [("ggce.".toList, false)] ∧
    (((imported 0).disable "ggce".toList).enable "ggce.model".toList).acts =
      [("ggce.model.".toList, true), ("ggce.".toList, false)] := by decide

end GGCE.Props
