import Verif.Proofs.Cache

/-!
Processes sharing a results directory: the invariant of the interleavings.
-/

set_option linter.unusedSectionVars false

namespace GGCE
open Dict

variable {R V : Type} [Field R] [LinearOrder R] [IsStrictOrderedRing R] [FloorRing R]

/-- What is needed of the points: those of different processes have different file names, points of one
process with one file name have one result, and the solver succeeds. -/
structure Separate (raw : Point R → Py V) (f : Point R → V) (jobs : Nat → List (Point R)) : Prop where
  across : ∀ i j, i ≠ j → ∀ p ∈ jobs i, ∀ q ∈ jobs j, cacheKey p ≠ cacheKey q
  within : ∀ i, ∀ p ∈ jobs i, ∀ q ∈ jobs i, cacheKey p = cacheKey q → f p = f q
  result : ∀ i, ∀ p ∈ jobs i, raw p = .ok (f p)

/-- The invariant. -/
structure SharedInv (f : Point R → V) (jobs : Nat → List (Point R)) (c : World R V) : Prop where
  alive : ∀ i, (c.procs i).failed = false
  suffix : ∀ i, (c.procs i).todo <:+ jobs i
  results : ∀ i, (c.procs i).done ++ (c.procs i).todo.map f = (jobs i).map f
  computed : ∀ i p G, (c.procs i).phase = .computed p G → G = f p ∧ ∃ rest, (c.procs i).todo = p :: rest
  opened : ∀ i p G, (c.procs i).phase = .opened p G → G = f p ∧ ∃ rest, (c.procs i).todo = p :: rest
  files : ∀ i, ∀ p ∈ jobs i, ∀ v, c.files.get? (cacheKey p) = some v →
    v = some (f p) ∨ ∃ q, cacheKey q = cacheKey p ∧ (c.procs i).phase = .opened q (f q)

theorem SharedInv.head {f : Point R → V} {jobs : Nat → List (Point R)} {c : World R V} (h : SharedInv f jobs c)
    {i : Nat} {p : Point R} {rest : List (Point R)} (ht : (c.procs i).todo = p :: rest) : p ∈ jobs i :=
  (h.suffix i).mem (by rw [ht]; simp)

theorem SharedInv.step {raw : Point R → Py V} {f : Point R → V} {jobs : Nat → List (Point R)}
    (S : Separate raw f jobs) {c d : World R V} (h : SharedInv f jobs c) (hs : World.Step raw c d) :
    SharedInv f jobs d := by
  cases hs with
  | hit i p rest G hf hp ht hg =>
    have hpi := h.head ht
    have hG : G = f p := by
      rcases h.files i p hpi _ hg with e | ⟨q, -, e⟩
      · exact Option.some.inj e
      · rw [hp] at e; cases e
    constructor <;> intro j <;> simp only [World.setProc] <;> by_cases hj : j = i
    · subst hj; simpa using hf
    · simpa [hj] using h.alive j
    · subst hj
      simp only [if_true]
      have := h.suffix j
      rw [ht] at this
      exact (List.suffix_cons p rest).trans this
    · simpa [hj] using h.suffix j
    · subst hj
      simp only [if_true]
      rw [← h.results j, ht, hG]
      simp
    · simpa [hj] using h.results j
    · subst hj
      simp only [if_true]
      intro p' G' e
      rw [hp] at e; cases e
    · simpa [hj] using h.computed j
    · subst hj
      simp only [if_true]
      intro p' G' e
      rw [hp] at e; cases e
    · simpa [hj] using h.opened j
    · subst hj
      simpa using h.files j
    · simpa [hj] using h.files j
  | eof i p rest hf hp ht hg =>
    rcases h.files i p (h.head ht) _ hg with e | ⟨q, -, e⟩
    · cases e
    · rw [hp] at e; cases e
  | raise i p rest e hf hp ht hg hr =>
    rw [S.result i p (h.head ht)] at hr
    cases hr
  | miss i p rest G hf hp ht hg hr =>
    rw [S.result i p (h.head ht)] at hr
    cases hr
    constructor <;> intro j <;> simp only [World.setProc] <;> by_cases hj : j = i
    · subst hj; simpa using hf
    · simpa [hj] using h.alive j
    · subst hj; simpa using h.suffix j
    · simpa [hj] using h.suffix j
    · subst hj; simpa using h.results j
    · simpa [hj] using h.results j
    · subst hj
      simp only [if_true]
      intro p' G' e
      cases e
      exact ⟨rfl, rest, ht⟩
    · simpa [hj] using h.computed j
    · subst hj
      simp only [if_true]
      intro p' G' e
      cases e
    · simpa [hj] using h.opened j
    · subst hj
      intro q hq v hv
      rcases h.files j q hq v hv with e | ⟨q', -, e⟩
      · exact Or.inl e
      · rw [hp] at e; cases e
    · simpa [hj] using h.files j
  | «open» i p G hf hp =>
    obtain ⟨hG, rest, ht⟩ := h.computed i p G hp
    have hpi := h.head ht
    constructor <;> intro j <;> simp only [World.setProc] <;> by_cases hj : j = i
    · subst hj; simpa using hf
    · simpa [hj] using h.alive j
    · subst hj; simpa using h.suffix j
    · simpa [hj] using h.suffix j
    · subst hj; simpa using h.results j
    · simpa [hj] using h.results j
    · subst hj
      simp only [if_true]
      intro p' G' e
      cases e
    · simpa [hj] using h.computed j
    · subst hj
      simp only [if_true]
      intro p' G' e
      cases e
      exact ⟨hG, rest, ht⟩
    · simpa [hj] using h.opened j
    · subst hj
      intro q hq v hv
      simp only [if_true]
      rw [get?_set] at hv
      split at hv
      · rename_i he
        exact Or.inr ⟨p, he, by rw [hG]⟩
      · rcases h.files j q hq v hv with e | ⟨q', -, e⟩
        · exact Or.inl e
        · rw [hp] at e; cases e
    · intro q hq v hv
      rw [get?_set, if_neg (fun e => S.across i j (Ne.symm hj) p hpi q hq e)] at hv
      simpa [hj] using h.files j q hq v hv
  | write i p G hf hp =>
    obtain ⟨hG, rest, ht⟩ := h.opened i p G hp
    have hpi := h.head ht
    constructor <;> intro j <;> simp only [World.setProc] <;> by_cases hj : j = i
    · subst hj; simpa using hf
    · simpa [hj] using h.alive j
    · subst hj
      simp only [if_true]
      exact (List.tail_suffix _).trans (h.suffix j)
    · simpa [hj] using h.suffix j
    · subst hj
      simp only [if_true]
      rw [← h.results j, ht, hG]
      simp
    · simpa [hj] using h.results j
    · subst hj
      simp only [if_true]
      intro p' G' e
      cases e
    · simpa [hj] using h.computed j
    · subst hj
      simp only [if_true]
      intro p' G' e
      cases e
    · simpa [hj] using h.opened j
    · subst hj
      intro q hq v hv
      simp only [if_true]
      rw [get?_set] at hv
      split at hv
      · rename_i he
        simp only [Option.some.injEq] at hv
        rw [← hv, hG, S.within j p hpi q hq he]
        exact Or.inl rfl
      · rename_i hne
        rcases h.files j q hq v hv with e | ⟨q', e1, e2⟩
        · exact Or.inl e
        · rw [hp] at e2; cases e2
          exact absurd e1 hne
    · intro q hq v hv
      rw [get?_set, if_neg (fun e => S.across i j (Ne.symm hj) p hpi q hq e)] at hv
      simpa [hj] using h.files j q hq v hv

theorem SharedInv.steps {raw : Point R → Py V} {f : Point R → V} {jobs : Nat → List (Point R)}
    (S : Separate raw f jobs) {c d : World R V} (h : SharedInv f jobs c) (hs : World.Steps raw c d) :
    SharedInv f jobs d := by
  induction hs with
  | refl => exact h
  | tail _ hst ih => exact ih.step S hst

theorem SharedInv.start {f : Point R → V} {jobs : Nat → List (Point R)} {files : Dict PyStr (Option V)}
    (hfiles : ∀ i, ∀ p ∈ jobs i, ∀ v, files.get? (cacheKey p) = some v → v = some (f p)) :
    SharedInv f jobs (World.start files jobs) where
  alive _ := rfl
  suffix _ := List.suffix_refl _
  results _ := by simp [World.start]
  computed _ _ _ h := by cases h
  opened _ _ _ h := by cases h
  files i p hp v hv := Or.inl (hfiles i p hp v hv)

/-- steps a process has left, at most -/
def Proc.work (q : Proc R V) : Nat := 3 * q.todo.length - match q.phase with
  | .idle => 0
  | .computed _ _ => 1
  | .opened _ _ => 2

/-- Every process with points left can move, and every move reduces the work of one process and leaves
the others alone. -/
theorem SharedInv.progress {raw : Point R → Py V} {f : Point R → V} {jobs : Nat → List (Point R)}
    (S : Separate raw f jobs) {c : World R V} (h : SharedInv f jobs c) (i : Nat) (hi : (c.procs i).todo ≠ []) :
    ∃ d, World.Step raw c d ∧ (d.procs i).work < (c.procs i).work := by
  cases hp : (c.procs i).phase with
  | idle =>
    cases ht : (c.procs i).todo with
    | nil => exact absurd ht hi
    | cons p rest =>
      cases hg : c.files.get? (cacheKey p) with
      | none =>
        refine ⟨_, .miss c i p rest (f p) (h.alive i) hp ht hg (S.result i p (h.head ht)), ?_⟩
        simp [Proc.work, World.setProc, hp, ht]
      | some v =>
        rcases h.files i p (h.head ht) _ hg with rfl | ⟨q, -, e⟩
        · refine ⟨_, .hit c i p rest (f p) (h.alive i) hp ht hg, ?_⟩
          simp [Proc.work, World.setProc, hp, ht]
        · rw [hp] at e; cases e
  | computed p G =>
    obtain ⟨-, rest, ht⟩ := h.computed i p G hp
    refine ⟨_, .open c i p G (h.alive i) hp, ?_⟩
    simp [Proc.work, World.setProc, hp, ht]
    omega
  | opened p G =>
    obtain ⟨-, rest, ht⟩ := h.opened i p G hp
    refine ⟨_, .write c i p G (h.alive i) hp, ?_⟩
    simp [Proc.work, World.setProc, hp, ht]
    omega

theorem SharedInv.decreases {raw : Point R → Py V} {f : Point R → V} {jobs : Nat → List (Point R)}
    (S : Separate raw f jobs) {c d : World R V} (h : SharedInv f jobs c) (hs : World.Step raw c d) :
    ∃ i, (d.procs i).work < (c.procs i).work ∧ ∀ j, j ≠ i → d.procs j = c.procs j := by
  cases hs with
  | hit i p rest G hf hp ht hg =>
    exact ⟨i, by simp [Proc.work, World.setProc, hp, ht], fun j hj => by simp [World.setProc, hj]⟩
  | eof i p rest hf hp ht hg =>
    rcases h.files i p (h.head ht) _ hg with e | ⟨q, -, e⟩
    · cases e
    · rw [hp] at e; cases e
  | raise i p rest e hf hp ht hg hr =>
    rw [S.result i p (h.head ht)] at hr
    cases hr
  | miss i p rest G hf hp ht hg hr =>
    exact ⟨i, by simp [Proc.work, World.setProc, hp, ht], fun j hj => by simp [World.setProc, hj]⟩
  | «open» i p G hf hp =>
    obtain ⟨-, rest, ht⟩ := h.computed i p G hp
    refine ⟨i, ?_, fun j hj => by simp [World.setProc, hj]⟩
    simp [Proc.work, World.setProc, hp, ht]
    omega
  | write i p G hf hp =>
    obtain ⟨-, rest, ht⟩ := h.opened i p G hp
    refine ⟨i, ?_, fun j hj => by simp [World.setProc, hj]⟩
    simp [Proc.work, World.setProc, hp, ht]
    omega

end GGCE
