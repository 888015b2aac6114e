import Verif.Model.Crew
import Verif.Proofs.Shared

/-!
Brigades at work: the invariant of the interleavings.
-/

set_option linter.unusedSectionVars false

namespace GGCE.Crew
open Dict

variable {R V : Type} [Field R] [LinearOrder R] [IsStrictOrderedRing R] [FloorRing R]

/-- past the collective part of the current job -/
def Phase.after : Phase V → Bool
  | .computed _ | .opened _ => true
  | _ => false

def Phase.isOpen : Phase V → Bool
  | .opened _ => true
  | _ => false

theorem Phase.after_of_open {ph : Phase V} (h : ph.isOpen = true) : ph.after = true := by
  cases ph <;> simp_all [Phase.isOpen, Phase.after]

/-- What is needed: a brigade whose ranks agree on the point gets the right value, no two jobs share a result file
(if there is a directory), and the files present at the start are complete and right. -/
structure Sound (P : Plan R V) (f : Point R → V) (files : Option (Dict PyStr (Option V))) : Prop where
  size : 1 ≤ P.size
  result : ∀ j < P.brigades, ∀ p ∈ P.jobs j, P.solve (List.replicate P.size p) = .ok (f p)
  distinct : files ≠ none → ∀ j < P.brigades, ∀ j' < P.brigades, ∀ (i i' : Nat) (p q : Point R), (P.jobs j)[i]? = some p →
    (P.jobs j')[i']? = some q → cacheKey p = cacheKey q → j = j' ∧ i = i'
  stored : ∀ j < P.brigades, ∀ p ∈ P.jobs j, ∀ v, (World.start files).look p = some v → v = some (f p)

/-- the job has no result file at the start -/
def Fresh (P : Plan R V) (files : Option (Dict PyStr (Option V))) (j i : Nat) : Prop :=
  ∃ p, (P.jobs j)[i]? = some p ∧ (World.start files).look p = none

/-- the rank has left the collective part of job `i` behind -/
def Rank.passed (q : Rank V) (i : Nat) : Prop := i < q.pos ∨ (i = q.pos ∧ q.phase.after = true)

/-- the file of a fresh job `i` with value `v`, given the state of rank 0 -/
def Rank.fileOf (q : Rank V) (i : Nat) (v : V) : Option (Option V) :=
  if i < q.pos then some (some v) else if i = q.pos ∧ q.phase.isOpen = true then some none else none

structure RankOk (P : Plan R V) (f : Point R → V) (files : Option (Dict PyStr (Option V))) (j r : Nat) (q : Rank V) :
    Prop where
  alive : q.failed = false
  le : q.pos ≤ (P.jobs j).length
  done : q.done = ((P.jobs j).take q.pos).map f
  lead : q.phase.after = true → r = 0
  value : ∀ G, q.phase = .computed G ∨ q.phase = .opened G → ∃ p, (P.jobs j)[q.pos]? = some p ∧ G = f p
  fresh : q.phase = .idle ∨ Fresh P files j q.pos
  nodir : files = none → q.phase.isOpen = false

/-- the invariant -/
structure Inv (P : Plan R V) (f : Point R → V) (files : Option (Dict PyStr (Option V))) (c : World V) : Prop where
  dir : c.files = none ↔ files = none
  rank : ∀ j < P.brigades, ∀ r < P.size, RankOk P f files j r (c.ranks j r)
  sync : ∀ j < P.brigades, ∀ r < P.size, ∀ i, Fresh P files j i →
    ((c.ranks j r).passed i ↔ (c.ranks j 0).passed i)
  old : ∀ j < P.brigades, ∀ i p, (P.jobs j)[i]? = some p → ¬ Fresh P files j i → c.look p = some (some (f p))
  new : files ≠ none → ∀ j < P.brigades, ∀ i p, (P.jobs j)[i]? = some p → Fresh P files j i →
    c.look p = (c.ranks j 0).fileOf i (f p)

variable {P : Plan R V} {f : Point R → V} {files : Option (Dict PyStr (Option V))}

theorem Inv.start (S : Sound P f files) : Inv P f files (World.start files) := by
  refine ⟨Iff.rfl, ?_, ?_, ?_, ?_⟩
  · intro j hj r hr
    refine ⟨rfl, Nat.zero_le _, by simp [World.start], ?_, ?_, Or.inl rfl, fun _ => rfl⟩
    · intro h; simp [World.start, Phase.after] at h
    · rintro G (h | h) <;> simp [World.start] at h
  · intro j hj r hr i hi
    rfl
  · intro j hj i p hp hf
    have hne : (World.start files).look p ≠ none := fun h => hf ⟨p, hp, h⟩
    obtain ⟨v, hv⟩ := Option.ne_none_iff_exists'.1 hne
    rw [hv, S.stored j hj p (List.mem_of_getElem? hp) v hv]
  · intro hd j hj i p hp hf
    obtain ⟨p', hp', hl⟩ := hf
    rw [hp] at hp'
    cases hp'
    rw [hl]
    simp [World.start, Rank.fileOf, Phase.isOpen]

theorem Inv.look_none {c : World V} (h : Inv P f files c) (hd : files = none) (p : Point R) : c.look p = none := by
  unfold World.look
  rw [h.dir.2 hd]
  rfl

/-- an idle rank finds no file of a fresh job -/
theorem Inv.look_fresh {c : World V} (h : Inv P f files c) {j r : Nat} (hj : j < P.brigades) (hr : r < P.size)
    {p : Point R} (ht : (P.jobs j)[(c.ranks j r).pos]? = some p) (hp : (c.ranks j r).phase = .idle)
    (hf : Fresh P files j (c.ranks j r).pos) : c.look p = none := by
  by_cases hd : files = none
  · exact h.look_none hd p
  · rw [h.new hd j hj _ p ht hf]
    have h1 : ¬ (c.ranks j r).passed (c.ranks j r).pos := by
      rintro (h1 | ⟨-, h1⟩)
      · exact Nat.lt_irrefl _ h1
      · rw [hp] at h1; simp [Phase.after] at h1
    rw [h.sync j hj r hr _ hf] at h1
    unfold Rank.fileOf
    rw [if_neg (fun h2 => h1 (Or.inl h2)), if_neg (fun h2 => h1 (Or.inr ⟨h2.1, Phase.after_of_open h2.2⟩))]

/-- changing one rank and no file -/
theorem Inv.update {c : World V} (h : Inv P f files c) {j r : Nat} {q : Rank V}
    (hq : RankOk P f files j r q)
    (hs : ∀ i, Fresh P files j i → (q.passed i ↔ (c.ranks j r).passed i))
    (hfile : r = 0 → files ≠ none → ∀ i, Fresh P files j i → ∀ v, q.fileOf i v = (c.ranks j r).fileOf i v) :
    Inv P f files (c.setRank j r q) := by
  have hpass : ∀ j' r' i, Fresh P files j' i →
      (((c.setRank j r q).ranks j' r').passed i ↔ (c.ranks j' r').passed i) := by
    intro j' r' i hi
    simp only [World.setRank]
    split
    · rename_i hjr
      obtain ⟨rfl, rfl⟩ := hjr
      exact hs i hi
    · rfl
  refine ⟨h.dir, ?_, ?_, h.old, ?_⟩
  · intro j' hj' r' hr'
    simp only [World.setRank]
    split
    · rename_i hjr
      obtain ⟨rfl, rfl⟩ := hjr
      exact hq
    · exact h.rank j' hj' r' hr'
  · intro j' hj' r' hr' i hi
    rw [hpass j' r' i hi, hpass j' 0 i hi]
    exact h.sync j' hj' r' hr' i hi
  · intro hd j' hj' i p hp hi
    have h1 := h.new hd j' hj' i p hp hi
    have h2 : (c.setRank j r q).look p = c.look p := rfl
    rw [h2, h1]
    simp only [World.setRank]
    split
    · rename_i hjr
      obtain ⟨rfl, hr0⟩ := hjr
      subst hr0
      exact (hfile rfl hd i hi _).symm
    · rfl

theorem look_set {c : World V} {d : Dict PyStr (Option V)} (hd : c.files = some d) (j r : Nat) (q : Rank V) (p p' : Point R)
    (v : Option V) : (World.setRank { c with files := some (d.set (cacheKey p) v) } j r q).look p' =
      if cacheKey p' = cacheKey p then some v else c.look p' := by
  simp only [World.look, World.setRank, hd, Option.bind_some, get?_set]
  by_cases h : cacheKey p' = cacheKey p
  · simp [h]
  · simp [h, Ne.symm h]

/-- changing rank 0 of a brigade and the file of its fresh job -/
theorem Inv.updateFile {c : World V} (h : Inv P f files c) (S : Sound P f files) {j : Nat} (hj : j < P.brigades) {q : Rank V}
    {p : Point R} (ht : (P.jobs j)[(c.ranks j 0).pos]? = some p) (hfr : Fresh P files j (c.ranks j 0).pos)
    {d : Dict PyStr (Option V)} (hd : c.files = some d) (hq : RankOk P f files j 0 q)
    (hs : ∀ i, Fresh P files j i → (q.passed i ↔ (c.ranks j 0).passed i)) {v : Option V}
    (hv : q.fileOf (c.ranks j 0).pos (f p) = some v)
    (hfile : ∀ i, i ≠ (c.ranks j 0).pos → ∀ v, q.fileOf i v = (c.ranks j 0).fileOf i v) :
    Inv P f files (World.setRank { c with files := some (d.set (cacheKey p) v) } j 0 q) := by
  have hdir : files ≠ none := fun e => by rw [h.dir.2 e] at hd; cases hd
  have hpass : ∀ j' r' i, Fresh P files j' i →
      (((World.setRank { c with files := some (d.set (cacheKey p) v) } j 0 q).ranks j' r').passed i ↔
        (c.ranks j' r').passed i) := by
    intro j' r' i hi
    simp only [World.setRank]
    split
    · rename_i hjr
      obtain ⟨rfl, rfl⟩ := hjr
      exact hs i hi
    · rfl
  refine ⟨?_, ?_, ?_, ?_, ?_⟩
  · simp [World.setRank, hdir]
  · intro j' hj' r' hr'
    simp only [World.setRank]
    split
    · rename_i hjr
      obtain ⟨rfl, rfl⟩ := hjr
      exact hq
    · exact h.rank j' hj' r' hr'
  · intro j' hj' r' hr' i hi
    rw [hpass j' r' i hi, hpass j' 0 i hi]
    exact h.sync j' hj' r' hr' i hi
  · intro j' hj' i p' hp' hi
    rw [look_set hd, if_neg, h.old j' hj' i p' hp' hi]
    intro e
    obtain ⟨rfl, rfl⟩ := S.distinct hdir j' hj' j hj i _ p' p hp' ht e
    exact hi hfr
  · intro _ j' hj' i p' hp' hi
    rw [look_set hd]
    by_cases e : cacheKey p' = cacheKey p
    · rw [if_pos e]
      obtain ⟨rfl, rfl⟩ := S.distinct hdir j' hj' j hj i _ p' p hp' ht e
      rw [hp'] at ht
      cases ht
      simp only [World.setRank]
      simpa using hv.symm
    · rw [if_neg e, h.new hdir j' hj' i p' hp' hi]
      simp only [World.setRank]
      split
      · rename_i hjr
        obtain ⟨rfl, -⟩ := hjr
        refine (hfile i ?_ _).symm
        rintro rfl
        rw [hp'] at ht
        cases ht
        exact e rfl
      · rfl

theorem take_map_succ {l : List (Point R)} {n : Nat} {p : Point R} (h : l[n]? = some p) (g : Point R → V) :
    (l.take (n + 1)).map g = (l.take n).map g ++ [g p] := by
  rw [List.take_add_one, h]
  simp

/-- the rank after the call has returned -/
theorem RankOk.next {j r : Nat} {q : Rank V} (h : RankOk P f files j r q) {p : Point R}
    (ht : (P.jobs j)[q.pos]? = some p) : RankOk P f files j r (q.next (f p)) := by
  refine ⟨h.alive, ?_, ?_, ?_, ?_, Or.inl rfl, fun _ => rfl⟩
  · have := (List.getElem?_eq_some_iff.1 ht).1
    exact this
  · simp only [Rank.next, h.done, take_map_succ ht]
  · intro h'; simp [Rank.next, Phase.after] at h'
  · rintro G (h' | h') <;> simp [Rank.next] at h'

theorem Inv.all_equal {c : World V} (h : Inv P f files c) (S : Sound P f files) {j : Nat} (hj : j < P.brigades)
    (hall : ∀ r < P.size, (c.ranks j r).phase = .joined) (r : Nat) (hr : r < P.size) :
    (c.ranks j r).pos = (c.ranks j 0).pos := by
  have hsz := S.size
  have hfr : ∀ r < P.size, Fresh P files j (c.ranks j r).pos := by
    intro r hr
    rcases (h.rank j hj r hr).fresh with h1 | h1
    · rw [hall r hr] at h1; cases h1
    · exact h1
  have hnp : ∀ r < P.size, ¬ (c.ranks j r).passed (c.ranks j r).pos := by
    rintro r hr (h1 | ⟨-, h1⟩)
    · exact Nat.lt_irrefl _ h1
    · rw [hall r hr] at h1; simp [Phase.after] at h1
  rcases Nat.lt_trichotomy (c.ranks j r).pos (c.ranks j 0).pos with h1 | h1 | h1
  · exact absurd ((h.sync j hj r hr _ (hfr r hr)).2 (Or.inl h1)) (hnp r hr)
  · exact h1
  · exact absurd ((h.sync j hj r hr _ (hfr 0 hsz)).1 (Or.inl h1)) (hnp 0 hsz)

theorem Inv.heads {c : World V} (h : Inv P f files c) (S : Sound P f files) {j : Nat} (hj : j < P.brigades)
    (hall : ∀ r < P.size, (c.ranks j r).phase = .joined) {ps : List (Point R)} (hlen : ps.length = P.size)
    (hps : ∀ r < P.size, (P.jobs j)[(c.ranks j r).pos]? = ps[r]?) :
    ∃ p, (P.jobs j)[(c.ranks j 0).pos]? = some p ∧ ps = List.replicate P.size p := by
  have hsz := S.size
  obtain ⟨p, hp⟩ : ∃ p, (P.jobs j)[(c.ranks j 0).pos]? = some p := by
    rcases (h.rank j hj 0 hsz).fresh with h1 | ⟨p, hp, -⟩
    · rw [hall 0 hsz] at h1; cases h1
    · exact ⟨p, hp⟩
  refine ⟨p, hp, ?_⟩
  rw [List.eq_replicate_iff]
  refine ⟨hlen, ?_⟩
  intro b hb
  obtain ⟨r, hr⟩ := List.mem_iff_getElem?.1 hb
  have hr' : r < P.size := by rw [← hlen]; exact (List.getElem?_eq_some_iff.1 hr).1
  have h1 := hps r hr'
  rw [h.all_equal S hj hall r hr', hp, hr] at h1
  exact (Option.some.inj h1).symm

theorem Inv.step (S : Sound P f files) {c d : World V} (h : Inv P f files c) (hs : Step P c d) : Inv P f files d := by
  have hsz := S.size
  cases hs with
  | hit j r p G hj hr hf hp ht hg =>
    have hnf : ¬ Fresh P files j (c.ranks j r).pos := by
      intro hfr
      rw [h.look_fresh hj hr ht hp hfr] at hg
      cases hg
    have hG : G = f p := by
      have := h.old j hj _ p ht hnf
      rw [hg] at this
      exact Option.some.inj (Option.some.inj this)
    subst hG
    refine h.update ((h.rank j hj r hr).next ht) ?_ ?_
    · intro i hi
      have hne : i ≠ (c.ranks j r).pos := fun e => hnf (e ▸ hi)
      simp only [Rank.passed, Rank.next, Phase.after, hp]
      constructor
      · rintro (h1 | ⟨-, h1⟩)
        · exact Or.inl (by omega)
        · cases h1
      · rintro (h1 | ⟨-, h1⟩)
        · exact Or.inl (by omega)
        · cases h1
    · intro _ _ i hi v
      have hne : i ≠ (c.ranks j r).pos := fun e => hnf (e ▸ hi)
      have : i < (c.ranks j r).pos + 1 ↔ i < (c.ranks j r).pos := by omega
      simp [Rank.fileOf, Rank.next, Phase.isOpen, hp, this]
  | eof j r p hj hr hf hp ht hg =>
    exfalso
    by_cases hfr : Fresh P files j (c.ranks j r).pos
    · rw [h.look_fresh hj hr ht hp hfr] at hg
      cases hg
    · rw [h.old j hj _ p ht hfr] at hg
      cases hg
  | enter j r p hj hr hf hp ht hg =>
    have hfr : Fresh P files j (c.ranks j r).pos := by
      by_contra hfr
      rw [h.old j hj _ p ht hfr] at hg
      cases hg
    have h0 := h.rank j hj r hr
    refine h.update ⟨h0.alive, h0.le, h0.done, ?_, ?_, Or.inr hfr, fun _ => rfl⟩ ?_ ?_
    · intro h'; simp [Phase.after] at h'
    · rintro G (h' | h') <;> simp at h'
    · intro i hi
      simp [Rank.passed, Phase.after, hp]
    · intro _ _ i hi v
      simp [Rank.fileOf, Phase.isOpen, hp]
  | meet j ps G hj hall hlen hps hs =>
    obtain ⟨p, hp, hrep⟩ := h.heads S hj (fun r hr => (hall r hr).2) hlen hps
    have hpos := h.all_equal S hj (fun r hr => (hall r hr).2)
    have hG : G = f p := by
      rw [hrep, S.result j hj p (List.mem_of_getElem? hp)] at hs
      exact (Except.ok.inj hs).symm
    subst hG
    have hfr : Fresh P files j (c.ranks j 0).pos := by
      rcases (h.rank j hj 0 hsz).fresh with h1 | h1
      · rw [(hall 0 hsz).2] at h1; cases h1
      · exact h1
    have hpass : ∀ r < P.size, ∀ i, ((c.setBrigade j (fun r => if r < P.size then
        if r = 0 then { c.ranks j r with phase := .computed (f p) } else (c.ranks j r).next (f p) else c.ranks j r)).ranks
          j r).passed i ↔ i ≤ (c.ranks j 0).pos := by
      intro r hr i
      simp only [World.setBrigade, if_true, if_pos hr]
      split
      · rename_i h0
        subst h0
        simp only [Rank.passed, Phase.after, and_true]
        omega
      · simp only [Rank.passed, Rank.next, hpos r hr, Phase.after, Bool.false_eq_true, and_false, or_false]
        omega
    refine ⟨h.dir, ?_, ?_, h.old, ?_⟩
    · intro j' hj' r hr
      simp only [World.setBrigade]
      split
      · rename_i he
        subst he
        have h0 := h.rank j' hj r hr
        split
        · rename_i hr0
          subst hr0
          refine ⟨h0.alive, h0.le, h0.done, fun _ => rfl, ?_, Or.inr hfr, fun _ => rfl⟩
          rintro G (h' | h')
          · simp only [Phase.computed.injEq] at h'
            exact ⟨p, hp, h'.symm⟩
          · simp at h'
        · exact h0.next (by rw [hpos r hr]; exact hp)
      · exact h.rank j' hj' r hr
    · intro j' hj' r hr i hi
      by_cases he : j' = j
      · subst he
        rw [hpass r hr i, hpass 0 hsz i]
      · simp only [World.setBrigade, if_neg he]
        exact h.sync j' hj' r hr i hi
    · intro hd j' hj' i q hq hi
      have h2 : (c.setBrigade j (fun r => if r < P.size then
        if r = 0 then { c.ranks j r with phase := .computed (f p) } else (c.ranks j r).next (f p)
          else c.ranks j r)).look q = c.look q := rfl
      rw [h2, h.new hd j' hj' i q hq hi]
      simp only [World.setBrigade]
      split
      · rename_i he
        subst he
        rw [if_pos (show 0 < P.size from hsz)]
        simp [Rank.fileOf, Phase.isOpen, (hall 0 hsz).2]
      · rfl
  | crash j ps e hj hall hlen hps hs =>
    obtain ⟨p, hp, hrep⟩ := h.heads S hj (fun r hr => (hall r hr).2) hlen hps
    rw [hrep, S.result j hj p (List.mem_of_getElem? hp)] at hs
    cases hs
  | skip j r G hj hr hf hp hd =>
    have h0 := h.rank j hj r hr
    obtain ⟨p, ht, rfl⟩ := h0.value G (Or.inl hp)
    refine h.update (h0.next ht) ?_ ?_
    · intro i hi
      simp only [Rank.passed, Rank.next, Phase.after, hp]
      simp
      omega
    · intro _ hd' _ _ _
      exact absurd (h.dir.1 hd) hd'
  | «open» j r p G d hj hr hf hp ht hd =>
    have h0 := h.rank j hj r hr
    have hr0 : r = 0 := h0.lead (by rw [hp]; rfl)
    subst hr0
    obtain ⟨p', ht', rfl⟩ := h0.value G (Or.inl hp)
    rw [ht] at ht'
    cases ht'
    have hfr : Fresh P files j (c.ranks j 0).pos := by
      rcases h0.fresh with h1 | h1
      · rw [hp] at h1; cases h1
      · exact h1
    refine h.updateFile S hj ht hfr hd (q := { c.ranks j 0 with phase := .opened (f p) }) ⟨h0.alive, h0.le, h0.done, fun _ => rfl, ?_, Or.inr hfr, ?_⟩ ?_ ?_ ?_
    · rintro G (h' | h')
      · simp at h'
      · simp only [Phase.opened.injEq] at h'
        exact ⟨p, ht, h'.symm⟩
    · intro hn
      rw [h.dir.2 hn] at hd
      cases hd
    · intro i hi
      simp [Rank.passed, Phase.after, hp]
    · simp [Rank.fileOf, Phase.isOpen]
    · intro i hne v
      simp [Rank.fileOf, Phase.isOpen, hne]
  | write j r p G d hj hr hf hp ht hd =>
    have h0 := h.rank j hj r hr
    have hr0 : r = 0 := h0.lead (by rw [hp]; rfl)
    subst hr0
    obtain ⟨p', ht', rfl⟩ := h0.value G (Or.inr hp)
    rw [ht] at ht'
    cases ht'
    have hfr : Fresh P files j (c.ranks j 0).pos := by
      rcases h0.fresh with h1 | h1
      · rw [hp] at h1; cases h1
      · exact h1
    refine h.updateFile S hj ht hfr hd (h0.next ht) ?_ ?_ ?_
    · intro i hi
      simp only [Rank.passed, Rank.next, Phase.after, hp]
      simp
      omega
    · simp [Rank.fileOf, Rank.next]
    · intro i hne v
      have : i < (c.ranks j 0).pos + 1 ↔ i < (c.ranks j 0).pos := by omega
      simp [Rank.fileOf, Rank.next, Phase.isOpen, hne, this]

theorem Inv.steps (S : Sound P f files) {c d : World V} (h : Inv P f files c) (hs : Steps P c d) : Inv P f files d := by
  induction hs with
  | refl => exact h
  | tail _ h2 ih => exact ih.step S h2

/-- while not everything is done, some rank or brigade can move -/
theorem Inv.progress (S : Sound P f files) {c : World V} (h : Inv P f files c) (hn : ¬ Final P c) : ∃ d, Step P c d := by
  have hsz := S.size
  by_contra hno
  apply hn
  -- no rank is idle with a job left
  have hidle : ∀ j < P.brigades, ∀ r < P.size, (c.ranks j r).phase = .idle → (c.ranks j r).pos = (P.jobs j).length := by
    intro j hj r hr hp
    have h0 := h.rank j hj r hr
    by_contra hne
    have hlt : (c.ranks j r).pos < (P.jobs j).length := lt_of_le_of_ne h0.le hne
    have ht := List.getElem?_eq_getElem hlt
    by_cases hfr : Fresh P files j (c.ranks j r).pos
    · exact hno ⟨_, .enter c j r _ hj hr h0.alive hp ht (h.look_fresh hj hr ht hp hfr)⟩
    · exact hno ⟨_, .hit c j r _ _ hj hr h0.alive hp ht (h.old j hj _ _ ht hfr)⟩
  have hafter : ∀ j < P.brigades, ∀ r < P.size, (c.ranks j r).phase.after = false := by
    intro j hj r hr
    have h0 := h.rank j hj r hr
    cases hp : (c.ranks j r).phase with
    | idle => rfl
    | joined => rfl
    | computed G =>
      obtain ⟨p, ht, -⟩ := h0.value G (Or.inl hp)
      cases hd : c.files with
      | none => exact absurd ⟨_, Step.skip c j r G hj hr h0.alive hp hd⟩ hno
      | some d => exact absurd ⟨_, Step.open c j r p G d hj hr h0.alive hp ht hd⟩ hno
    | opened G =>
      obtain ⟨p, ht, -⟩ := h0.value G (Or.inr hp)
      cases hd : c.files with
      | none =>
        have := h0.nodir (h.dir.1 hd)
        rw [hp] at this
        simp [Phase.isOpen] at this
      | some d => exact absurd ⟨_, Step.write c j r p G d hj hr h0.alive hp ht hd⟩ hno
  have hjoin : ∀ j < P.brigades, ∀ r < P.size, (c.ranks j r).phase ≠ .joined := by
    intro j hj r hr hp
    have h0 := h.rank j hj r hr
    have hfr : Fresh P files j (c.ranks j r).pos := by
      rcases h0.fresh with h1 | h1
      · rw [hp] at h1; cases h1
      · exact h1
    have hnp : ¬ (c.ranks j r).passed (c.ranks j r).pos := by
      rintro (h1 | ⟨-, h1⟩)
      · exact Nat.lt_irrefl _ h1
      · rw [hp] at h1; simp [Phase.after] at h1
    have hall : ∀ r' < P.size, (c.ranks j r').phase = .joined := by
      intro r' hr'
      cases hp' : (c.ranks j r').phase with
      | joined => rfl
      | computed G => have := hafter j hj r' hr'; rw [hp'] at this; cases this
      | opened G => have := hafter j hj r' hr'; rw [hp'] at this; cases this
      | idle =>
        exfalso
        have h1 := hidle j hj r' hr' hp'
        obtain ⟨p, hp1, -⟩ := id hfr
        have h2 : (c.ranks j r).pos < (c.ranks j r').pos := by
          rw [h1]; exact (List.getElem?_eq_some_iff.1 hp1).1
        exact hnp ((h.sync j hj r hr _ hfr).2 ((h.sync j hj r' hr' _ hfr).1 (Or.inl h2)))
    have hpos := h.all_equal S hj hall
    obtain ⟨p, hp1, hl⟩ := hfr
    rw [hpos r hr] at hp1
    refine hno ⟨_, .meet c j (List.replicate P.size p) (f p) hj
      (fun r' hr' => ⟨(h.rank j hj r' hr').alive, hall r' hr'⟩) (by simp) ?_
      (S.result j hj p (List.mem_of_getElem? hp1))⟩
    intro r' hr'
    rw [hpos r' hr', hp1]
    simp [hr']
  intro j hj r hr
  have h0 := h.rank j hj r hr
  have hp : (c.ranks j r).phase = .idle := by
    cases hp : (c.ranks j r).phase with
    | idle => rfl
    | joined => exact absurd hp (hjoin j hj r hr)
    | computed G => have := hafter j hj r hr; rw [hp] at this; cases this
    | opened G => have := hafter j hj r hr; rw [hp] at this; cases this
  exact ⟨h0.alive, hp, hidle j hj r hr hp⟩

theorem work_next {q : Rank V} {n : Nat} (h : q.pos < n) (G : V) : (q.next G).work n < q.work n := by
  unfold Rank.work Rank.next
  cases q.phase <;> simp only <;> omega

theorem work_lt_of_rank {c d : World V} {j r : Nat} (hj : j < P.brigades) (hr : r < P.size)
    (hlt : (d.ranks j r).work (P.jobs j).length < (c.ranks j r).work (P.jobs j).length)
    (hle : ∀ j' < P.brigades, ∀ r' < P.size,
      (d.ranks j' r').work (P.jobs j').length ≤ (c.ranks j' r').work (P.jobs j').length) :
    work P d < work P c := by
  unfold work
  refine List.sum_lt_sum _ _ ?_ ⟨j, List.mem_range.2 hj, ?_⟩
  · intro j' hj'
    exact List.sum_le_sum (fun r' hr' => hle j' (List.mem_range.1 hj') r' (List.mem_range.1 hr'))
  · exact List.sum_lt_sum _ _ (fun r' hr' => hle j hj r' (List.mem_range.1 hr')) ⟨r, List.mem_range.2 hr, hlt⟩

theorem work_lt_of_setRank {c : World V} {j r : Nat} {q : Rank V} {fs : Option (Dict PyStr (Option V))}
    (hj : j < P.brigades) (hr : r < P.size)
    (hlt : q.work (P.jobs j).length < (c.ranks j r).work (P.jobs j).length) :
    work P (World.setRank { c with files := fs } j r q) < work P c := by
  refine work_lt_of_rank hj hr (by simpa [World.setRank] using hlt) ?_
  intro j' hj' r' hr'
  simp only [World.setRank]
  split
  · rename_i hjr
    obtain ⟨rfl, rfl⟩ := hjr
    exact hlt.le
  · exact le_rfl

/-- every step uses up work -/
theorem Inv.decreases (S : Sound P f files) {c d : World V} (h : Inv P f files c) (hs : Step P c d) :
    work P d < work P c := by
  have hsz := S.size
  cases hs with
  | hit j r p G hj hr hf hp ht hg =>
    exact work_lt_of_setRank (fs := c.files) hj hr (work_next (List.getElem?_eq_some_iff.1 ht).1 G)
  | eof j r p hj hr hf hp ht hg =>
    exfalso
    by_cases hfr : Fresh P files j (c.ranks j r).pos
    · rw [h.look_fresh hj hr ht hp hfr] at hg
      cases hg
    · rw [h.old j hj _ p ht hfr] at hg
      cases hg
  | enter j r p hj hr hf hp ht hg =>
    refine work_lt_of_setRank (fs := c.files) hj hr ?_
    have := (List.getElem?_eq_some_iff.1 ht).1
    simp only [Rank.work, hp]
    omega
  | meet j ps G hj hall hlen hps hs =>
    obtain ⟨p, hp, hrep⟩ := h.heads S hj (fun r hr => (hall r hr).2) hlen hps
    have hpos := h.all_equal S hj (fun r hr => (hall r hr).2)
    have hlt := (List.getElem?_eq_some_iff.1 hp).1
    have key : ∀ r < P.size, (if r = 0 then { c.ranks j r with phase := .computed G } else (c.ranks j r).next G).work
        (P.jobs j).length < (c.ranks j r).work (P.jobs j).length := by
      intro r hr
      split
      · simp only [Rank.work, (hall r hr).2, hpos r hr]
        omega
      · exact work_next (by rw [hpos r hr]; exact hlt) G
    refine work_lt_of_rank hj hsz ?_ ?_
    · simpa [World.setBrigade, show 0 < P.size from hsz] using key 0 hsz
    · intro j' hj' r' hr'
      simp only [World.setBrigade]
      split
      · rename_i he
        subst he
        exact (key r' hr').le
      · exact le_rfl
  | crash j ps e hj hall hlen hps hs =>
    obtain ⟨p, hp, hrep⟩ := h.heads S hj (fun r hr => (hall r hr).2) hlen hps
    rw [hrep, S.result j hj p (List.mem_of_getElem? hp)] at hs
    cases hs
  | skip j r G hj hr hf hp hd =>
    obtain ⟨p, ht, -⟩ := (h.rank j hj r hr).value G (Or.inl hp)
    exact work_lt_of_setRank (fs := c.files) hj hr (work_next (List.getElem?_eq_some_iff.1 ht).1 G)
  | «open» j r p G d hj hr hf hp ht hd =>
    refine work_lt_of_setRank hj hr ?_
    have := (List.getElem?_eq_some_iff.1 ht).1
    simp only [Rank.work, hp]
    omega
  | write j r p G d hj hr hf hp ht hd =>
    exact work_lt_of_setRank hj hr (work_next (List.getElem?_eq_some_iff.1 ht).1 G)

end GGCE.Crew
