import Verif.Model.Stages
import Verif.Proofs.Shared

/-!
Two stages in one parallel program: the invariant of the interleavings.
-/

set_option linter.unusedSectionVars false

namespace GGCE.Stage
open Dict Petsc

variable {R K : Type} [Field R] [LinearOrder R] [IsStrictOrderedRing R] [FloorRing R] [Field K]

abbrev Files (K : Type) := Dict PyStr (Option (List (Nat × Nat × K)))

/-- What is needed: the ranks form brigades of equal size whose ranks have the same jobs in the second stage; the
second constructor splits the communicator, or there is one rank; matrices with the same file name are the same; all
matrices have `N` rows; files present at the start are complete matrices with `N` rows or prepared again; and the
matrix of every job of the second stage is prepared in the first, or was there already and is not touched. -/
structure Sound (P : Program R K) (N : Nat) (f : Point R → K) (files : Files K) : Prop where
  size : 1 ≤ P.size
  world : 1 ≤ P.world
  brigade : ∀ r < P.world, ∀ s, s / P.size = r / P.size → s < P.world ∧ P.second s = P.second r
  sync : P.split = true ∨ P.world = 1
  same : ∀ r < P.world, ∀ r' < P.world, ∀ p ∈ P.first r, ∀ q ∈ P.first r', matName p = matName q → P.matrix p = P.matrix q
  rows : ∀ r < P.world, ∀ p ∈ P.first r, P.matrix p ≠ [] ∧ cooRows (P.matrix p) = N
  found : ∀ n x, files.get? n = some x → (∃ r < P.world, ∃ p ∈ P.first r, matName p = n) ∨
    ∃ ts, x = some ts ∧ ts ≠ [] ∧ cooRows ts = N
  covered : ∀ r < P.world, ∀ p ∈ P.second r,
    (∃ r' < P.world, ∃ q ∈ P.first r', matName q = matName p ∧ P.matrix q = P.matrix p) ∨
    ((∀ r' < P.world, ∀ q ∈ P.first r', matName q ≠ matName p) ∧ files.get? (matName p) = some (some (P.matrix p)))
  result : ∀ r < P.world, ∀ p ∈ P.second r, P.solve (List.replicate P.size (N, p, P.matrix p)) = .ok (f p)

/-- in the second stage -/
def Phase.late : Phase K → Bool
  | .prepare _ | .writing _ | .arrived => false
  | _ => true

/-- number of jobs of the second stage behind the rank -/
def Phase.index : Phase K → Nat
  | .sample i | .load i _ | .joined i _ _ => i
  | _ => 0

/-- number of matrix files the rank has opened, out of `n` -/
def Phase.started (n : Nat) : Phase K → Nat
  | .prepare i => i
  | .writing i => i + 1
  | _ => n

def RankOk (P : Program R K) (N : Nat) (f : Point R → K) (r : Nat) (done : List K) : Phase K → Prop
  | .prepare i => i ≤ (P.first r).length ∧ done = []
  | .writing i => i < (P.first r).length ∧ done = []
  | .arrived => P.split = true ∧ done = []
  | .sample i => i ≤ (P.second r).length ∧ done = ((P.second r).take i).map f
  | .load i n => i < (P.second r).length ∧ n = N ∧ done = ((P.second r).take i).map f
  | .joined i n ts => n = N ∧ (∃ p, (P.second r)[i]? = some p ∧ ts = P.matrix p) ∧ done = ((P.second r).take i).map f
  | .failed => False

/-- rank `r` is writing the file `n` -/
def Writing (P : Program R K) (c : World K) (n : PyStr) : Prop :=
  ∃ r < P.world, ∃ i p, c.phase r = .writing i ∧ (P.first r)[i]? = some p ∧ matName p = n

/-- some rank has opened the file `n` -/
def Touched (P : Program R K) (c : World K) (n : PyStr) : Prop :=
  ∃ r < P.world, ∃ i p, (P.first r)[i]? = some p ∧ i < (c.phase r).started (P.first r).length ∧ matName p = n

structure FilesOk (P : Program R K) (files : Files K) (c : World K) : Prop where
  fresh : ∀ n, ¬ Touched P c n → c.files.get? n = files.get? n
  filed : ∀ r < P.world, ∀ i p, (P.first r)[i]? = some p → i < (c.phase r).started (P.first r).length →
    c.files.get? (matName p) = some (some (P.matrix p)) ∨
    (c.files.get? (matName p) = some none ∧ Writing P c (matName p))

/-- the invariant -/
structure Inv (P : Program R K) (N : Nat) (f : Point R → K) (files : Files K) (c : World K) : Prop where
  rank : ∀ r < P.world, RankOk P N f r (c.done r) (c.phase r)
  stage : (∀ r < P.world, (c.phase r).late = false) ∨ (∀ r < P.world, (c.phase r).late = true)
  lock : ∀ r < P.world, ∀ r' < P.world, r / P.size = r' / P.size → (c.phase r).index = (c.phase r').index
  disk : FilesOk P files c

variable {P : Program R K} {N : Nat} {f : Point R → K} {files : Files K}

theorem Inv.start (files : Files K) : Inv P N f files (World.start files) := by
  refine ⟨fun r _ => ⟨Nat.zero_le _, rfl⟩, Or.inl (fun _ _ => rfl), fun _ _ _ _ _ => rfl, fun n _ => rfl, ?_⟩
  intro r hr i p hp hi
  simp [World.start, Phase.started] at hi

/-- steps that leave the files alone -/
theorem FilesOk.keep {c d : World K} (h : FilesOk P files c) (hf : d.files = c.files)
    (hs : ∀ r < P.world, (d.phase r).started (P.first r).length = (c.phase r).started (P.first r).length)
    (hw : ∀ r < P.world, ∀ i, c.phase r = .writing i → d.phase r = .writing i) : FilesOk P files d := by
  have ht : ∀ n, Touched P c n → Touched P d n := by
    rintro n ⟨r, hr, i, p, h1, h2, h3⟩
    exact ⟨r, hr, i, p, h1, by rw [hs r hr]; exact h2, h3⟩
  refine ⟨fun n hn => by rw [hf]; exact h.fresh n (fun h' => hn (ht n h')), ?_⟩
  intro r hr i p hp hi
  rw [hs r hr] at hi
  rw [hf]
  rcases h.filed r hr i p hp hi with h1 | ⟨h1, r', hr', i', p', h2, h3, h4⟩
  · exact Or.inl h1
  · exact Or.inr ⟨h1, r', hr', i', p', hw r' hr' i' h2, h3, h4⟩

theorem FilesOk.opened {c : World K} (h : FilesOk P files c) {r i : Nat} {p : Point R} (hr : r < P.world)
    (hp : c.phase r = .prepare i) (ht : (P.first r)[i]? = some p) :
    FilesOk P files (World.setPhase { c with files := c.files.set (matName p) none } r (.writing i)) := by
  constructor
  · intro n hn
    have hne : n ≠ matName p := by
      rintro rfl
      exact hn ⟨r, hr, i, p, ht, by simp [World.setPhase, Phase.started], rfl⟩
    simp only [World.setPhase, get?_set, if_neg (Ne.symm hne)]
    apply h.fresh
    rintro ⟨r', hr', i', q, h1, h2, h3⟩
    refine hn ⟨r', hr', i', q, h1, ?_, h3⟩
    simp only [World.setPhase]
    split
    · rename_i he
      subst he
      rw [hp] at h2
      simp only [Phase.started] at h2 ⊢
      omega
    · exact h2
  · intro r' hr' i' q hq hi
    simp only [World.setPhase, get?_set]
    by_cases hn : matName q = matName p
    · rw [if_pos hn.symm]
      exact Or.inr ⟨rfl, r, hr, i, p, by simp [World.setPhase], ht, hn.symm⟩
    · rw [if_neg (Ne.symm hn)]
      have hold : i' < (c.phase r').started (P.first r').length := by
        simp only [World.setPhase] at hi
        split at hi
        · rename_i he
          subst he
          rw [hp]
          simp only [Phase.started] at hi ⊢
          by_contra hc
          obtain rfl : i' = i := by omega
          rw [ht] at hq
          cases hq
          exact hn rfl
        · exact hi
      rcases h.filed r' hr' i' q hq hold with h1 | ⟨h1, r2, hr2, i2, p2, h2, h3, h4⟩
      · exact Or.inl h1
      · refine Or.inr ⟨h1, r2, hr2, i2, p2, ?_, h3, h4⟩
        simp only [World.setPhase]
        rw [if_neg, h2]
        rintro rfl
        rw [hp] at h2
        cases h2

theorem FilesOk.written {c : World K} (S : Sound P N f files) (h : FilesOk P files c) {r i : Nat} {p : Point R}
    (hr : r < P.world) (hp : c.phase r = .writing i) (ht : (P.first r)[i]? = some p) :
    FilesOk P files (World.setPhase { c with files := c.files.set (matName p) (some (P.matrix p)) } r
      (.prepare (i + 1))) := by
  have hst : ∀ r', ((World.setPhase { c with files := c.files.set (matName p) (some (P.matrix p)) } r
      (.prepare (i + 1))).phase r').started (P.first r').length = (c.phase r').started (P.first r').length := by
    intro r'
    simp only [World.setPhase]
    split
    · rename_i he
      subst he
      rw [hp]
      rfl
    · rfl
  constructor
  · intro n hn
    have hne : n ≠ matName p := by
      rintro rfl
      exact hn ⟨r, hr, i, p, ht, by simp [World.setPhase, Phase.started], rfl⟩
    simp only [World.setPhase, get?_set, if_neg (Ne.symm hne)]
    apply h.fresh
    rintro ⟨r', hr', i', q, h1, h2, h3⟩
    exact hn ⟨r', hr', i', q, h1, by rw [hst]; exact h2, h3⟩
  · intro r' hr' i' q hq hi
    rw [hst] at hi
    simp only [World.setPhase, get?_set]
    by_cases hn : matName q = matName p
    · rw [if_pos hn.symm, S.same r' hr' r hr q (List.mem_of_getElem? hq) p (List.mem_of_getElem? ht) hn]
      exact Or.inl rfl
    · rw [if_neg (Ne.symm hn)]
      rcases h.filed r' hr' i' q hq hi with h1 | ⟨h1, r2, hr2, i2, p2, h2, h3, h4⟩
      · exact Or.inl h1
      · refine Or.inr ⟨h1, r2, hr2, i2, p2, ?_, h3, h4⟩
        simp only [World.setPhase]
        rw [if_neg, h2]
        rintro rfl
        rw [hp] at h2
        cases h2
        rw [ht] at h3
        cases h3
        exact hn h4.symm

/-- in the second stage every matrix is there and complete -/
theorem Inv.complete {c : World K} (S : Sound P N f files) (h : Inv P N f files c) (hl : ∀ r < P.world, (c.phase r).late = true) :
    (∀ n x, c.files.get? n = some x → ∃ ts, x = some ts ∧ ts ≠ [] ∧ cooRows ts = N) ∧
    (∀ r < P.world, ∀ p ∈ P.second r, c.files.get? (matName p) = some (some (P.matrix p))) := by
  have hst : ∀ r < P.world, (c.phase r).started (P.first r).length = (P.first r).length := by
    intro r hr
    have := hl r hr
    cases hph : c.phase r <;> simp_all [Phase.late, Phase.started]
  have hfile : ∀ r < P.world, ∀ p ∈ P.first r, c.files.get? (matName p) = some (some (P.matrix p)) := by
    intro r hr p hp
    obtain ⟨i, hi⟩ := List.mem_iff_getElem?.1 hp
    rcases h.disk.filed r hr i p hi (by rw [hst r hr]; exact (List.getElem?_eq_some_iff.1 hi).1) with h1 | ⟨-, r', hr', i', p', h2, -⟩
    · exact h1
    · have := hl r' hr'
      rw [h2] at this
      cases this
  have hold : ∀ n, (∀ r < P.world, ∀ p ∈ P.first r, matName p ≠ n) → c.files.get? n = files.get? n := by
    intro n hn
    apply h.disk.fresh
    rintro ⟨r, hr, i, p, h1, -, h3⟩
    exact hn r hr p (List.mem_of_getElem? h1) h3
  constructor
  · intro n x hx
    by_cases hn : ∃ r < P.world, ∃ p ∈ P.first r, matName p = n
    · obtain ⟨r, hr, p, hp, rfl⟩ := hn
      rw [hfile r hr p hp] at hx
      cases hx
      exact ⟨_, rfl, S.rows r hr p hp⟩
    · rw [hold n (fun r hr p hp he => hn ⟨r, hr, p, hp, he⟩)] at hx
      exact (S.found n x hx).resolve_left hn
  · intro r hr p hp
    rcases S.covered r hr p hp with ⟨r', hr', q, hq, h1, h2⟩ | ⟨h1, h2⟩
    · rw [← h1, hfile r' hr' q hq, h2]
    · rw [hold _ h1, h2]

theorem Inv.allLate {c : World K} (h : Inv P N f files c) {r : Nat} (hr : r < P.world) (hl : (c.phase r).late = true) :
    ∀ r < P.world, (c.phase r).late = true := by
  rcases h.stage with h1 | h1
  · rw [h1 r hr] at hl; cases hl
  · exact h1

theorem Inv.allEarly {c : World K} (h : Inv P N f files c) {r : Nat} (hr : r < P.world) (hl : (c.phase r).late = false) :
    ∀ r < P.world, (c.phase r).late = false := by
  rcases h.stage with h1 | h1
  · exact h1
  · rw [h1 r hr] at hl; cases hl

/-- the list of what the ranks of a brigade have read -/
theorem Inv.agree {c : World K} (S : Sound P N f files) (h : Inv P N f files c) {j : Nat}
    {l : List (Nat × Point R × List (Nat × Nat × K))} (hj : j * P.size < P.world) (hlen : l.length = P.size)
    (hall : ∀ s < P.size, ∃ i N p ts, c.phase (j * P.size + s) = .joined i N ts ∧
      (P.second (j * P.size + s))[i]? = some p ∧ l[s]? = some (N, p, ts)) :
    ∃ i p, (P.second (j * P.size))[i]? = some p ∧ l = List.replicate P.size (N, p, P.matrix p) ∧
      ∀ r, r / P.size = j → r < P.world ∧ c.phase r = .joined i N (P.matrix p) := by
  have hsz := S.size
  have hdiv : ∀ s < P.size, (j * P.size + s) / P.size = j := by
    intro s hs
    rw [Nat.mul_comm, Nat.mul_add_div (by omega), Nat.div_eq_of_lt hs, Nat.add_zero]
  have hj0 : j * P.size / P.size = j := Nat.mul_div_cancel _ (by omega)
  have hmem : ∀ s < P.size, j * P.size + s < P.world ∧ P.second (j * P.size + s) = P.second (j * P.size) := by
    intro s hs
    exact S.brigade (j * P.size) hj _ (by rw [hdiv s hs, hj0])
  obtain ⟨i, n, p, ts, h1, h2, h3⟩ := hall 0 (by omega)
  rw [Nat.add_zero] at h1 h2
  have hkey : ∀ s < P.size, c.phase (j * P.size + s) = .joined i N (P.matrix p) ∧ l[s]? = some (N, p, P.matrix p) := by
    intro s hs
    obtain ⟨i', n', p', ts', k1, k2, k3⟩ := hall s hs
    have hl := h.lock _ (hmem s hs).1 _ hj (by rw [hdiv s hs, hj0])
    rw [k1, h1] at hl
    simp only [Phase.index] at hl
    subst hl
    rw [(hmem s hs).2, h2] at k2
    cases k2
    have hok := h.rank _ (hmem s hs).1
    rw [k1] at hok
    obtain ⟨rfl, ⟨q, hq, rfl⟩, -⟩ := hok
    rw [(hmem s hs).2, h2] at hq
    cases hq
    exact ⟨k1, k3⟩
  refine ⟨i, p, h2, ?_, ?_⟩
  · refine List.ext_getElem? (fun s => ?_)
    by_cases hs : s < P.size
    · rw [(hkey s hs).2, List.getElem?_replicate, if_pos hs]
    · rw [List.getElem?_eq_none (by omega), List.getElem?_replicate, if_neg hs]
  · intro r hr
    have hr' : r = j * P.size + r % P.size := by
      have := Nat.div_add_mod r P.size
      rw [hr, Nat.mul_comm] at this
      exact this.symm
    have hlt : r % P.size < P.size := Nat.mod_lt _ (by omega)
    rw [hr']
    exact ⟨(hmem _ hlt).1, (hkey _ hlt).1⟩

/-- changing the phase of one rank within the second stage, without moving to another job -/
theorem Inv.late {c : World K} (h : Inv P N f files c) {r : Nat} {q : Phase K} (hr : r < P.world)
    (hl : (c.phase r).late = true) (hq : q.late = true) (hi : q.index = (c.phase r).index)
    (hok : RankOk P N f r (c.done r) q) : Inv P N f files (c.setPhase r q) := by
  have hall := h.allLate hr hl
  have hph : ∀ r', (c.setPhase r q).phase r' = if r' = r then q else c.phase r' := fun _ => rfl
  refine ⟨?_, Or.inr ?_, ?_, h.disk.keep rfl ?_ ?_⟩
  · intro r' hr'
    rw [hph]
    split
    · rename_i he; subst he; exact hok
    · exact h.rank r' hr'
  · intro r' hr'
    rw [hph]
    split
    · exact hq
    · exact hall r' hr'
  · intro r1 h1 r2 h2 he
    have hidx : ∀ r', ((c.setPhase r q).phase r').index = (c.phase r').index := by
      intro r'
      rw [hph]
      split
      · rename_i he; subst he; exact hi
      · rfl
    rw [hidx, hidx]
    exact h.lock r1 h1 r2 h2 he
  · intro r' hr'
    rw [hph]
    split
    · rename_i he
      subst he
      cases hc : c.phase r' <;> rw [hc] at hl <;> cases q <;> simp_all [Phase.late, Phase.started]
    · rfl
  · intro r' hr' i hw
    have := hall r' hr'
    rw [hw] at this
    cases this

theorem Inv.step {c d : World K} (S : Sound P N f files) (h : Inv P N f files c) (hd : Step P c d) : Inv P N f files d := by
  cases hd with
  | «open» r i p hr hp ht =>
    have hea := h.allEarly hr (by rw [hp]; rfl)
    have hok := h.rank r hr
    rw [hp] at hok
    refine ⟨?_, Or.inl ?_, ?_, h.disk.opened hr hp ht⟩
    · intro r' hr'
      simp only [World.setPhase]
      split
      · rename_i he; subst he; exact ⟨(List.getElem?_eq_some_iff.1 ht).1, hok.2⟩
      · exact h.rank r' hr'
    · intro r' hr'
      simp only [World.setPhase]
      split
      · rfl
      · exact hea r' hr'
    · intro r1 h1 r2 h2 he
      have hidx : ∀ r', (if r' = r then Phase.writing i else c.phase r').index = (c.phase r').index := by
        intro r'
        split
        · rename_i he; rw [he, hp]; rfl
        · rfl
      simp only [World.setPhase, hidx]
      exact h.lock r1 h1 r2 h2 he
  | write r i p hr hp ht =>
    have hea := h.allEarly hr (by rw [hp]; rfl)
    have hok := h.rank r hr
    rw [hp] at hok
    refine ⟨?_, Or.inl ?_, ?_, h.disk.written S hr hp ht⟩
    · intro r' hr'
      simp only [World.setPhase]
      split
      · rename_i he; subst he; exact ⟨(List.getElem?_eq_some_iff.1 ht).1, hok.2⟩
      · exact h.rank r' hr'
    · intro r' hr'
      simp only [World.setPhase]
      split
      · rfl
      · exact hea r' hr'
    · intro r1 h1 r2 h2 he
      have hidx : ∀ r', (if r' = r then Phase.prepare (i + 1) else c.phase r').index = (c.phase r').index := by
        intro r'
        split
        · rename_i he; rw [he, hp]; rfl
        · rfl
      simp only [World.setPhase, hidx]
      exact h.lock r1 h1 r2 h2 he
  | arrive r hr hp =>
    have hea := h.allEarly hr (by rw [hp]; rfl)
    have hok := h.rank r hr
    rw [hp] at hok
    have hdisk : FilesOk P files (c.setPhase r (if P.split then .arrived else .sample 0)) := by
      refine h.disk.keep rfl ?_ ?_
      · intro r' hr'
        simp only [World.setPhase]
        split
        · rename_i he
          subst he
          rw [hp]
          split <;> rfl
        · rfl
      · intro r' hr' i hw
        simp only [World.setPhase]
        rw [if_neg, hw]
        rintro rfl
        rw [hp] at hw
        cases hw
    have hlock : ∀ r1 < P.world, ∀ r2 < P.world, r1 / P.size = r2 / P.size →
        ((c.setPhase r (if P.split then .arrived else .sample 0)).phase r1).index =
        ((c.setPhase r (if P.split then .arrived else .sample 0)).phase r2).index := by
      intro r1 h1 r2 h2 he
      have hidx : ∀ r', (if r' = r then (if P.split then Phase.arrived else .sample 0) else c.phase r').index =
          (c.phase r').index := by
        intro r'
        split
        · rename_i he; rw [he, hp]; split <;> rfl
        · rfl
      simp only [World.setPhase, hidx]
      exact h.lock r1 h1 r2 h2 he
    refine ⟨?_, ?_, hlock, hdisk⟩
    · intro r' hr'
      simp only [World.setPhase]
      split
      · rename_i he
        subst he
        split
        · rename_i hs; exact ⟨hs, hok.2⟩
        · exact ⟨Nat.zero_le _, by simpa using hok.2⟩
      · exact h.rank r' hr'
    · by_cases hs : P.split = true
      · left
        intro r' hr'
        simp only [World.setPhase, hs, if_true]
        split
        · rfl
        · exact hea r' hr'
      · right
        have hw := S.sync.resolve_left hs
        intro r' hr'
        obtain rfl : r' = r := by omega
        simp [World.setPhase, hs, Phase.late]
  | split hs hall =>
    have hph : ∀ r < P.world, (if r < P.world then Phase.sample 0 else c.phase r) = .sample 0 := fun r hr => if_pos hr
    refine ⟨?_, Or.inr ?_, ?_, h.disk.keep rfl ?_ ?_⟩
    · intro r hr
      have hok := h.rank r hr
      rw [hall r hr] at hok
      simp only [hph r hr]
      exact ⟨Nat.zero_le _, by simpa using hok.2⟩
    · intro r hr
      simp only [hph r hr]
      rfl
    · intro r1 h1 r2 h2 he
      simp only [hph r1 h1, hph r2 h2]
    · intro r hr
      show (if r < P.world then Phase.sample 0 else c.phase r).started _ = _
      rw [hph r hr, hall r hr]
      rfl
    · intro r hr i hw
      rw [hall r hr] at hw
      cases hw
  | sample r i p n ts hr hp ht hn he =>
    have hl : (c.phase r).late = true := by rw [hp]; rfl
    have hok := h.rank r hr
    rw [hp] at hok
    obtain ⟨ts', h1, -, h2⟩ := (h.complete S (h.allLate hr hl)).1 n _ hn
    cases h1
    refine h.late hr hl rfl (by rw [hp]; rfl) ⟨(List.getElem?_eq_some_iff.1 ht).1, h2, hok.2⟩
  | noSample r i p hr hp ht hn =>
    exfalso
    have hl : (c.phase r).late = true := by rw [hp]; rfl
    obtain ⟨h1, h2⟩ := h.complete S (h.allLate hr hl)
    rcases hn with hn | ⟨n, hn | hn⟩
    · have := h2 r hr p (List.mem_of_getElem? ht)
      rw [hn] at this
      simp [Dict.get?] at this
    · obtain ⟨ts, h3, -⟩ := h1 n _ hn
      cases h3
    · obtain ⟨ts, h3, h4, -⟩ := h1 n _ hn
      cases h3
      exact h4 rfl
  | load r i n p ts hr hp ht hn =>
    have hl : (c.phase r).late = true := by rw [hp]; rfl
    have hok := h.rank r hr
    rw [hp] at hok
    have h2 := (h.complete S (h.allLate hr hl)).2 r hr p (List.mem_of_getElem? ht)
    rw [hn] at h2
    cases h2
    exact h.late hr hl rfl (by rw [hp]; rfl) ⟨hok.2.1, ⟨p, ht, rfl⟩, hok.2.2⟩
  | noLoad r i n p hr hp ht hn =>
    exfalso
    have hl : (c.phase r).late = true := by rw [hp]; rfl
    have h2 := (h.complete S (h.allLate hr hl)).2 r hr p (List.mem_of_getElem? ht)
    rcases hn with hn | hn <;> rw [hn] at h2 <;> cases h2
  | meet j l G hj hlen hall hs =>
    obtain ⟨i, p, hp, hl, hph⟩ := h.agree S hj hlen hall
    rw [hl, S.result _ hj p (List.mem_of_getElem? hp)] at hs
    cases hs
    have hlate := h.allLate (hph (j * P.size) (Nat.mul_div_cancel _ S.size)).1
      (by rw [(hph _ (Nat.mul_div_cancel _ S.size)).2]; rfl)
    have hphase : ∀ r, (if r / P.size = j then (c.phase r).next else c.phase r) = if r / P.size = j then .sample (i + 1) else c.phase r := by
      intro r
      split
      · rename_i he
        rw [(hph r he).2]
        rfl
      · rfl
    refine ⟨?_, Or.inr ?_, ?_, h.disk.keep rfl ?_ ?_⟩
    · intro r hr
      simp only [hphase]
      split
      · rename_i he
        have hok := h.rank r hr
        rw [(hph r he).2] at hok
        obtain ⟨-, ⟨q, hq, -⟩, hdone⟩ := hok
        have hsec := (S.brigade (j * P.size) hj r (by rw [he, Nat.mul_div_cancel _ S.size])).2
        have hq' := hq
        rw [hsec, hp] at hq'
        cases hq'
        refine ⟨(List.getElem?_eq_some_iff.1 hq).1, ?_⟩
        rw [hdone, List.take_add_one, hq]
        simp
      · exact h.rank r hr
    · intro r hr
      simp only [hphase]
      split
      · rfl
      · exact hlate r hr
    · intro r1 h1 r2 h2 he
      simp only [hphase]
      rw [he]
      split
      · rfl
      · exact h.lock r1 h1 r2 h2 he
    · intro r hr
      simp only [hphase]
      split
      · rename_i he
        rw [(hph r he).2]
        rfl
      · rfl
    · intro r hr i' hw
      have := hlate r hr
      rw [hw] at this
      cases this
  | crash j l e hj hlen hall hs =>
    exfalso
    obtain ⟨i, p, hp, hl, hph⟩ := h.agree S hj hlen hall
    rw [hl, S.result _ hj p (List.mem_of_getElem? hp)] at hs
    cases hs

theorem Inv.steps {c d : World K} (S : Sound P N f files) (h : Inv P N f files c) (hd : Steps P c d) : Inv P N f files d := by
  induction hd with
  | refl => exact h
  | tail _ hs ih => exact ih.step S hs

theorem Inv.progress {c : World K} (S : Sound P N f files) (h : Inv P N f files c) (hf : ¬ Final P c) : ∃ d, Step P c d := by
  rcases h.stage with he | hl
  · by_cases hall : ∀ r < P.world, c.phase r = .arrived
    · have h0 := h.rank 0 (by have := S.world; omega)
      rw [hall 0 (by have := S.world; omega)] at h0
      exact ⟨_, .split c h0.1 hall⟩
    · simp only [not_forall] at hall
      obtain ⟨r, hr, hne⟩ := hall
      have hok := h.rank r hr
      have hea := he r hr
      cases hph : c.phase r with
      | prepare i =>
        rw [hph] at hok
        by_cases hi : i < (P.first r).length
        · exact ⟨_, .open c r i _ hr hph (List.getElem?_eq_getElem hi)⟩
        · obtain rfl : i = (P.first r).length := by have := hok.1; omega
          exact ⟨_, .arrive c r hr hph⟩
      | writing i =>
        rw [hph] at hok
        exact ⟨_, .write c r i _ hr hph (List.getElem?_eq_getElem hok.1)⟩
      | arrived => exact absurd hph hne
      | sample i => rw [hph] at hea; cases hea
      | load i n => rw [hph] at hea; cases hea
      | joined i n ts => rw [hph] at hea; cases hea
      | failed => rw [hph] at hea; cases hea
  · obtain ⟨h1, h2⟩ := h.complete S hl
    unfold Final at hf
    simp only [not_forall] at hf
    obtain ⟨r, hr, hne⟩ := hf
    have hsample : ∀ r' < P.world, ∀ i, c.phase r' = .sample i → i < (P.second r').length → ∃ d, Step P c d := by
      intro r' hr' i hph hi
      have hp := List.getElem?_eq_getElem hi
      have hf := h2 r' hr' _ (List.mem_of_getElem? hp)
      obtain ⟨ts, h3, h4, -⟩ := h1 _ _ hf
      rw [h3] at hf
      exact ⟨_, .sample c r' i _ _ ts hr' hph hp hf h4⟩
    have hload : ∀ r' < P.world, ∀ i n, c.phase r' = .load i n → ∃ d, Step P c d := by
      intro r' hr' i n hph
      have hok := h.rank r' hr'
      rw [hph] at hok
      have hp := List.getElem?_eq_getElem hok.1
      exact ⟨_, .load c r' i n _ _ hr' hph hp (h2 r' hr' _ (List.mem_of_getElem? hp))⟩
    have hok := h.rank r hr
    have hlr := hl r hr
    cases hph : c.phase r with
    | prepare i => rw [hph] at hlr; cases hlr
    | writing i => rw [hph] at hlr; cases hlr
    | arrived => rw [hph] at hlr; cases hlr
    | failed => rw [hph] at hok; exact absurd hok id
    | sample i =>
      rw [hph] at hok
      refine hsample r hr i hph ?_
      rcases Nat.lt_or_ge i (P.second r).length with hlt | hge
      · exact hlt
      · exact absurd (by rw [hph, show i = (P.second r).length from Nat.le_antisymm hok.1 hge]) hne
    | load i n => exact hload r hr i n hph
    | joined i n ts =>
      rw [hph] at hok
      obtain ⟨rfl, ⟨p, hp, rfl⟩, -⟩ := hok
      by_cases hall : ∀ s, s / P.size = r / P.size → ∃ i n ts, c.phase s = .joined i n ts
      · have hsz := S.size
        have hjr : r / P.size * P.size < P.world := lt_of_le_of_lt (Nat.div_mul_le_self r P.size) hr
        have hdiv : ∀ s < P.size, (r / P.size * P.size + s) / P.size = r / P.size := by
          intro s hs
          rw [Nat.mul_comm, Nat.mul_add_div (by omega), Nat.div_eq_of_lt hs, Nat.add_zero]
        have hkey : ∀ s < P.size, c.phase (r / P.size * P.size + s) = .joined i n (P.matrix p) ∧
            (P.second (r / P.size * P.size + s))[i]? = some p := by
          intro s hs
          obtain ⟨hw, hsec⟩ := S.brigade r hr _ (hdiv s hs)
          obtain ⟨i', n', ts', h3⟩ := hall _ (hdiv s hs)
          have hidx := h.lock _ hw r hr (hdiv s hs)
          rw [h3, hph] at hidx
          simp only [Phase.index] at hidx
          subst hidx
          have hok' := h.rank _ hw
          rw [h3] at hok'
          obtain ⟨rfl, ⟨q, hq, rfl⟩, -⟩ := hok'
          have hq' := hq
          rw [hsec, hp] at hq'
          cases hq'
          exact ⟨h3, hq⟩
        refine ⟨_, .meet c (r / P.size) (List.replicate P.size (n, p, P.matrix p)) _ hjr (by simp) ?_
          (S.result r hr p (List.mem_of_getElem? hp))⟩
        intro s hs
        exact ⟨i, n, p, P.matrix p, (hkey s hs).1, (hkey s hs).2, by rw [List.getElem?_replicate, if_pos hs]⟩
      · simp only [not_forall] at hall
        obtain ⟨s, hs, hnj⟩ := hall
        obtain ⟨hw, hsec⟩ := S.brigade r hr s hs
        have hidx := h.lock s hw r hr hs
        rw [hph] at hidx
        have hok' := h.rank s hw
        have hls := hl s hw
        cases hps : c.phase s with
        | prepare i => rw [hps] at hls; cases hls
        | writing i => rw [hps] at hls; cases hls
        | arrived => rw [hps] at hls; cases hls
        | failed => rw [hps] at hok'; exact absurd hok' id
        | sample i' =>
          rw [hps] at hidx
          simp only [Phase.index] at hidx
          subst hidx
          refine hsample s hw _ hps ?_
          rw [hsec]
          exact (List.getElem?_eq_some_iff.1 hp).1
        | load i' n' => exact hload s hw _ _ hps
        | joined i' n' ts' => exact absurd ⟨_, _, _, hps⟩ hnj

theorem sum_lt {n : Nat} {g g' : Nat → Nat} (hle : ∀ r < n, g' r ≤ g r) {r : Nat} (hr : r < n) (hlt : g' r < g r) :
    ((List.range n).map g').sum < ((List.range n).map g).sum := by
  apply List.sum_lt_sum
  · intro i hi
    exact hle i (List.mem_range.1 hi)
  · exact ⟨r, List.mem_range.2 hr, hlt⟩

theorem Inv.decreases {c d : World K} (S : Sound P N f files) (h : Inv P N f files c) (hd : Step P c d) :
    work P d < work P c := by
  have hone : ∀ (c' : World K) (r : Nat) (q : Phase K), c'.phase = c.phase → r < P.world →
      q.work (P.first r).length (P.second r).length < (c.phase r).work (P.first r).length (P.second r).length →
      work P (c'.setPhase r q) < work P c := by
    intro c' r q hc hr hlt
    refine sum_lt (fun s _ => ?_) hr ?_
    · simp only [World.setPhase]
      split
      · rename_i he; subst he; exact hlt.le
      · rw [hc]
    · simpa [World.setPhase] using hlt
  cases hd with
  | «open» r i p hr hp ht =>
    refine hone _ r _ rfl hr ?_
    rw [hp]
    simp only [Phase.work]
    omega
  | write r i p hr hp ht =>
    refine hone _ r _ rfl hr ?_
    have := (List.getElem?_eq_some_iff.1 ht).1
    rw [hp]
    simp only [Phase.work]
    omega
  | arrive r hr hp =>
    refine hone _ r _ rfl hr ?_
    rw [hp]
    split <;> simp only [Phase.work] <;> omega
  | split hs hall =>
    have key : ∀ r < P.world, (if r < P.world then Phase.sample (K := K) 0 else c.phase r).work (P.first r).length (P.second r).length <
        (c.phase r).work (P.first r).length (P.second r).length := by
      intro r hr
      rw [if_pos hr, hall r hr]
      simp only [Phase.work]
      omega
    exact sum_lt (fun r hr => (key r hr).le) (r := 0) (by have := S.world; omega) (key 0 (by have := S.world; omega))
  | sample r i p n ts hr hp ht hn he =>
    refine hone _ r _ rfl hr ?_
    rw [hp]
    simp only [Phase.work]
    omega
  | noSample r i p hr hp ht hn =>
    refine hone _ r _ rfl hr ?_
    rw [hp]
    simp only [Phase.work]
    omega
  | load r i n p ts hr hp ht hn =>
    refine hone _ r _ rfl hr ?_
    have := (List.getElem?_eq_some_iff.1 ht).1
    rw [hp]
    simp only [Phase.work]
    omega
  | noLoad r i n p hr hp ht hn =>
    refine hone _ r _ rfl hr ?_
    have := (List.getElem?_eq_some_iff.1 ht).1
    rw [hp]
    simp only [Phase.work]
    omega
  | meet j l G hj hlen hall hs =>
    obtain ⟨i, p, hp, hl, hph⟩ := h.agree S hj hlen hall
    have key : ∀ r, r / P.size = j → (Phase.sample (K := K) (i + 1)).work (P.first r).length (P.second r).length <
        (c.phase r).work (P.first r).length (P.second r).length := by
      intro r he
      have hsec := (S.brigade (j * P.size) hj r (by rw [he, Nat.mul_div_cancel _ S.size])).2
      have := (List.getElem?_eq_some_iff.1 hp).1
      rw [(hph r he).2, hsec]
      simp only [Phase.work]
      omega
    have hj0 : j * P.size / P.size = j := Nat.mul_div_cancel _ S.size
    refine sum_lt (r := j * P.size) (fun r hr => ?_) hj ?_
    · simp only
      split
      · rename_i he
        have := key r he
        rw [(hph r he).2] at this ⊢
        exact this.le
      · exact le_refl _
    · simp only [hj0, if_true]
      have := key _ hj0
      rw [(hph _ hj0).2] at this ⊢
      exact this
  | crash j l e hj hlen hall hs =>
    exfalso
    obtain ⟨i, p, hp, hl, hph⟩ := h.agree S hj hlen hall
    rw [hl, S.result _ hj p (List.mem_of_getElem? hp)] at hs
    cases hs

end GGCE.Stage
