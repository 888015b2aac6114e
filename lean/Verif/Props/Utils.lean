import Verif.Proofs.Utils
import Mathlib.Tactic.FieldSimp
import Mathlib.Tactic.Positivity
import Mathlib.Tactic.Linarith

/-!
Properties C27, C29, C43 and C53: the helpers in `ggce/utils/utils.py`.
-/

set_option linter.unusedSectionVars false

namespace GGCE.Props

/-! ### C27 -/

/-- C27: for every job list and every positive number of ranks, every rank gets a chunk, the chunks in
rank order concatenate to the job list, and any two chunk sizes differ by at most one (earlier ranks
getting the longer chunks). -/
theorem C27_chunks {α : Type} (jobs : List α) (n : Nat) (hn : 1 ≤ n) :
    ∃ chunk : Nat → List α, (∀ r < n, chunkJobs jobs n r = .ok (chunk r)) ∧
      ((List.range n).map chunk).flatten = jobs ∧
      (∀ r s, r ≤ s → s < n → (chunk s).length ≤ (chunk r).length ∧ (chunk r).length ≤ (chunk s).length + 1) := by
  refine ⟨fun r => (jobs.take (splitOffset jobs.length n (r + 1))).drop (splitOffset jobs.length n r),
    fun r hr => chunkJobs_ok jobs n r hr, ?_, ?_⟩
  · rw [flatten_slices jobs (splitOffset jobs.length n) (splitOffset_mono _ _) (by simp [splitOffset]),
      splitOffset_last _ _ (by omega), List.take_length]
  · intro r s hrs hs
    simp only
    rw [chunk_length _ _ _ hs, chunk_length _ _ _ (lt_of_le_of_lt hrs hs)]
    generalize jobs.length / n = q
    generalize jobs.length % n = e
    split <;> split <;> omega

/-- C27, outside its domain: no chunk for a rank that does not exist, or for no ranks. -/
theorem C27_bad_rank {α : Type} (jobs : List α) (n r : Nat) (h : n ≤ r) :
    chunkJobs jobs n r = .error (if n = 0 then .valueError else .indexError) := by
  unfold chunkJobs
  by_cases hn : n = 0
  · simp [arraySplit, hn, bind, Except.bind]
  · rw [arraySplit_ok jobs n hn]
    simp [bind, Except.bind, hn, h]

/-- more ranks than jobs -/
example : (List.range 5).map (chunkJobs ["a", "b", "c"] 5) =
    [.ok ["a"], .ok ["b"], .ok ["c"], .ok [], .ok []] := by decide +kernel

/-- uneven division -/
example : (List.range 3).map (chunkJobs [0, 1, 2, 3, 4, 5, 6] 3) =
    [.ok [0, 1, 2], .ok [3, 4], .ok [5, 6]] := by decide +kernel

/-! ### C29 -/

variable {R : Type} [Field R]

/-- What padding promises: `y` is `x` followed by equally spaced points that continue its last spacing. -/
def Continues (x y : List R) : Prop :=
  ∃ pad, y = x ++ pad ∧ ∀ i, x.length ≤ i → i < y.length →
    y.getD i 0 - y.getD (i - 1) 0 = x.getD (x.length - 1) 0 - x.getD (x.length - 2) 0

theorem extendGrid_spec (x : List R) (n : Nat) (hx : 2 ≤ x.length) :
    ∃ y, extendGrid x n = .ok y ∧ y.length = x.length + n ∧ Continues x y := by
  rcases hr : x.reverse with _ | ⟨a, _ | ⟨b, l⟩⟩
  · simp at hr; subst hr; simp at hx
  · have := congrArg List.length hr
    simp at this; omega
  · have hxe : x = l.reverse ++ [b, a] := by
      have := congrArg List.reverse hr
      simpa using this
    unfold extendGrid
    rw [hr]
    refine ⟨_, rfl, by simp, _, rfl, ?_⟩
    intro i h1 h2
    have hlen : x.length = l.length + 2 := by rw [hxe]; simp
    have ha : x.getD (x.length - 1) 0 = a := by
      rw [hlen, hxe]
      simp [List.getD_eq_getElem?_getD, List.getElem?_append]
    have hb : x.getD (x.length - 2) 0 = b := by
      rw [hlen, hxe]
      simp [List.getD_eq_getElem?_getD, List.getElem?_append]
    rw [ha, hb]
    simp only [List.length_append, List.length_map, List.length_range] at h2
    have hi : (x ++ (List.range n).map (fun i => a + ((i + 1 : Nat) : R) * (a - b))).getD i 0 =
        a + ((i - x.length + 1 : Nat) : R) * (a - b) := by
      rw [List.getD_eq_getElem?_getD, List.getElem?_append_right h1, List.getElem?_map,
        List.getElem?_range (by omega)]
      rfl
    rw [hi]
    rcases Nat.eq_or_lt_of_le h1 with e | h1
    · have hp : (x ++ (List.range n).map (fun i => a + ((i + 1 : Nat) : R) * (a - b))).getD (i - 1) 0 = a := by
        rw [← ha, List.getD_eq_getElem?_getD, List.getD_eq_getElem?_getD, List.getElem?_append_left (by omega), e]
      rw [hp, ← e]
      push_cast
      simp
    · have hp : (x ++ (List.range n).map (fun i => a + ((i + 1 : Nat) : R) * (a - b))).getD (i - 1) 0 =
          a + ((i - 1 - x.length + 1 : Nat) : R) * (a - b) := by
        rw [List.getD_eq_getElem?_getD, List.getElem?_append_right (by omega), List.getElem?_map,
          List.getElem?_range (by omega)]
        rfl
      rw [hp]
      have : i - x.length + 1 = (i - 1 - x.length + 1) + 1 := by omega
      rw [this]
      push_cast
      ring

/-- C29, for grids with at least two points on the axis that is padded, and at most `ext` (by default
1000) brigades: padding succeeds; it keeps one axis and continues the other; the number of jobs becomes
divisible by the number of brigades; no smaller number of added points would do, and fewer points than
brigades are added. -/
theorem C29_padding_partial (k w : List R) (b ext : Nat) (hb : 1 ≤ b) (hbe : b ≤ ext)
    (hg : 2 ≤ w.length ∨ (w.length ≤ 1 ∧ 2 ≤ k.length)) :
    ∃ k' w', paddedKw k w b ext = .ok (k', w') ∧ Continues k k' ∧ Continues w w' ∧
      (k'.length * w'.length) % b = 0 ∧
      (2 ≤ w.length → k' = k ∧ w'.length < w.length + b ∧
        ∀ n, w.length ≤ n → n < w'.length → (k.length * n) % b ≠ 0) ∧
      (w.length ≤ 1 → w' = w ∧ k'.length < k.length + b ∧
        ∀ n, k.length ≤ n → n < k'.length → (n * w.length) % b ≠ 0) := by
  have hmod : ∀ a, npMod a b = a % b := fun a => if_neg (by omega)
  have hrefl : ∀ x : List R, Continues x x := fun x => ⟨[], by simp, fun i h1 h2 => by omega⟩
  unfold paddedKw
  by_cases hw : 1 < w.length
  · obtain ⟨p, hp, hpb⟩ := numPads_exists (fixed := k.length) (n := w.length) hb hbe
    obtain ⟨-, h2, h3⟩ := numPads_ok hp
    obtain ⟨y, hy, hyl, hyc⟩ := extendGrid_spec w p hw
    rw [if_pos hw, hp]
    simp only [bind, Except.bind, hy, pure, Except.pure]
    refine ⟨k, y, rfl, hrefl k, hyc, ?_, ?_, by intro h; omega⟩
    · rw [hyl, ← hmod]; exact h2
    · intro _
      refine ⟨rfl, by omega, ?_⟩
      intro n hn1 hn2
      have := h3 (n - w.length) (by omega)
      rwa [hmod, show w.length + (n - w.length) = n by omega] at this
  · have hk : 2 ≤ k.length := by omega
    obtain ⟨p, hp, hpb⟩ := numPads_exists (fixed := w.length) (n := k.length) hb hbe
    obtain ⟨-, h2, h3⟩ := numPads_ok hp
    obtain ⟨y, hy, hyl, hyc⟩ := extendGrid_spec k p hk
    rw [if_neg hw, hp]
    simp only [bind, Except.bind, hy, pure, Except.pure]
    refine ⟨y, w, rfl, hyc, hrefl w, ?_, by intro h; omega, ?_⟩
    · rw [hyl, Nat.mul_comm, ← hmod]; exact h2
    · intro _
      refine ⟨rfl, by omega, ?_⟩
      intro n hn1 hn2
      have := h3 (n - k.length) (by omega)
      rwa [hmod, show k.length + (n - k.length) = n by omega, Nat.mul_comm] at this

/-- C29 is false for a single point: padding a one-point grid always raises `IndexError`, whatever the
number of brigades. (The last spacing does not exist.) -/
theorem C29_single_point_fails (k w : R) (b ext : Nat) : paddedKw [k] [w] b ext = .error .indexError := by
  unfold paddedKw
  rw [if_neg (by simp)]
  unfold numPads
  split <;> rfl

/-- C29 is false above the search limit: two frequencies on 2003 brigades. -/
theorem C29_many_brigades_fail (k w w' : R) : paddedKw [k] [w, w'] 2003 = .error .indexError := by
  unfold paddedKw
  rw [if_pos (by simp)]
  have : numPads 1 2 2003 1000 = .error .indexError := by decide +kernel
  simp [this, bind, Except.bind]

/-- three frequencies on two brigades: one is added -/
example : paddedKw [(0 : ℚ)] [1, 3, 4] 2 = .ok ([0], [1, 3, 4, 5]) := by decide +kernel

/-! ### C43 -/

/-- what a program can do with a buffer -/
inductive BufOp (α : Type) where
  | call (v : α)
  | flush

/-- the values a program passes in -/
def BufOp.vals {α : Type} : List (BufOp α) → List α
  | [] => []
  | .call v :: ops => v :: vals ops
  | .flush :: ops => vals ops

/-- run a program -/
def runBuffer {α : Type} (b : Buffer α) : List (BufOp α) → Buffer α
  | [] => b
  | .call v :: ops => runBuffer (b.call v) ops
  | .flush :: ops => runBuffer b.flush ops

/-- C43: after every history of calls and flushes on a fresh buffer, the written batches followed by the
queue are the values passed in, in order; no batch is empty or longer than `nbuff`; and the queue is
shorter than `nbuff`, if `nbuff` is positive. -/
theorem C43_buffer {α : Type} (nbuff : Int) (ops : List (BufOp α)) :
    let b := runBuffer (Buffer.new nbuff) ops
    b.files.flatten ++ b.queue = BufOp.vals ops ∧ (∀ f ∈ b.files, f ≠ []) ∧
      (1 ≤ nbuff → (b.queue.length : Int) < nbuff ∧ ∀ f ∈ b.files, (f.length : Int) ≤ nbuff) ∧
      (nbuff ≤ 0 → b.queue = []) := by
  have key : ∀ (ops : List (BufOp α)) (b : Buffer α), b.nbuff = nbuff → b.counter = b.queue.length →
      (∀ f ∈ b.files, f ≠ []) →
      (1 ≤ nbuff → (b.queue.length : Int) < nbuff ∧ ∀ f ∈ b.files, (f.length : Int) ≤ nbuff) →
      (nbuff ≤ 0 → b.queue = []) →
      (runBuffer b ops).files.flatten ++ (runBuffer b ops).queue = b.files.flatten ++ b.queue ++ BufOp.vals ops ∧
      (∀ f ∈ (runBuffer b ops).files, f ≠ []) ∧
      (1 ≤ nbuff → ((runBuffer b ops).queue.length : Int) < nbuff ∧
        ∀ f ∈ (runBuffer b ops).files, (f.length : Int) ≤ nbuff) ∧
      (nbuff ≤ 0 → (runBuffer b ops).queue = []) := by
    intro ops
    induction ops with
    | nil => intro b _ _ h3 h4 h5; simpa [runBuffer, BufOp.vals] using ⟨h3, h4, h5⟩
    | cons op ops ih =>
      intro b h1 h2 h3 h4 h5
      cases op with
      | flush =>
        rw [runBuffer]
        by_cases hc : 0 < b.counter
        · have hb : b.flush = { b with counter := 0, queue := [], files := b.files ++ [b.queue] } := if_pos hc
          have hq : b.queue ≠ [] := by intro e; rw [h2, e] at hc; simp at hc
          obtain ⟨k1, k2⟩ := ih b.flush (by rw [hb]; exact h1) (by rw [hb]; rfl)
            (by rw [hb]; intro f hf; simp only [List.mem_append, List.mem_singleton] at hf
                rcases hf with hf | rfl
                · exact h3 f hf
                · exact hq)
            (by rw [hb]; intro hn; obtain ⟨q1, q2⟩ := h4 hn
                refine ⟨by simp; omega, ?_⟩
                intro f hf; simp only [List.mem_append, List.mem_singleton] at hf
                rcases hf with hf | rfl
                · exact q2 f hf
                · exact q1.le)
            (by rw [hb]; intro _; rfl)
          refine ⟨?_, k2⟩
          rw [k1, hb, BufOp.vals]
          simp
        · have hb : b.flush = b := if_neg hc
          rw [hb, BufOp.vals]
          exact ih b h1 h2 h3 h4 h5
      | call v =>
        rw [runBuffer]
        by_cases hc : b.nbuff ≤ b.counter + 1
        · have hb : b.call v = { b with counter := 0, queue := [], files := b.files ++ [b.queue ++ [v]] } := by
            unfold Buffer.call
            simp only [hc, if_true]
            unfold Buffer.flush
            simp only
            rw [if_pos (by omega)]
          obtain ⟨k1, k2⟩ := ih (b.call v) (by rw [hb]; exact h1) (by rw [hb]; rfl)
            (by rw [hb]; intro f hf; simp only [List.mem_append, List.mem_singleton] at hf
                rcases hf with hf | rfl
                · exact h3 f hf
                · simp)
            (by rw [hb]; intro hn; obtain ⟨q1, q2⟩ := h4 hn
                refine ⟨by simp; omega, ?_⟩
                intro f hf; simp only [List.mem_append, List.mem_singleton] at hf
                rcases hf with hf | rfl
                · exact q2 f hf
                · simp only [List.length_append, List.length_singleton]; push_cast; omega)
            (by rw [hb]; intro _; rfl)
          refine ⟨?_, k2⟩
          rw [k1, hb, BufOp.vals]
          simp
        · have hb : b.call v = { b with counter := b.counter + 1, queue := b.queue ++ [v] } := by
            unfold Buffer.call
            simp only [hc, if_false]
          obtain ⟨k1, k2⟩ := ih (b.call v) (by rw [hb]; exact h1) (by rw [hb]; simp [h2])
            (by rw [hb]; exact h3)
            (by rw [hb]; intro hn; obtain ⟨q1, q2⟩ := h4 hn
                refine ⟨?_, q2⟩
                simp only [List.length_append, List.length_singleton]; push_cast; omega)
            (by intro hn; omega)
          refine ⟨?_, k2⟩
          rw [k1, hb, BufOp.vals]
          simp
  have := key ops (Buffer.new nbuff) rfl rfl (by simp [Buffer.new])
    (by intro h; simp [Buffer.new]; omega) (by intro _; rfl)
  simpa [Buffer.new] using this

/-- C43: a flush right after a flush changes nothing, and a flush empties the queue. -/
theorem C43_flush {α : Type} (nbuff : Int) (ops : List (BufOp α)) :
    (runBuffer (Buffer.new nbuff) ops).flush.queue = [] ∧
      (runBuffer (Buffer.new nbuff) ops).flush.flush = (runBuffer (Buffer.new nbuff) ops).flush := by
  have hcount : ∀ (ops : List (BufOp α)) (b : Buffer α), b.counter = b.queue.length →
      (runBuffer b ops).counter = (runBuffer b ops).queue.length := by
    intro ops
    induction ops with
    | nil => intro b h; exact h
    | cons op ops ih =>
      have hf : ∀ b : Buffer α, b.counter = b.queue.length → b.flush.counter = b.flush.queue.length := by
        intro b h
        unfold Buffer.flush
        split
        · rfl
        · exact h
      intro b h
      cases op with
      | flush => exact ih _ (hf b h)
      | call v =>
        apply ih
        unfold Buffer.call
        simp only
        split
        · exact hf _ (by simp [h])
        · simp [h]
  have h := hcount ops (Buffer.new nbuff) rfl
  generalize runBuffer (Buffer.new nbuff) ops = b at h
  by_cases hc : 0 < b.counter
  · have hb : b.flush = { b with counter := 0, queue := [], files := b.files ++ [b.queue] } := if_pos hc
    rw [hb]
    exact ⟨rfl, if_neg (by simp)⟩
  · have hb : b.flush = b := if_neg hc
    rw [hb, hb]
    refine ⟨?_, rfl⟩
    rw [h] at hc
    exact List.length_eq_zero_iff.1 (by omega)

example : runBuffer (Buffer.new 2) [.call 1, .call 2, .call 3, .flush, .flush, .call 4] =
    ⟨2, 1, [4], [[1, 2], [3]]⟩ := by decide +kernel

/-! ### C53 -/

/-- number of seconds in a unit -/
def unitSeconds : String → ℚ
  | "s" => 1
  | "m" => 60
  | "h" => 3600
  | "d" => 86400
  | _ => 0

/-- C53: the elapsed time is reported in a known unit and denotes the same duration. The number is
readable: below 10 except for days, at least 1/6 except for seconds. -/
theorem C53_elapsed (dt : ℚ) : let r := elapsedTime dt
    r.2 ∈ ["s", "m", "h", "d"] ∧ r.1 * unitSeconds r.2 = dt ∧ (r.2 ≠ "d" → r.1 < 10) ∧
      (r.2 ≠ "s" → 1 / 6 ≤ r.1) := by
  unfold elapsedTime
  dsimp only
  split
  · rename_i h
    exact ⟨by simp, by simp [unitSeconds], fun _ => h, fun h => absurd rfl h⟩
  · rename_i h1
    push Not at h1
    split
    · rename_i h2
      exact ⟨by simp, by simp [unitSeconds], fun _ => by simp only; linarith, fun _ => by simp only; linarith⟩
    · rename_i h2
      push Not at h2
      split
      · exact ⟨by simp, by simp [unitSeconds], fun _ => by simp only; linarith, fun _ => by simp only; linarith⟩
      · rename_i h3
        push Not at h3
        exact ⟨by simp, by simp [unitSeconds], fun h => absurd rfl h, fun _ => by simp only; linarith⟩

/-- C53: the remaining time is the time the remaining part takes at the speed of the completed part. -/
theorem C53_remaining (elapsed pc r : ℚ) (h : timeRemaining elapsed pc = .ok r) :
    pc ≠ 0 ∧ (pc = 100 → r = 0) ∧ (pc ≠ 100 → r / (100 - pc) = elapsed / pc) ∧
      (0 < pc → pc ≤ 100 → 0 ≤ elapsed → 0 ≤ r) := by
  unfold timeRemaining at h
  split at h
  · rename_i h1
    simp only [Except.ok.injEq] at h
    subst h
    exact ⟨by rw [h1]; norm_num, fun _ => rfl, fun h => absurd h1 h, fun _ _ _ => le_rfl⟩
  · rename_i h1
    split at h
    · cases h
    · rename_i h2
      simp only [Except.ok.injEq] at h
      subst h
      refine ⟨h2, fun e => absurd e h1, fun _ => ?_, ?_⟩
      · have : (100 - pc) ≠ 0 := sub_ne_zero.2 (Ne.symm h1)
        field_simp
      · intro h3 h4 h5
        have : 0 ≤ 100 - pc := by linarith
        positivity

example : elapsedTime (90 : ℚ) = (3 / 2, "m") ∧ timeRemaining (30 : ℚ) 25 = .ok 90 := by
  constructor
  · norm_num [elapsedTime]
  · norm_num [timeRemaining]

end GGCE.Props
