import Verif.Model.Utils
import Mathlib.Tactic.Ring
import Mathlib.Tactic.NormNum

/-! Lemmas on job chunking and grid padding. -/

set_option linter.unusedSectionVars false

namespace GGCE

theorem flatten_slices {α : Type} (l : List α) (f : Nat → Nat) (hf : ∀ i, f i ≤ f (i + 1)) (h0 : f 0 = 0)
    (n : Nat) : ((List.range n).map (fun i => (l.take (f (i + 1))).drop (f i))).flatten = l.take (f n) := by
  induction n with
  | zero => simp [h0]
  | succ n ih =>
    rw [List.range_succ, List.map_append, List.flatten_append, ih]
    simp only [List.map_cons, List.map_nil, List.flatten_cons, List.flatten_nil, List.append_nil]
    have : l.take (f n) = (l.take (f (n + 1))).take (f n) := by
      rw [List.take_take, Nat.min_eq_left (hf n)]
    rw [this, List.take_append_drop]

/-- start of section `i` when `len` items are split into `n` sections -/
def splitOffset (len n i : Nat) : Nat := i * (len / n) + min i (len % n)

theorem splitOffset_mono (len n i : Nat) : splitOffset len n i ≤ splitOffset len n (i + 1) := by
  unfold splitOffset
  rw [Nat.add_mul]
  omega

theorem splitOffset_mono' (len n : Nat) {i j : Nat} (h : i ≤ j) : splitOffset len n i ≤ splitOffset len n j := by
  induction j with
  | zero => rw [Nat.le_zero.1 h]
  | succ j ih =>
    rcases Nat.eq_or_lt_of_le h with rfl | h
    · exact le_rfl
    · exact le_trans (ih (by omega)) (splitOffset_mono _ _ _)

theorem splitOffset_last (len n : Nat) (hn : n ≠ 0) : splitOffset len n n = len := by
  unfold splitOffset
  have h1 := Nat.div_add_mod len n
  have h2 := Nat.mod_lt len (Nat.pos_of_ne_zero hn)
  rw [Nat.min_eq_right h2.le]
  exact h1

theorem arraySplit_ok {α : Type} (l : List α) (n : Nat) (hn : n ≠ 0) :
    arraySplit l n = .ok ((List.range n).map (fun i =>
      (l.take (splitOffset l.length n (i + 1))).drop (splitOffset l.length n i))) := by
  unfold arraySplit
  rw [if_neg hn]
  rfl

theorem chunkJobs_ok {α : Type} (l : List α) (n r : Nat) (hr : r < n) :
    chunkJobs l n r = .ok ((l.take (splitOffset l.length n (r + 1))).drop (splitOffset l.length n r)) := by
  unfold chunkJobs
  rw [arraySplit_ok l n (by omega)]
  simp [bind, Except.bind, hr]

/-- size of a section -/
theorem chunk_length {α : Type} (l : List α) (n r : Nat) (hr : r < n) :
    ((l.take (splitOffset l.length n (r + 1))).drop (splitOffset l.length n r)).length =
      l.length / n + if r < l.length % n then 1 else 0 := by
  have h1 : splitOffset l.length n (r + 1) ≤ l.length := by
    have := splitOffset_mono' l.length n (Nat.succ_le_of_lt hr)
    rwa [splitOffset_last _ _ (by omega)] at this
  rw [List.length_drop, List.length_take, Nat.min_eq_left h1]
  unfold splitOffset
  rw [Nat.add_mul, one_mul]
  generalize l.length / n = q
  generalize l.length % n = e
  generalize r * q = z
  split <;> omega

section
variable {R : Type} [Field R]

theorem numPads_ok {fixed n b ext p : Nat} (h : numPads fixed n b ext = .ok p) :
    p < ext ∧ npMod (fixed * (n + p)) b = 0 ∧ ∀ q < p, npMod (fixed * (n + q)) b ≠ 0 := by
  unfold numPads at h
  split at h
  · rename_i i hi
    simp only [Except.ok.injEq] at h
    subst h
    obtain ⟨h1, -⟩ := List.find?_eq_some_iff_append.1 hi
    have h2 := List.find?_range_eq_some.1 hi
    refine ⟨by simpa using h2.2.1, by simpa using h1, ?_⟩
    intro q hq
    have := h2.2.2 q hq
    simpa using this
  · cases h

theorem numPads_exists {fixed n b ext : Nat} (hb : 1 ≤ b) (hbe : b ≤ ext) :
    ∃ p, numPads fixed n b ext = .ok p ∧ p < b := by
  have hex : npMod (fixed * (n + (b - 1 - (n + b - 1) % b))) b = 0 := by
    unfold npMod
    rw [if_neg (by omega)]
    have h1 : (n + (b - 1 - (n + b - 1) % b)) % b = 0 := by
      have h2 := Nat.mod_lt (n + b - 1) (show 0 < b by omega)
      have h3 := Nat.div_add_mod (n + b - 1) b
      have h4 : n + (b - 1 - (n + b - 1) % b) = b * ((n + b - 1) / b) := by omega
      rw [h4, Nat.mul_mod_right]
    rw [Nat.mul_mod, h1]; simp
  have hlt : b - 1 - (n + b - 1) % b < b := by omega
  cases h : numPads fixed n b ext with
  | ok p =>
    refine ⟨p, rfl, ?_⟩
    by_contra hc
    exact (numPads_ok h).2.2 _ (by omega) hex
  | error e =>
    unfold numPads at h
    split at h
    · cases h
    · rename_i hn
      rw [List.find?_eq_none] at hn
      have := hn _ (List.mem_range.2 (lt_of_lt_of_le hlt hbe))
      simp [hex] at this

end

end GGCE
