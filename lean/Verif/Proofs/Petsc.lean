import Verif.Model.Petsc
import Verif.Proofs.Grid
import Verif.Proofs.Utils
import Verif.Proofs.Basic

/-!
Lemmas about the distributed assembly.
-/

set_option linter.unusedSectionVars false

namespace GGCE.Petsc
open Dict

variable {K : Type} [Field K]

/-! ### Ownership -/

theorem splitOffset_succ (N size r : Nat) :
    splitOffset N size (r + 1) = splitOffset N size r + localSize N size r := by
  unfold splitOffset localSize
  rw [Nat.add_mul]
  generalize r * (N / size) = a
  generalize N / size = q
  generalize N % size = s
  split <;> omega

theorem ownership_lo (N size r : Nat) : (ownership N size r).lo = splitOffset N size r := by
  unfold ownership
  simp only
  induction r with
  | zero => simp [splitOffset]
  | succ r ih => rw [List.range_succ, List.map_append, List.sum_append, ih, splitOffset_succ]; simp

theorem ownership_hi (N size r : Nat) : (ownership N size r).hi = splitOffset N size (r + 1) := by
  rw [splitOffset_succ, ← ownership_lo]
  rfl

theorem owns_iff (N size r i : Nat) :
    (ownership N size r).owns i = true ↔ splitOffset N size r ≤ i ∧ i < splitOffset N size (r + 1) := by
  simp [Range.owns, ownership_lo, ownership_hi]

theorem owner_exists (N size i : Nat) (hs : 1 ≤ size) (hi : i < N) :
    ∃ r < size, (ownership N size r).owns i = true := by
  have h0 : splitOffset N size 0 = 0 := by simp [splitOffset]
  have hl := splitOffset_last N size (by omega)
  suffices ∀ n, i < splitOffset N size n → ∃ r < n, (ownership N size r).owns i = true from
    this size (by omega)
  intro n
  induction n with
  | zero => intro h; omega
  | succ n ih =>
    intro h
    by_cases h' : i < splitOffset N size n
    · obtain ⟨r, hr, h2⟩ := ih h'
      exact ⟨r, by omega, h2⟩
    · exact ⟨n, by omega, (owns_iff ..).2 ⟨by omega, h⟩⟩

theorem owner_unique {N size i r r' : Nat} (h : (ownership N size r).owns i = true)
    (h' : (ownership N size r').owns i = true) : r = r' := by
  rw [owns_iff] at h h'
  rcases Nat.lt_trichotomy r r' with hl | rfl | hl
  · have : splitOffset N size (r + 1) ≤ splitOffset N size r' := splitOffset_mono' N size (Nat.succ_le_of_lt hl); omega
  · rfl
  · have : splitOffset N size (r' + 1) ≤ splitOffset N size r := splitOffset_mono' N size (Nat.succ_le_of_lt hl); omega

/-! ### Counting -/

/-- number of entries of row `i` with column inside (or outside) the range -/
def cnt (o : Range) (ts : List (Nat × Nat × K)) (i : Nat) (inside : Bool) : Nat :=
  (ts.filter (fun t => decide (t.1 = i) && (o.owns t.2.1 == inside))).length

theorem bump_ok {x : List Nat} {i : Nat} (h : i < x.length) : bump x i = .ok (x.modify i (· + 1)) := by
  simp [bump, h]

theorem getD_modify (x : List Nat) (i a : Nat) (h : i < x.length) :
    (x.modify i (· + 1)).getD a 0 = x.getD a 0 + if i = a then 1 else 0 := by
  simp only [List.getD_eq_getElem?_getD, List.getElem?_modify]
  by_cases hia : i = a
  · subst hia
    simp [List.getElem?_eq_getElem h]
  · simp [hia]

theorem nnzLoop_ok (o : Range) (n : Nat) (hn : n = o.hi - o.lo) (ts : List (Nat × Nat × K)) (d f : List Nat)
    (hd : d.length = n) (hf : f.length = n) :
    ∃ d' f', nnzLoop o ts (d, f) = .ok (d', f') ∧ d'.length = n ∧ f'.length = n ∧
      ∀ a < n, d'.getD a 0 = d.getD a 0 + cnt o ts (o.lo + a) true ∧
        f'.getD a 0 = f.getD a 0 + cnt o ts (o.lo + a) false := by
  induction ts generalizing d f with
  | nil => exact ⟨d, f, rfl, hd, hf, by simp [cnt]⟩
  | cons t ts ih =>
    obtain ⟨i, j, v⟩ := t
    simp only [nnzLoop]
    have hc : ∀ a b, cnt o ((i, j, v) :: ts) a b =
        (if i = a ∧ o.owns j = b then 1 else 0) + cnt o ts a b := by
      intro a b
      unfold cnt
      rw [List.filter_cons]
      by_cases h1 : i = a <;> by_cases h2 : o.owns j = b <;> simp [h1, h2, Nat.add_comm]
    by_cases hi : o.owns i = true
    · have hr : o.lo ≤ i ∧ i < o.hi := by simpa [Range.owns] using hi
      rw [if_pos hi]
      by_cases hj : o.owns j = true
      · rw [if_pos hj, bump_ok (by omega)]
        simp only [bind, Except.bind]
        obtain ⟨d', f', h1, h2, h3, h4⟩ := ih (d.modify (i - o.lo) (· + 1)) f (by simp [hd]) hf
        refine ⟨d', f', h1, h2, h3, ?_⟩
        intro a ha
        obtain ⟨k1, k2⟩ := h4 a ha
        rw [k1, k2, hc, hc, getD_modify _ _ _ (by omega), hj]
        have : (i - o.lo = a) ↔ (i = o.lo + a) := by omega
        simp only [this, and_true, Bool.true_eq_false, and_false, if_false]
        omega
      · rw [if_neg hj, bump_ok (by omega)]
        simp only [bind, Except.bind]
        obtain ⟨d', f', h1, h2, h3, h4⟩ := ih d (f.modify (i - o.lo) (· + 1)) hd (by simp [hf])
        refine ⟨d', f', h1, h2, h3, ?_⟩
        intro a ha
        obtain ⟨k1, k2⟩ := h4 a ha
        have hj' : o.owns j = false := by simpa using hj
        rw [k1, k2, hc, hc, getD_modify _ _ _ (by omega), hj']
        have : (i - o.lo = a) ↔ (i = o.lo + a) := by omega
        simp only [this, and_true, Bool.false_eq_true, and_false, if_false]
        omega
    · rw [if_neg hi]
      obtain ⟨d', f', h1, h2, h3, h4⟩ := ih d f hd hf
      refine ⟨d', f', h1, h2, h3, ?_⟩
      intro a ha
      obtain ⟨k1, k2⟩ := h4 a ha
      have : ¬ i = o.lo + a := by
        rintro rfl
        apply hi
        simp only [Range.owns, Bool.and_eq_true, decide_eq_true_eq]
        omega
      rw [k1, k2, hc, hc]
      simp [this]

/-! ### Filling -/

/-- the entries of the rows in the range -/
def enc (o : Range) (ts : List (Nat × Nat × K)) : Store K :=
  (ts.filter (fun t => o.owns t.1)).map (fun t => ((t.1, t.2.1), t.2.2))

theorem used_enc (o : Range) (ts : List (Nat × Nat × K)) (i : Nat) (hi : o.owns i = true) (b : Bool) :
    used o (enc o ts) i b = cnt o ts i b := by
  unfold used enc cnt
  rw [List.filter_map, List.length_map, List.filter_filter]
  congr 1
  apply List.filter_congr
  intro t _
  by_cases h : t.1 = i
  · simp [h, hi]
  · simp [h]

theorem set_append {κ ν : Type} [DecidableEq κ] (d : Dict κ ν) (k : κ) (v : ν) (h : d.get? k = none) :
    d.set k v = d ++ [(k, v)] := by
  induction d with
  | nil => rfl
  | cons p d ih =>
    obtain ⟨a, w⟩ := p
    by_cases ha : a = k
    · simp [get?, ha] at h
    · simp only [get?, ha, if_false] at h
      simp [Dict.set, ha, ih h]

theorem fillLoop_ok (N : Nat) (o : Range) (alloc : List Nat × List Nat) (all : List (Nat × Nat × K))
    (hnd : (all.map (fun t => (t.1, t.2.1))).Nodup) (hcol : ∀ t ∈ all, t.2.1 < N)
    (hroom : ∀ i, o.owns i = true → ∀ b : Bool,
      ((if b then alloc.1 else alloc.2)[i - o.lo]?).getD 0 = cnt o all i b)
    (pre ts : List (Nat × Nat × K)) (hall : all = pre ++ ts) :
    fillLoop N o alloc ts (enc o pre) = .ok (enc o all) := by
  induction ts generalizing pre with
  | nil => rw [hall, List.append_nil]; rfl
  | cons t ts ih =>
    obtain ⟨i, j, v⟩ := t
    simp only [fillLoop]
    have hstep := ih (pre ++ [(i, j, v)]) (by simp [hall])
    by_cases hi : o.owns i = true
    · rw [if_pos hi]
      have hnot : (enc o pre).get? (i, j) = none := by
        rw [get?_eq_none_iff]
        intro hm
        obtain ⟨e, he, he'⟩ := List.mem_map.1 hm
        obtain ⟨t, ht, rfl⟩ := List.mem_map.1 he
        have ht := (List.mem_filter.1 ht).1
        rw [hall, List.map_append, List.map_cons] at hnd
        have := (List.nodup_append.1 hnd).2.2 (t.1, t.2.1) (List.mem_map.2 ⟨t, ht, rfl⟩) (i, j) (by simp)
        exact this he'
      have hlt : used o (enc o pre) i (o.owns j) <
          ((if o.owns j then alloc.1 else alloc.2)[i - o.lo]?).getD 0 := by
        rw [hroom i hi, used_enc _ _ _ hi, hall]
        unfold cnt
        rw [List.filter_append, List.length_append, List.filter_cons]
        simp
      have hset : setValue N o alloc (enc o pre) i j v = .ok (enc o (pre ++ [(i, j, v)])) := by
        unfold setValue
        have hj : j < N := hcol (i, j, v) (by simp [hall])
        rw [if_pos (by simp [hi, hj]), hnot]
        simp only
        rw [if_pos hlt, set_append _ _ _ hnot]
        unfold enc
        rw [List.filter_append, List.map_append]
        simp [hi]
      rw [hset]
      exact hstep
    · rw [if_neg hi]
      have : enc o (pre ++ [(i, j, v)]) = enc o pre := by
        unfold enc
        rw [List.filter_append]
        simp [hi]
      rw [this] at hstep
      exact hstep

/-- The assembly on one rank: it succeeds, sets exactly its rows, and the preallocation is exact. -/
theorem rankAssemble_ok (N size : Nat) (ts : List (Nat × Nat × K))
    (hnd : (ts.map (fun t => (t.1, t.2.1))).Nodup) (hcol : ∀ t ∈ ts, t.2.1 < N) (r : Nat) :
    ∃ alloc : List Nat × List Nat,
      rankAssemble N size ts r = .ok (alloc, enc (ownership N size r) ts) ∧
      alloc.1.length = localSize N size r ∧ alloc.2.length = localSize N size r ∧
      ∀ a < localSize N size r,
        alloc.1.getD a 0 = cnt (ownership N size r) ts ((ownership N size r).lo + a) true ∧
        alloc.2.getD a 0 = cnt (ownership N size r) ts ((ownership N size r).lo + a) false := by
  have hlen : (ownership N size r).hi - (ownership N size r).lo = localSize N size r := by
    simp [ownership]
  generalize hn : localSize N size r = n at hlen
  obtain ⟨d, f, h1, h2, h3, h4⟩ := nnzLoop_ok (ownership N size r) n hlen.symm ts (List.replicate n 0)
    (List.replicate n 0) (by simp) (by simp)
  refine ⟨(d, f), ?_, h2, h3, ?_⟩
  · unfold rankAssemble
    simp only [hlen]
    rw [h1]
    simp only [bind, Except.bind]
    have : fillLoop N (ownership N size r) (d, f) ts [] = .ok (enc (ownership N size r) ts) := by
      refine fillLoop_ok N _ _ ts hnd hcol ?_ [] ts rfl
      intro i hi b
      have hr : (ownership N size r).lo ≤ i ∧ i < (ownership N size r).hi := by simpa [Range.owns] using hi
      obtain ⟨k1, k2⟩ := h4 (i - (ownership N size r).lo) (by omega)
      have e : (ownership N size r).lo + (i - (ownership N size r).lo) = i := by omega
      rw [e] at k1 k2
      have z : ∀ k, (List.replicate n 0).getD k 0 = 0 := by
        intro k
        simp [List.getD_eq_getElem?_getD, List.getElem?_replicate]
        split <;> rfl
      rw [z, Nat.zero_add] at k1 k2
      cases b
      · simpa [List.getD_eq_getElem?_getD] using k2
      · simpa [List.getD_eq_getElem?_getD] using k1
    rw [this]
    rfl
  · intro a ha
    obtain ⟨k1, k2⟩ := h4 a ha
    have z : ∀ k, (List.replicate n 0).getD k 0 = 0 := by
      intro k
      simp [List.getD_eq_getElem?_getD, List.getElem?_replicate]
      split <;> rfl
    rw [z, Nat.zero_add] at k1 k2
    exact ⟨k1, k2⟩

/-! ### The assembled system -/

/-- the stores of all ranks -/
def stores (N size : Nat) (ts : List (Nat × Nat × K)) : List (Store K) :=
  (List.range size).map (fun r => enc (ownership N size r) ts)

theorem assembleDist_ok (N size : Nat) (ts : List (Nat × Nat × K))
    (hnd : (ts.map (fun t => (t.1, t.2.1))).Nodup) (hcol : ∀ t ∈ ts, t.2.1 < N) (G0 : K) (hN : 1 ≤ N) :
    assembleDist N size ts G0 = .ok ⟨N, stores N size ts, List.replicate size (N - 1, G0)⟩ := by
  unfold assembleDist
  obtain ⟨s, hs⟩ := mapPy_total (f := rankAssemble N size ts) (l := List.range size)
    (fun r _ => ⟨_, (rankAssemble_ok N size ts hnd hcol r).choose_spec.1⟩)
  have hs' := hs
  rw [mapPy_congr (g := fun r => .ok ((rankAssemble_ok N size ts hnd hcol r).choose, enc (ownership N size r) ts))
    (fun r _ => (rankAssemble_ok N size ts hnd hcol r).choose_spec.1), mapPy_pure] at hs'
  rw [hs]
  have hs' := Except.ok.inj hs'
  subst hs'
  simp only [bind, Except.bind, pure, Except.pure, List.map_map]
  rw [if_neg (by omega)]
  rfl

theorem mem_stores (N size : Nat) (hs : 1 ≤ size) (ts : List (Nat × Nat × K)) (hrow : ∀ t ∈ ts, t.1 < N)
    (i j : Nat) (v : K) : ((i, j), v) ∈ (stores N size ts).flatten ↔ (i, j, v) ∈ ts := by
  constructor
  · intro h
    obtain ⟨l, hl, h⟩ := List.mem_flatten.1 h
    obtain ⟨r, -, rfl⟩ := List.mem_map.1 hl
    obtain ⟨⟨a, b, c⟩, ht, he⟩ := List.mem_map.1 h
    simp only [Prod.mk.injEq] at he
    obtain ⟨⟨rfl, rfl⟩, rfl⟩ := he
    exact (List.mem_filter.1 ht).1
  · intro h
    obtain ⟨r, hr, ho⟩ := owner_exists N size i hs (hrow _ h)
    refine List.mem_flatten.2 ⟨_, List.mem_map.2 ⟨r, List.mem_range.2 hr, rfl⟩, ?_⟩
    exact List.mem_map.2 ⟨(i, j, v), List.mem_filter.2 ⟨h, ho⟩, rfl⟩

theorem stores_nodup (N size : Nat) (ts : List (Nat × Nat × K))
    (hnd : (ts.map (fun t => (t.1, t.2.1))).Nodup) : ((stores N size ts).flatten.map Prod.fst).Nodup := by
  unfold stores
  rw [List.map_flatten, List.map_map]
  rw [List.nodup_flatten]
  have hkeys : ∀ r, (enc (ownership N size r) ts).map Prod.fst =
      (ts.filter (fun t => (ownership N size r).owns t.1)).map (fun t => (t.1, t.2.1)) := by
    intro r
    unfold enc
    rw [List.map_map]
    rfl
  constructor
  · intro l hl
    obtain ⟨r, -, rfl⟩ := List.mem_map.1 hl
    simp only [Function.comp]
    rw [hkeys]
    exact hnd.sublist (List.filter_sublist.map _)
  · rw [List.pairwise_map]
    refine List.nodup_range.imp_of_mem ?_
    intro r r' _ _ hne
    simp only [Function.comp, hkeys]
    intro q hq hq'
    obtain ⟨t, ht, rfl⟩ := List.mem_map.1 hq
    obtain ⟨t', ht', he⟩ := List.mem_map.1 hq'
    simp only [Prod.mk.injEq] at he
    have h1 := (List.mem_filter.1 ht).2
    have h2 := (List.mem_filter.1 ht').2
    rw [he.1] at h2
    exact hne (owner_unique h1 h2)

/-- with unique coordinates, an entry is the value given for it, or zero -/
theorem cooEntry_of_mem {ts : List (Nat × Nat × K)} (hnd : (ts.map (fun t => (t.1, t.2.1))).Nodup)
    {i j : Nat} {v : K} (h : (i, j, v) ∈ ts) : cooEntry ts i j = v := by
  induction ts with
  | nil => simp at h
  | cons t ts ih =>
    obtain ⟨a, b, c⟩ := t
    simp only [List.map_cons, List.nodup_cons] at hnd
    unfold cooEntry at ih ⊢
    rcases List.mem_cons.1 h with h | h
    · simp only [Prod.mk.injEq] at h
      obtain ⟨rfl, rfl, rfl⟩ := h
      have : ts.filter (fun t => decide (t.1 = i ∧ t.2.1 = j)) = [] := by
        rw [List.filter_eq_nil_iff]
        intro t ht hc
        simp only [decide_eq_true_eq] at hc
        exact hnd.1 (List.mem_map.2 ⟨t, ht, by simp [hc]⟩)
      rw [List.filter_cons, if_pos (by simp), this]
      simp
    · have hne : ¬ (a = i ∧ b = j) := by
        rintro ⟨rfl, rfl⟩
        exact hnd.1 (List.mem_map.2 ⟨_, h, rfl⟩)
      rw [List.filter_cons, if_neg (by simpa using hne)]
      exact ih hnd.2 h

theorem cooEntry_of_not {ts : List (Nat × Nat × K)} {i j : Nat} (h : ∀ v, (i, j, v) ∉ ts) :
    cooEntry ts i j = 0 := by
  have : ts.filter (fun t => decide (t.1 = i ∧ t.2.1 = j)) = [] := by
    rw [List.filter_eq_nil_iff]
    rintro ⟨a, b, c⟩ ht hc
    simp only [decide_eq_true_eq] at hc
    obtain ⟨rfl, rfl⟩ := hc
    exact h c ht
  unfold cooEntry
  rw [this]
  rfl

theorem entry_stores (N size : Nat) (hs : 1 ≤ size) (ts : List (Nat × Nat × K))
    (hnd : (ts.map (fun t => (t.1, t.2.1))).Nodup) (hrow : ∀ t ∈ ts, t.1 < N) (i j : Nat) :
    (Dict.get? (stores N size ts).flatten (i, j)).getD 0 = cooEntry ts i j := by
  cases h : Dict.get? (stores N size ts).flatten (i, j) with
  | some v =>
    have hm := (mem_stores N size hs ts hrow i j v).1 (mem_of_get? h)
    rw [cooEntry_of_mem hnd hm]
    rfl
  | none =>
    rw [cooEntry_of_not]
    · rfl
    · intro v hv
      have := get?_of_mem (stores_nodup N size ts hnd) ((mem_stores N size hs ts hrow i j v).2 hv)
      rw [h] at this
      cases this

theorem rhs_replicate (N size : Nat) (hs : 1 ≤ size) (G0 : K) (i : Nat) :
    (Dict.get? (List.replicate size (N - 1, G0)).reverse i).getD 0 = if i = N - 1 then G0 else 0 := by
  rw [List.reverse_replicate]
  obtain ⟨n, rfl⟩ : ∃ n, size = n + 1 := ⟨size - 1, by omega⟩
  induction n with
  | zero =>
    by_cases h : N - 1 = i
    · simp [get?, h]
    · simp [get?, h, Ne.symm h]
  | succ n ih =>
    rw [List.replicate_succ, get?]
    by_cases h : N - 1 = i
    · simp [h]
    · rw [if_neg h]
      exact ih (by omega)

/-! ### Reading the result -/

theorem readG_ok (N size : Nat) (hs : 1 ≤ size) (hN : size ≤ N) (x : List K) (hx : x.length = N) :
    readG N size x = .ok (x[N - 1]'(by omega)) := by
  unfold readG gathered
  rw [List.getElem?_map, List.getElem?_range (by omega)]
  simp only [Option.map_some]
  have hhi := ownership_hi N size (size - 1)
  have hlo := ownership_lo N size (size - 1)
  rw [Nat.sub_add_cancel hs, splitOffset_last N size (by omega)] at hhi
  have hq : 1 ≤ N / size := Nat.div_pos hN (by omega)
  have hl : (ownership N size (size - 1)).lo + localSize N size (size - 1) = N := hhi
  have hpos : 1 ≤ localSize N size (size - 1) := by unfold localSize; omega
  generalize (ownership N size (size - 1)).lo = lo at hl
  generalize localSize N size (size - 1) = k at hl hpos
  have : ((x.drop lo).take k).getLast? = some (x[N - 1]'(by omega)) := by
    rw [List.take_of_length_le (by simp; omega), List.getLast?_drop, if_neg (by omega),
      List.getLast?_eq_getElem?, List.getElem?_eq_getElem (by omega)]
    simp only [hx]
  rw [this]

theorem readG_few (N size : Nat) (h : N < size) (x : List K) : readG N size x = .error .indexError := by
  unfold readG gathered
  rw [List.getElem?_map, List.getElem?_range (by omega)]
  simp only [Option.map_some]
  have : localSize N size (size - 1) = 0 := by
    unfold localSize
    rw [Nat.div_eq_of_lt h, Nat.mod_eq_of_lt h, if_neg (by omega)]
  rw [this]
  rfl

end GGCE.Petsc
