import Verif.Model.Grid
import Verif.Proofs.Utils
import Mathlib.Tactic.Ring

/-! Lemmas about loops over jobs and ranks. -/

set_option linter.unusedSectionVars false

namespace GGCE

section MapPy
variable {α β γ : Type}

theorem mapPy_append (f : α → Py β) (l₁ l₂ : List α) :
    mapPy f (l₁ ++ l₂) = (do let a ← mapPy f l₁; let b ← mapPy f l₂; pure (a ++ b)) := by
  induction l₁ with
  | nil =>
    simp only [List.nil_append, mapPy, bind, Except.bind, pure, Except.pure]
    cases mapPy f l₂ <;> rfl
  | cons x l₁ ih =>
    rw [List.cons_append, mapPy, ih, mapPy]
    simp only [bind, Except.bind, pure, Except.pure]
    cases f x with
    | error e => rfl
    | ok y =>
      dsimp only
      cases mapPy f l₁ with
      | error e => rfl
      | ok ys =>
        dsimp only
        cases mapPy f l₂ with
        | error e => rfl
        | ok zs => rfl

/-- looping over lists of jobs and concatenating is looping over the concatenation -/
theorem mapPy_flatten (f : α → Py β) (ls : List (List α)) :
    (mapPy (mapPy f) ls).map List.flatten = mapPy f ls.flatten := by
  induction ls with
  | nil => rfl
  | cons l ls ih =>
    rw [List.flatten_cons, mapPy_append, ← ih, mapPy]
    simp only [bind, Except.bind, pure, Except.pure]
    cases mapPy f l with
    | error e => rfl
    | ok y =>
      dsimp only
      cases mapPy (mapPy f) ls with
      | error e => rfl
      | ok ys => rfl

theorem mapPy_map (g : α → γ) (f : γ → Py β) (l : List α) : mapPy f (l.map g) = mapPy (fun x => f (g x)) l := by
  induction l with
  | nil => rfl
  | cons x l ih => rw [List.map_cons, mapPy, mapPy, ih]

theorem mapPy_congr {f g : α → Py β} {l : List α} (h : ∀ x ∈ l, f x = g x) : mapPy f l = mapPy g l := by
  induction l with
  | nil => rfl
  | cons x l ih =>
    rw [mapPy, mapPy, h x (by simp), ih (fun y hy => h y (by simp [hy]))]

/-- a loop that succeeds has one result per element -/
theorem mapPy_ok {f : α → Py β} {l : List α} {s : List β} (h : mapPy f l = .ok s) :
    s.length = l.length ∧ ∀ i (h1 : i < l.length) (h2 : i < s.length), f l[i] = .ok s[i] := by
  induction l generalizing s with
  | nil => simp only [mapPy, Except.ok.injEq] at h; subst h; simp
  | cons x l ih =>
    rw [mapPy] at h
    simp only [bind, Except.bind, pure, Except.pure] at h
    split at h
    · cases h
    · rename_i y hy
      split at h
      · cases h
      · rename_i ys hys
        simp only [Except.ok.injEq] at h
        subst h
        obtain ⟨h1, h2⟩ := ih hys
        refine ⟨by simp [h1], ?_⟩
        intro i hi1 hi2
        cases i with
        | zero => exact hy
        | succ i => exact h2 i (by simpa using hi1) (by simpa using hi2)

theorem mapPy_total {f : α → Py β} {l : List α} (h : ∀ x ∈ l, ∃ y, f x = .ok y) : ∃ s, mapPy f l = .ok s := by
  induction l with
  | nil => exact ⟨[], rfl⟩
  | cons x l ih =>
    obtain ⟨y, hy⟩ := h x (by simp)
    obtain ⟨s, hs⟩ := ih (fun z hz => h z (by simp [hz]))
    exact ⟨y :: s, by rw [mapPy, hy, hs]; rfl⟩

theorem mapPy_pure (g : α → β) (l : List α) : mapPy (fun x => (.ok (g x) : Py β)) l = .ok (l.map g) := by
  induction l with
  | nil => rfl
  | cons x l ih => rw [mapPy, ih]; rfl

theorem mapPy_const (v : Py β) (n : Nat) (hn : 1 ≤ n) (l : List α) (hl : l.length = n) :
    mapPy (fun _ => v) l = v.map (List.replicate n) := by
  subst hl
  induction l with
  | nil => simp at hn
  | cons x l ih =>
    rw [mapPy]
    cases l with
    | nil => cases v <;> rfl
    | cons y l =>
      rw [ih (by simp)]
      cases v <;> rfl

/-- ranks grouped into brigades: running `g` of the brigade number on every rank -/
theorem mapPy_brigades (g : Nat → Py β) (s : Nat) (hs : 1 ≤ s) (c : Nat) :
    mapPy (fun r => g (r / s)) (List.range (c * s)) =
      (mapPy g (List.range c)).map (fun vs => vs.flatMap (List.replicate s)) := by
  induction c with
  | zero => simp [mapPy, Except.map]
  | succ c ih =>
    have hlast : mapPy (fun x => g ((c * s + x) / s)) (List.range s) = (g c).map (List.replicate s) := by
      rw [mapPy_congr (g := fun _ => g c), mapPy_const (g c) s hs _ (by simp)]
      intro x hx
      rw [List.mem_range] at hx
      rw [Nat.mul_comm, Nat.mul_add_div (by omega), Nat.div_eq_of_lt hx]
      rfl
    rw [Nat.succ_mul, List.range_add, mapPy_append, ih, List.range_succ, mapPy_append, mapPy_map, hlast]
    simp only [bind, Except.bind, pure, Except.pure, mapPy]
    cases mapPy g (List.range c) with
    | error e => rfl
    | ok vs =>
      cases g c with
      | error e => rfl
      | ok v => simp [Except.map, List.flatMap_append]

theorem getElem?_flatMap_replicate (vs : List β) (s : Nat) (hs : 1 ≤ s) (n : Nat) :
    (vs.flatMap (List.replicate s))[n * s]? = vs[n]? := by
  induction vs generalizing n with
  | nil => simp
  | cons v vs ih =>
    rw [List.flatMap_cons]
    cases n with
    | zero => rw [Nat.zero_mul, List.getElem?_append_left (by simp; omega), List.getElem?_replicate, if_pos (by omega)]; rfl
    | succ n =>
      rw [List.getElem?_append_right (by simp [Nat.succ_mul])]
      simp only [List.length_replicate, Nat.succ_mul, Nat.add_sub_cancel, List.getElem?_cons_succ]
      exact ih n

end MapPy

section Reshape
variable {V : Type}

theorem reshapeGrid_ok {s : List V} {r c : Nat} {M : List (List V)} (h : reshapeGrid s r c = .ok M) :
    s.length = r * c ∧ M.length = r ∧ ∀ i (_ : i < r), ∃ row, M[i]? = some row ∧ row.length = c ∧
      ∀ j < c, row[j]? = s[i * c + j]? := by
  unfold reshapeGrid at h
  split at h
  · rename_i hl
    simp only [Except.ok.injEq] at h
    subst h
    refine ⟨hl, by simp, ?_⟩
    intro i hi
    have hb : i * c + c ≤ s.length := by
      rw [hl, ← Nat.succ_mul]; exact Nat.mul_le_mul_right c hi
    refine ⟨(s.drop (i * c)).take c, by simp [hi], by rw [List.length_take, List.length_drop]; omega, ?_⟩
    intro j hj
    rw [List.getElem?_take_of_lt hj, List.getElem?_drop]
  · cases h

theorem reshapeGrid_length {s : List V} {r c : Nat} (h : s.length = r * c) : ∃ M, reshapeGrid s r c = .ok M :=
  ⟨_, if_pos h⟩

end Reshape

section Jobs
variable {R : Type} [Field R]

theorem jobList_length (k w : List R) : (jobList k w).length = k.length * w.length := by
  unfold jobList
  induction k with
  | nil => simp
  | cons x k ih => simp [List.flatMap_cons, ih, Nat.succ_mul, Nat.add_comm]

theorem jobList_get (k w : List R) (i j : Nat) (hi : i < k.length) (hj : j < w.length) :
    (jobList k w)[i * w.length + j]? = some (k[i], w[j]) := by
  unfold jobList
  induction k generalizing i with
  | nil => simp at hi
  | cons x k ih =>
    rw [List.flatMap_cons]
    cases i with
    | zero =>
      rw [Nat.zero_mul, Nat.zero_add, List.getElem?_append_left (by simpa using hj)]
      simp [hj]
    | succ i =>
      rw [List.getElem?_append_right (by simp [Nat.succ_mul]; omega)]
      have : (i + 1) * w.length + j - (w.map (fun y => (x, y))).length = i * w.length + j := by
        simp [Nat.succ_mul]; omega
      rw [this, ih i (by simpa using hi)]
      rfl

end Jobs

section Brigades

theorem Brigades.facts {b : Brigades} (hw : 1 ≤ b.world) (hc : b.check = .ok ()) :
    1 ≤ b.size ∧ 1 ≤ b.count ∧ b.count * b.size = b.world ∧ ∀ r < b.world, b.index r = r / b.size := by
  obtain ⟨n, s⟩ := b
  cases s with
  | none =>
    simp only [size, count, index, Option.getD_none]
    exact ⟨hw, le_rfl, by simp, fun r hr => (Nat.div_eq_of_lt hr).symm⟩
  | some s =>
    unfold check at hc
    simp only at hc hw
    split at hc
    · cases hc
    · rename_i hs
      split at hc
      · rename_i hm
        have hd := Nat.div_add_mod n s
        have h3 : n / s * s = n := by rw [Nat.mul_comm]; omega
        refine ⟨by simp [size]; omega, ?_, h3, fun r _ => rfl⟩
        simp only [count]
        rcases Nat.eq_zero_or_pos (n / s) with h0 | h0
        · rw [h0] at h3; omega
        · exact h0
      · cases hc

/-- every brigade has its slice of the jobs -/
theorem Brigades.jobs_ok {α : Type} {b : Brigades} (hw : 1 ≤ b.world) (hc : b.check = .ok ()) (l : List α) :
    ∃ chunk : Nat → List α, (∀ r < b.world, b.jobs l r = .ok (chunk (r / b.size))) ∧
      ((List.range b.count).map chunk).flatten = l := by
  obtain ⟨h1, h2, h3, h4⟩ := b.facts hw hc
  refine ⟨fun i => (l.take (splitOffset l.length b.count (i + 1))).drop (splitOffset l.length b.count i), ?_, ?_⟩
  · intro r hr
    unfold jobs
    split
    · rename_i h
      have : r / b.size = 0 := by
        rw [Nat.div_eq_of_lt]; rw [h, Nat.one_mul] at h3; omega
      simp [this, h, splitOffset, Nat.mod_one]
    · rw [h4 r hr]
      exact chunkJobs_ok l b.count _ (Nat.div_lt_of_lt_mul (by rw [Nat.mul_comm, h3]; exact hr))
  · rw [flatten_slices l (splitOffset l.length b.count) (splitOffset_mono _ _) (by simp [splitOffset]),
      splitOffset_last _ _ (by omega), List.take_length]

/-- one copy of the results is kept per brigade -/
theorem pickCommanders_ok {V : Type} {b : Brigades} (hw : 1 ≤ b.world) (hc : b.check = .ok ())
    (vs : List (List V)) (hl : vs.length = b.count) :
    pickCommanders b (vs.flatMap (List.replicate b.size)) = .ok vs := by
  obtain ⟨h1, h2, h3, h4⟩ := b.facts hw hc
  unfold pickCommanders
  split
  · rw [mapPy_congr (g := fun n => .ok (vs.getD n [])), mapPy_pure]
    · congr 1
      apply List.ext_getElem
      · simp [hl]
      · intro i i1 i2
        simp [List.getD_eq_getElem?_getD, i2]
    · intro n hn
      rw [List.mem_range, ← hl] at hn
      unfold listGet
      rw [getElem?_flatMap_replicate vs b.size h1 n, List.getElem?_eq_getElem hn]
      simp [List.getD_eq_getElem?_getD, hn]
  · have : b.size = 1 := by omega
    rw [this]
    simp [List.replicate]

end Brigades

end GGCE
