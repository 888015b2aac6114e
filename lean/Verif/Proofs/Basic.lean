import Verif.Py
import Mathlib.Data.List.Basic

/-! Helper lemmas about the Python-level conventions. -/

namespace GGCE

theorem collectM_ok {α β : Type _} {f : α → Py (Option β)} {g : α → Option β} :
    ∀ {xs : List α}, (∀ x ∈ xs, f x = .ok (g x)) → collectM f xs = .ok (xs.filterMap g)
  | [], _ => rfl
  | x :: xs, h => by
    have hx := h x (by simp)
    have ih := collectM_ok (f := f) (g := g) (xs := xs) (fun y hy => h y (by simp [hy]))
    simp only [collectM, hx, ih]
    cases hg : g x <;> simp [hg, bind, Except.bind, pure, Except.pure]

theorem collectM_some_ok {α β : Type _} {f : α → Py (Option β)} {g : α → β} {xs : List α}
    (h : ∀ x ∈ xs, f x = .ok (some (g x))) : collectM f xs = .ok (xs.map g) := by
  rw [collectM_ok (g := fun x => some (g x)) h]
  simp

/-- what a successful loop collected -/
theorem collectM_eq_ok {α β : Type _} {f : α → Py (Option β)} :
    ∀ {xs : List α} {ys : List β}, collectM f xs = .ok ys →
      ∃ g : α → Option β, (∀ x ∈ xs, f x = .ok (g x)) ∧ ys = xs.filterMap g
  | [], ys, h => ⟨fun _ => none, by simp, by
      simp only [collectM, pure, Except.pure, Except.ok.injEq] at h; simp [← h]⟩
  | x :: xs, ys, h => by
    classical
    refine ⟨fun a => match f a with | .ok b => b | .error _ => none, ?_⟩
    simp only [collectM] at h
    cases hx : f x with
    | error e => simp [hx, bind, Except.bind] at h
    | ok b =>
      cases hr : collectM f xs with
      | error e => simp [hx, hr, bind, Except.bind] at h
      | ok zs =>
        obtain ⟨g, hg1, hg2⟩ := collectM_eq_ok hr
        have key : ∀ a ∈ xs, (match f a with | .ok b => b | .error _ => none) = g a := by
          intro a ha; simp [hg1 a ha]
        constructor
        · intro a ha
          rcases List.mem_cons.1 ha with rfl | ha
          · simp [hx]
          · simp [hg1 a ha]
        · have : xs.filterMap (fun a => match f a with | .ok b => b | .error _ => none)
              = xs.filterMap g := List.filterMap_congr key
          cases b <;>
            simp [hx, hr, bind, Except.bind, pure, Except.pure] at h <;>
            simp [hx, this, ← h, hg2]

theorem collectM_eq_ok_mem {α β : Type _} {f : α → Py (Option β)} {xs : List α} {ys : List β}
    (h : collectM f xs = .ok ys) (y : β) : y ∈ ys ↔ ∃ x ∈ xs, f x = .ok (some y) := by
  obtain ⟨g, h1, rfl⟩ := collectM_eq_ok h
  simp only [List.mem_filterMap]
  constructor
  · rintro ⟨x, hx, hgx⟩; exact ⟨x, hx, by rw [h1 x hx, hgx]⟩
  · rintro ⟨x, hx, hfx⟩
    refine ⟨x, hx, ?_⟩
    have := h1 x hx
    rw [hfx] at this
    exact (Except.ok.inj this).symm

/-! ### Dictionaries -/

namespace Dict
variable {κ ν : Type _} [DecidableEq κ]

theorem get?_push (d : Dict κ (List ν)) (k k' : κ) (v : ν) :
    (d.push k v).get? k' = if k = k' then some ((d.get? k).getD [] ++ [v]) else d.get? k' := by
  induction d with
  | nil => simp [push, get?]
  | cons p d ih =>
    obtain ⟨a, vs⟩ := p
    simp only [push]
    by_cases h : a = k
    · subst h
      by_cases h' : a = k' <;> simp [get?, h']
    · by_cases h' : a = k'
      · subst h'
        simp [get?, h, Ne.symm h]
      · simp [get?, h, h', ih]

theorem get?_set (d : Dict κ ν) (k k' : κ) (v : ν) :
    (d.set k v).get? k' = if k = k' then some v else d.get? k' := by
  induction d with
  | nil => simp [set, get?]
  | cons p d ih =>
    obtain ⟨a, w⟩ := p
    simp only [set]
    by_cases h : a = k
    · subst h
      by_cases h' : a = k' <;> simp [get?, h']
    · by_cases h' : a = k'
      · subst h'
        simp [get?, h, Ne.symm h]
      · simp [get?, h, h', ih]

theorem get?_eq_none_iff (d : Dict κ ν) (k : κ) : d.get? k = none ↔ k ∉ d.map Prod.fst := by
  induction d with
  | nil => simp [get?]
  | cons p d ih =>
    obtain ⟨a, w⟩ := p
    by_cases h : a = k
    · simp [get?, h]
    · simp [get?, h, ih, Ne.symm h]

theorem mem_of_get? {d : Dict κ ν} {k : κ} {v : ν} (h : d.get? k = some v) : (k, v) ∈ d := by
  induction d with
  | nil => simp [get?] at h
  | cons p d ih =>
    obtain ⟨a, w⟩ := p
    by_cases h' : a = k
    · simp [get?, h'] at h; simp [h', h]
    · simp [get?, h'] at h; simp [ih h]

theorem get?_of_mem {d : Dict κ ν} (hn : (d.map Prod.fst).Nodup) {k : κ} {v : ν}
    (h : (k, v) ∈ d) : d.get? k = some v := by
  induction d with
  | nil => simp at h
  | cons p d ih =>
    obtain ⟨a, w⟩ := p
    simp only [List.map_cons, List.nodup_cons] at hn
    rcases List.mem_cons.1 h with h | h
    · cases h; simp [get?]
    · have : a ≠ k := by
        rintro rfl
        exact hn.1 (List.mem_map.2 ⟨_, h, rfl⟩)
      simp [get?, this, ih hn.2 h]

theorem keys_push (d : Dict κ (List ν)) (k : κ) (v : ν) :
    (d.push k v).map Prod.fst =
      if k ∈ d.map Prod.fst then d.map Prod.fst else d.map Prod.fst ++ [k] := by
  induction d with
  | nil => simp [push]
  | cons p d ih =>
    obtain ⟨a, w⟩ := p
    by_cases h : a = k
    · simp [push, h]
    · have : k ≠ a := fun e => h e.symm
      by_cases hk : k ∈ d.map Prod.fst
      · simp only [push, h, if_false, List.map_cons, ih, hk, if_true, List.mem_cons, or_true]
      · simp only [push, h, if_false, List.map_cons, ih, hk, List.mem_cons, this, or_self,
          List.cons_append]

theorem keys_nodup_push {d : Dict κ (List ν)} (h : (d.map Prod.fst).Nodup) (k : κ) (v : ν) :
    ((d.push k v).map Prod.fst).Nodup := by
  rw [keys_push]
  split
  · exact h
  · rename_i hk
    rw [List.nodup_append]
    refine ⟨h, by simp, ?_⟩
    intro a ha b hb
    simp only [List.mem_singleton] at hb
    rintro rfl
    exact hk (hb ▸ ha)

end Dict

end GGCE
