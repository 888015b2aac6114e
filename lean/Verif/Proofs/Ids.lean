import Verif.Model.Engine
import Verif.Proofs.AddRemove

/-! Injectivity of the string identifiers. -/

namespace GGCE

/-- a delimiter outside the class `P` splits a string uniquely -/
theorem split_unique {P : Char → Prop} {s₁ s₂ r₁ r₂ : PyStr} {c₁ c₂ : Char}
    (h₁ : ∀ c ∈ s₁, P c) (h₂ : ∀ c ∈ s₂, P c) (hc₁ : ¬ P c₁) (hc₂ : ¬ P c₂)
    (h : s₁ ++ c₁ :: r₁ = s₂ ++ c₂ :: r₂) : s₁ = s₂ ∧ c₁ = c₂ ∧ r₁ = r₂ := by
  induction s₁ generalizing s₂ with
  | nil =>
    cases s₂ with
    | nil => simpa using h
    | cons d s₂ =>
      simp only [List.nil_append, List.cons_append, List.cons.injEq] at h
      exact absurd (h₂ d (by simp)) (h.1 ▸ hc₁)
  | cons d s₁ ih =>
    cases s₂ with
    | nil =>
      simp only [List.nil_append, List.cons_append, List.cons.injEq] at h
      exact absurd (h₁ d (by simp)) (h.1 ▸ hc₂)
    | cons d' s₂ =>
      simp only [List.cons_append, List.cons.injEq] at h
      obtain ⟨rfl, h⟩ := h
      obtain ⟨rfl, h'⟩ := ih (fun c hc => h₁ c (by simp [hc])) (fun c hc => h₂ c (by simp [hc])) h
      exact ⟨rfl, h'⟩

def IsDigit (c : Char) : Prop := c ∈ ['0', '1', '2', '3', '4', '5', '6', '7', '8', '9']

instance (c : Char) : Decidable (IsDigit c) := inferInstanceAs (Decidable (c ∈ _))

theorem digitChar_isDigit {n : Nat} (h : n < 10) : IsDigit (Nat.digitChar n) := by
  have : n = 0 ∨ n = 1 ∨ n = 2 ∨ n = 3 ∨ n = 4 ∨ n = 5 ∨ n = 6 ∨ n = 7 ∨ n = 8 ∨ n = 9 := by omega
  rcases this with rfl | rfl | rfl | rfl | rfl | rfl | rfl | rfl | rfl | rfl <;> decide

theorem digitChar_inj {n m : Nat} (hn : n < 10) (hm : m < 10)
    (h : Nat.digitChar n = Nat.digitChar m) : n = m := by
  have a : n = 0 ∨ n = 1 ∨ n = 2 ∨ n = 3 ∨ n = 4 ∨ n = 5 ∨ n = 6 ∨ n = 7 ∨ n = 8 ∨ n = 9 := by omega
  have b : m = 0 ∨ m = 1 ∨ m = 2 ∨ m = 3 ∨ m = 4 ∨ m = 5 ∨ m = 6 ∨ m = 7 ∨ m = 8 ∨ m = 9 := by omega
  rcases a with rfl | rfl | rfl | rfl | rfl | rfl | rfl | rfl | rfl | rfl <;>
    rcases b with rfl | rfl | rfl | rfl | rfl | rfl | rfl | rfl | rfl | rfl <;>
      first | rfl | (exact absurd h (by decide))

theorem natStr_digits (n : Nat) : ∀ c ∈ natStr n, IsDigit c := by
  induction n using Nat.strongRecOn with
  | ind n ih =>
    unfold natStr
    split
    · intro c hc
      simp only [List.mem_singleton] at hc
      rw [hc]; exact digitChar_isDigit (by assumption)
    · intro c hc
      simp only [List.mem_append, List.mem_singleton] at hc
      rcases hc with hc | rfl
      · exact ih _ (by omega) c hc
      · exact digitChar_isDigit (by omega)

theorem natStr_ne_nil (n : Nat) : natStr n ≠ [] := by
  unfold natStr; split <;> simp

theorem natStr_lt {n : Nat} (h : n < 10) : natStr n = [Nat.digitChar n] := by
  rw [natStr, if_pos h]

theorem natStr_ge {n : Nat} (h : ¬ n < 10) :
    natStr n = natStr (n / 10) ++ [Nat.digitChar (n % 10)] := by
  conv_lhs => rw [natStr, if_neg h]

theorem natStr_inj {n m : Nat} (h : natStr n = natStr m) : n = m := by
  induction n using Nat.strongRecOn generalizing m with
  | ind n ih =>
    by_cases hn : n < 10
    · by_cases hm : m < 10
      · rw [natStr_lt hn, natStr_lt hm] at h
        exact digitChar_inj hn hm (by simpa using h)
      · rw [natStr_lt hn, natStr_ge hm] at h
        have hl := congrArg List.length h
        have := List.length_pos_of_ne_nil (natStr_ne_nil (m / 10))
        rw [List.length_append, List.length_singleton, List.length_singleton] at hl
        omega
    · by_cases hm : m < 10
      · rw [natStr_ge hn, natStr_lt hm] at h
        have hl := congrArg List.length h
        have := List.length_pos_of_ne_nil (natStr_ne_nil (n / 10))
        rw [List.length_append, List.length_singleton, List.length_singleton] at hl
        omega
      · rw [natStr_ge hn, natStr_ge hm] at h
        obtain ⟨h1, h2⟩ := List.append_inj' h rfl
        have := ih (n / 10) (by omega) h1
        have := digitChar_inj (Nat.mod_lt _ (by omega)) (Nat.mod_lt _ (by omega))
          (List.singleton_inj.1 h2)
        omega

def IsIntChar (c : Char) : Prop := c = '-' ∨ IsDigit c

theorem intStr_chars (n : Int) : ∀ c ∈ intStr n, IsIntChar c := by
  unfold intStr
  split
  · intro c hc
    rcases List.mem_cons.1 hc with rfl | hc
    · exact Or.inl rfl
    · exact Or.inr (natStr_digits _ c hc)
  · intro c hc; exact Or.inr (natStr_digits _ c hc)

theorem intStr_ne_nil (n : Int) : intStr n ≠ [] := by
  unfold intStr; split
  · simp
  · exact natStr_ne_nil _

theorem minus_not_digit : ¬ IsDigit '-' := by decide

theorem natStr_ne_minus (n : Nat) (s : PyStr) : natStr n ≠ '-' :: s := by
  intro h
  exact minus_not_digit (natStr_digits n '-' (by rw [h]; simp))

theorem intStr_inj {n m : Int} (h : intStr n = intStr m) : n = m := by
  unfold intStr at h
  split at h <;> split at h
  · simp only [List.cons.injEq, true_and] at h
    have := natStr_inj h; omega
  · exact absurd h.symm (natStr_ne_minus _ _)
  · exact absurd h (natStr_ne_minus _ _)
  · have := natStr_inj h; omega

theorem not_intChar_comma : ¬ IsIntChar ',' := by
  unfold IsIntChar; decide

theorem not_intChar_close : ¬ IsIntChar ']' := by
  unfold IsIntChar; decide

/-- `str(list)` is injective, even followed by arbitrary text -/
theorem listStr_inj {xs ys : List Int} {r₁ r₂ : PyStr}
    (h : listStr (xs.map intStr) ++ r₁ = listStr (ys.map intStr) ++ r₂) : xs = ys ∧ r₁ = r₂ := by
  unfold listStr at h
  simp only [List.cons_append, List.cons.injEq, true_and, List.append_assoc, List.nil_append] at h
  induction xs generalizing ys with
  | nil =>
    cases ys with
    | nil => simpa [commaJoin] using h
    | cons y ys =>
      exfalso
      cases ys with
      | nil =>
        simp only [List.map_nil, commaJoin, List.nil_append, List.map_cons] at h
        have := split_unique (s₁ := []) (P := IsIntChar) (by simp) (intStr_chars y)
          not_intChar_close not_intChar_close h
        exact intStr_ne_nil y this.1.symm
      | cons z zs =>
        simp only [List.map_nil, commaJoin, List.nil_append, List.map_cons, List.append_assoc,
          List.cons_append] at h
        have := split_unique (s₁ := []) (P := IsIntChar) (by simp) (intStr_chars y)
          not_intChar_close not_intChar_comma h
        exact intStr_ne_nil y this.1.symm
  | cons x xs ih =>
    cases ys with
    | nil =>
      exfalso
      cases xs with
      | nil =>
        simp only [List.map_nil, commaJoin, List.nil_append, List.map_cons] at h
        have := split_unique (s₂ := []) (P := IsIntChar) (intStr_chars x) (by simp)
          not_intChar_close not_intChar_close h
        exact intStr_ne_nil x this.1
      | cons z zs =>
        simp only [List.map_nil, commaJoin, List.nil_append, List.map_cons, List.append_assoc,
          List.cons_append] at h
        have := split_unique (s₂ := []) (P := IsIntChar) (intStr_chars x) (by simp)
          not_intChar_comma not_intChar_close h
        exact intStr_ne_nil x this.1
    | cons y ys =>
      cases xs with
      | nil =>
        cases ys with
        | nil =>
          simp only [List.map_nil, commaJoin, List.map_cons] at h
          have := split_unique (P := IsIntChar) (intStr_chars x) (intStr_chars y)
            not_intChar_close not_intChar_close h
          exact ⟨by rw [intStr_inj this.1], this.2.2⟩
        | cons z zs =>
          exfalso
          simp only [List.map_nil, commaJoin, List.map_cons, List.append_assoc,
            List.cons_append] at h
          have := split_unique (P := IsIntChar) (intStr_chars x) (intStr_chars y)
            not_intChar_close not_intChar_comma h
          exact absurd this.2.1 (by decide)
      | cons w ws =>
        cases ys with
        | nil =>
          exfalso
          simp only [List.map_nil, commaJoin, List.map_cons, List.append_assoc,
            List.cons_append] at h
          have := split_unique (P := IsIntChar) (intStr_chars x) (intStr_chars y)
            not_intChar_comma not_intChar_close h
          exact absurd this.2.1 (by decide)
        | cons z zs =>
          simp only [commaJoin, List.map_cons, List.append_assoc, List.cons_append] at h
          have := split_unique (P := IsIntChar) (intStr_chars x) (intStr_chars y)
            not_intChar_comma not_intChar_comma h
          obtain ⟨h1, -, h3⟩ := this
          simp only [List.cons.injEq, true_and] at h3
          obtain ⟨h4, h5⟩ := ih (ys := z :: zs) (by simpa using h3)
          exact ⟨by rw [intStr_inj h1, h4], h5⟩

theorem pairStr_inj {n m n' m' : Nat} {r₁ r₂ : PyStr}
    (h : pairStr n m ++ r₁ = pairStr n' m' ++ r₂) : n = n' ∧ m = m' ∧ r₁ = r₂ := by
  unfold pairStr at h
  simp only [List.cons_append, List.cons.injEq, true_and, List.append_assoc, List.nil_append] at h
  obtain ⟨h1, -, h2⟩ := split_unique (P := IsDigit) (natStr_digits n) (natStr_digits n')
    (by decide) (by decide) h
  simp only [List.cons.injEq, true_and] at h2
  obtain ⟨h3, -, h4⟩ := split_unique (P := IsDigit) (natStr_digits m) (natStr_digits m')
    (by decide) (by decide) h2
  exact ⟨natStr_inj h1, natStr_inj h3, h4⟩

theorem flatten_inj {n : Nat} : ∀ {xs ys : List (List Int)}, xs.length = ys.length →
    (∀ r ∈ xs, r.length = n) → (∀ r ∈ ys, r.length = n) → xs.flatten = ys.flatten → xs = ys
  | [], [], _, _, _, _ => rfl
  | [], _ :: _, h, _, _, _ => by simp at h
  | _ :: _, [], h, _, _, _ => by simp at h
  | x :: xs, y :: ys, hl, hx, hy, h => by
    simp only [List.flatten_cons] at h
    obtain ⟨h1, h2⟩ := List.append_inj h (by rw [hx x (by simp), hy y (by simp)])
    rw [h1, flatten_inj (by simpa using hl) (fun r hr => hx r (by simp [hr]))
      (fun r hr => hy r (by simp [hr])) h2]

/-- identifier without the surrounding braces, followed by arbitrary text -/
theorem configId_inj {a b : Arr} (ha : a.WF) (hb : b.WF) {r₁ r₂ : PyStr}
    (h : configId a ++ r₁ = configId b ++ r₂) :
    ((a.total = 0 ∧ b.total = 0) ∨ (a.total ≠ 0 ∧ a = b)) ∧ r₁ = r₂ := by
  unfold configId at h
  simp only [List.cons_append, List.cons.injEq, true_and, List.append_assoc, List.nil_append] at h
  by_cases h1 : a.total = 0 <;> by_cases h2 : b.total = 0 <;> simp only [h1, h2, if_true, if_false] at h
  · simp only [List.cons_append, List.nil_append, List.cons.injEq, true_and] at h
    exact ⟨Or.inl ⟨h1, h2⟩, h⟩
  · exfalso
    unfold listStr at h
    simp only [List.cons_append, List.nil_append, List.cons.injEq] at h
    exact absurd h.1 (by decide)
  · exfalso
    unfold listStr at h
    simp only [List.cons_append, List.nil_append, List.cons.injEq] at h
    exact absurd h.1 (by decide)
  · rw [List.append_assoc, List.append_assoc] at h
    obtain ⟨h3, h4⟩ := listStr_inj h
    obtain ⟨h5, h6, h7⟩ := pairStr_inj h4
    simp only [List.cons.injEq, true_and] at h7
    refine ⟨Or.inr ⟨h1, ?_⟩, h7⟩
    obtain ⟨ra, la⟩ := a
    obtain ⟨rb, lb⟩ := b
    simp only at h6; subst h6
    congr 1
    exact flatten_inj h5 ha hb h3

theorem configId_eq_iff {a b : Arr} (ha : a.WF) (hb : b.WF) :
    configId a = configId b ↔ (a.total = 0 ∧ b.total = 0) ∨ a = b := by
  constructor
  · intro h
    have := (configId_inj ha hb (r₁ := []) (r₂ := []) (by simpa using h)).1
    rcases this with h | h
    · exact Or.inl h
    · exact Or.inr h.2
  · rintro (⟨h1, h2⟩ | rfl)
    · simp [configId, h1, h2]
    · rfl

/-- `"{G}"` is the identifier of zero-phonon configurations only -/
theorem configId_eq_G (a : Arr) : configId a = ['{', 'G', '}'] ↔ a.total = 0 := by
  constructor
  · intro h
    by_contra hne
    unfold configId listStr at h
    simp only [hne, if_false, List.cons_append, List.cons.injEq, true_and] at h
    exact absurd h.1 (by decide)
  · intro h; simp [configId, h]

theorem halfStr_inj {m n : Int} {r₁ r₂ : PyStr}
    (h : halfStr m ++ r₁ = halfStr n ++ r₂) : m = n ∧ r₁ = r₂ := by
  have key : ∀ (p q : Nat) (r₁ r₂ : PyStr),
      natStr (p / 2) ++ (if p % 2 = 0 then ['.', '0'] else ['.', '5']) ++ r₁ =
      natStr (q / 2) ++ (if q % 2 = 0 then ['.', '0'] else ['.', '5']) ++ r₂ → p = q ∧ r₁ = r₂ := by
    intro p q r₁ r₂ h
    have e : ∀ (p : Nat), (if p % 2 = 0 then ['.', '0'] else ['.', '5'] : PyStr)
        = '.' :: (if p % 2 = 0 then ['0'] else ['5']) := by intro p; split <;> rfl
    rw [e p, e q, List.append_assoc, List.append_assoc, List.cons_append, List.cons_append] at h
    obtain ⟨h1, -, h2⟩ := split_unique (P := IsDigit) (natStr_digits _) (natStr_digits _)
      (by decide) (by decide) h
    have := natStr_inj h1
    split at h2 <;> split at h2 <;>
      simp only [List.cons_append, List.nil_append, List.cons.injEq] at h2
    · exact ⟨by omega, h2.2⟩
    · exact absurd h2.1 (by decide)
    · exact absurd h2.1 (by decide)
    · exact ⟨by omega, h2.2⟩
  unfold halfStr at h
  by_cases h1 : m < 0 <;> by_cases h2 : n < 0 <;>
    simp only [h1, h2, if_true, if_false, List.cons_append, List.nil_append, List.cons.injEq,
      true_and] at h
  · obtain ⟨h3, h4⟩ := key _ _ _ _ h
    exact ⟨by omega, h4⟩
  · exfalso
    have := natStr_ne_nil (n.natAbs / 2)
    cases hs : natStr (n.natAbs / 2) with
    | nil => exact this hs
    | cons c cs =>
      rw [hs] at h
      simp only [List.cons_append, List.cons.injEq] at h
      have := natStr_digits (n.natAbs / 2) c (by rw [hs]; simp)
      rw [← h.1] at this
      exact minus_not_digit this
  · exfalso
    have := natStr_ne_nil (m.natAbs / 2)
    cases hs : natStr (m.natAbs / 2) with
    | nil => exact this hs
    | cons c cs =>
      rw [hs] at h
      simp only [List.cons_append, List.cons.injEq] at h
      have := natStr_digits (m.natAbs / 2) c (by rw [hs]; simp)
      rw [h.1] at this
      exact minus_not_digit this
  · obtain ⟨h3, h4⟩ := key _ _ _ _ h
    exact ⟨by omega, h4⟩

theorem fArgId_inj {f g : Option Num} : fArgId f = fArgId g ↔ f.map Num.tw = g.map Num.tw := by
  cases f with
  | none =>
    cases g with
    | none => simp
    | some g => simp [fArgId, listStr]
  | some f =>
    cases g with
    | none => simp [fArgId, listStr]
    | some g =>
      simp only [fArgId, listStr, commaJoin, List.cons.injEq, true_and, Option.map_some,
        Option.some.injEq]
      constructor
      · intro h; exact (halfStr_inj h).1
      · intro h; rw [h]

theorem termId_eq_iff {a b : Arr} (ha : a.WF) (hb : b.WF) {f g : Option Num} :
    termId a f = termId b g ↔
      ((a.total = 0 ∧ b.total = 0) ∨ a = b) ∧ f.map Num.tw = g.map Num.tw := by
  unfold termId
  constructor
  · intro h
    obtain ⟨h1, h2⟩ := configId_inj ha hb h
    refine ⟨?_, fArgId_inj.1 h2⟩
    rcases h1 with h | h
    · exact Or.inl h
    · exact Or.inr h.2
  · rintro ⟨h1, h2⟩
    rw [(configId_eq_iff ha hb).2 h1, fArgId_inj.2 h2]

end GGCE
