import Verif.Proofs.Text
import Verif.Props.Utils
import Verif.Proofs.Assembled
import Mathlib.Data.List.Forall2

/-!
C53 (continued): the time stamps written by `timeit`. C127: what a printed Hamiltonian tells.
-/

set_option linter.unusedSectionVars false

namespace GGCE.Props

open Spec

/-! ### C53: the message -/

/-- the text `msg` with a time stamp that denotes the duration `dt`: to half a hundredth of the unit shown,
hence to 5 ms below ten seconds and to 3 percent above -/
def Stamps (text msg : PyStr) (dt : ℚ) : Prop :=
  ∃ (num : PyStr) (unit : String), text = '[' :: (num ++ ' ' :: (unit.toList ++ ']' :: ' ' :: msg)) ∧
    unit ∈ ["s", "m", "h", "d"] ∧
    |readDecimal num * unitSeconds unit - dt| ≤ unitSeconds unit / 200 ∧
    (dt < 10 → |readDecimal num * unitSeconds unit - dt| ≤ 1 / 200) ∧
    (10 ≤ dt → |readDecimal num * unitSeconds unit - dt| ≤ 3 / 100 * dt)

/-- C53: the printed time stamp denotes the duration -/
theorem C53_message (msg : PyStr) (dt : ℚ) : Stamps (adjustLogMsg msg (some dt)) msg dt := by
  refine ⟨fmt2 (elapsedTime dt).1, (elapsedTime dt).2, rfl, (C53_elapsed dt).1, ?_, ?_, ?_⟩
  all_goals
    have hn := readDecimal_near (elapsedTime dt).1
    unfold elapsedTime at hn ⊢
    rw [abs_le] at hn
  · split_ifs at hn ⊢ <;> simp only [unitSeconds] at hn ⊢ <;> rw [abs_le] <;> constructor <;> linarith [hn.1, hn.2]
  · intro h
    rw [if_pos h] at hn ⊢
    simp only [unitSeconds] at hn ⊢
    rw [abs_le]
    constructor <;> linarith [hn.1, hn.2]
  · intro h
    rw [if_neg (not_lt.2 h)] at hn ⊢
    split_ifs at hn ⊢ <;> simp only [unitSeconds] at hn ⊢ <;> rw [abs_le] <;> constructor <;> linarith [hn.1, hn.2]

/-- C53: without a duration the message is printed as it is -/
theorem C53_no_time (msg : PyStr) : adjustLogMsg msg (none : Option ℚ) = msg := rfl

/-- C53: a timed block has the outcome of the block, also if it raises, and reports once, after the block,
the duration of the block -/
theorem C53_timeit {σ α : Type} (clock : σ → ℚ) (stream : PyStr → σ → Py Unit × σ) (msg : PyStr) (body : σ → Py α × σ)
    (s : σ) (hs : ∀ m s, (stream m s).1 = .ok ()) :
    (timeit clock stream msg body s).1 = (body s).1 ∧
      ∃ text, (timeit clock stream msg body s).2 = (stream text (body s).2).2 ∧
        Stamps text msg (clock (body s).2 - clock s) := by
  unfold timeit
  simp only [hs]
  exact ⟨trivial, _, rfl, C53_message _ _⟩

/-- C53 fails for a stream that raises, such as `logger.critical`: the exception replaces the result -/
theorem C53_stream_fails : ∃ (stream : PyStr → ℚ → Py Unit × ℚ) (body : ℚ → Py Nat × ℚ),
    (body 0).1 = .ok 3 ∧ (timeit id stream [] body 0).1 = .error .abort :=
  ⟨fun _ s => (.error .abort, s), fun s => (.ok 3, s + 7), rfl, rfl⟩

/-- a block that takes 90 seconds, then fails; the log is part of the state -/
example : timeit (fun s : ℚ × List PyStr => s.1) (fun m s => (.ok (), s.1, s.2 ++ [m])) "foo".toList
    (fun s => ((.error .keyError : Py Nat), s.1 + 90, s.2)) (5, []) =
      (.error .keyError, 95, ["[1.50 m] foo".toList]) := by
  decide +kernel

example : Stamps "[1.50 m] foo".toList "foo".toList 90 := by
  have h := C53_message "foo".toList 90
  have e : adjustLogMsg "foo".toList (some (90 : ℚ)) = "[1.50 m] foo".toList := by decide +kernel
  rwa [e] at h

/-! ### C127 -/

theorem arrayStr_split {a b : Num} (ha : a.flt = false → a.tw % 2 = 0) (hb : b.flt = false → b.tw % 2 = 0)
    {r₁ r₂ : PyStr} (h : arrayStr a ++ r₁ = arrayStr b ++ r₂) : a = b ∧ r₁ = r₂ := by
  unfold arrayStr at h
  simp only [List.cons_append, List.cons.injEq, true_and, List.append_assoc, List.nil_append] at h
  obtain ⟨fa, x⟩ := a
  obtain ⟨fb, y⟩ := b
  have point : ¬ IsIntChar '.' := by unfold IsIntChar; decide
  have close : ¬ IsIntChar ']' := by unfold IsIntChar; decide
  have minus : IsIntChar '-' := Or.inl rfl
  -- the part before the point of a float
  have chars : ∀ z : Int, ∀ c ∈ (if z < 0 then ['-'] else []) ++ natStr (z.natAbs / 2), IsIntChar c := by
    intro z c hc
    rw [List.mem_append] at hc
    rcases hc with hc | hc
    · split at hc
      · rw [List.mem_singleton] at hc; subst hc; exact minus
      · cases hc
    · exact Or.inr (natStr_digits _ c hc)
  -- the tail of a float
  have tail : ∀ z : Int, ∃ t : PyStr, (if z.natAbs % 2 = 0 then ['.'] else ['.', '5']) = '.' :: t := by
    intro z; split <;> exact ⟨_, rfl⟩
  cases fa <;> cases fb
  · simp only [Bool.false_eq_true, if_false] at h
    obtain ⟨h1, -, h2⟩ := split_unique (P := IsIntChar) (intStr_chars _) (intStr_chars _) close close h
    have := intStr_inj h1
    have e1 := ha rfl
    have e2 := hb rfl
    simp only at e1 e2
    refine ⟨?_, h2⟩
    rw [Num.mk.injEq]
    exact ⟨rfl, by omega⟩
  · simp only [Bool.false_eq_true, if_false, if_true] at h
    obtain ⟨t, ht⟩ := tail y
    rw [ht, ← List.append_assoc _ _ ('.' :: t), List.append_assoc _ ('.' :: t) (']' :: r₂), List.cons_append] at h
    obtain ⟨-, h1, -⟩ := split_unique (P := IsIntChar) (intStr_chars _) (chars y) close point h
    exact absurd h1 (by decide)
  · simp only [Bool.false_eq_true, if_false, if_true] at h
    obtain ⟨t, ht⟩ := tail x
    rw [ht, ← List.append_assoc _ _ ('.' :: t), List.append_assoc _ ('.' :: t) (']' :: r₁), List.cons_append] at h
    obtain ⟨-, h1, -⟩ := split_unique (P := IsIntChar) (chars x) (intStr_chars _) point close h
    exact absurd h1 (by decide)
  · simp only [if_true, List.append_assoc] at h
    have hx : ∃ t, (if x.natAbs % 2 = 0 then ['.'] else ['.', '5']) ++ ']' :: r₁ = '.' :: t := by
      split <;> exact ⟨_, rfl⟩
    have hy : ∃ t, (if y.natAbs % 2 = 0 then ['.'] else ['.', '5']) ++ ']' :: r₂ = '.' :: t := by
      split <;> exact ⟨_, rfl⟩
    obtain ⟨t₁, ht₁⟩ := hx
    obtain ⟨t₂, ht₂⟩ := hy
    rw [ht₁, ht₂, ← List.append_assoc, ← List.append_assoc] at h
    obtain ⟨h1, -, h2⟩ := split_unique (P := IsIntChar) (chars x) (chars y) point point h
    subst h2
    rw [← ht₂] at ht₁
    have hsame : (x < 0 ↔ y < 0) ∧ x.natAbs / 2 = y.natAbs / 2 := by
      by_cases hx : x < 0 <;> by_cases hy : y < 0 <;> simp only [hx, hy, if_true, if_false, List.nil_append,
        List.cons_append, List.cons.injEq, true_and] at h1
      · exact ⟨by simp [hx, hy], natStr_inj h1⟩
      · exact absurd h1.symm (natStr_ne_minus _ _)
      · exact absurd h1 (natStr_ne_minus _ _)
      · exact ⟨by simp [hx, hy], natStr_inj h1⟩
    have hpar : x.natAbs % 2 = y.natAbs % 2 ∧ r₁ = r₂ := by
      by_cases hx : x.natAbs % 2 = 0 <;> by_cases hy : y.natAbs % 2 = 0 <;> simp [hx, hy] at ht₁
      · exact ⟨by omega, ht₁⟩
      · exact ⟨by omega, ht₁⟩
    refine ⟨?_, hpar.2⟩
    rw [Num.mk.injEq]
    refine ⟨rfl, ?_⟩
    obtain ⟨a1, a2⟩ := hsame
    have a3 := hpar.1
    omega

/-- terms a line can be printed for: no colon in the name of the coupling type, integer shifts integer -/
structure Printable (t : SingleTerm ℚ) : Prop where
  name : ':' ∉ t.ctype.toList
  psi : t.psi.flt = false → t.psi.tw % 2 = 0
  phi : t.phi.flt = false → t.phi.tw % 2 = 0

/-- the line of a term, followed by anything, determines what it shows -/
theorem text_split {t u : SingleTerm ℚ} (ht : Printable t) (hu : Printable u) {r₁ r₂ : PyStr}
    (h : t.text ++ r₁ = u.text ++ r₂) :
    (t.ctype = u.ctype ∧ t.psi = u.psi ∧ t.phi = u.phi ∧ t.dag = u.dag ∧ t.phononIndex = u.phononIndex ∧
      fmt2 t.coupling = fmt2 u.coupling ∧ fmt2 t.phononFrequency = fmt2 u.phononFrequency) ∧ r₁ = r₂ := by
  unfold SingleTerm.text at h
  simp only [List.append_assoc, List.cons_append] at h
  obtain ⟨h1, -, h⟩ := split_unique (P := (· ≠ ':')) (fun c hc e => ht.name (e ▸ hc)) (fun c hc e => hu.name (e ▸ hc))
    (by simp) (by simp) h
  simp only [List.cons.injEq, true_and] at h
  obtain ⟨h2, h⟩ := fmt2_split h
  rw [List.append_cancel_left_eq] at h
  obtain ⟨h3, h⟩ := arrayStr_split ht.psi hu.psi h
  simp only [List.cons.injEq, true_and] at h
  obtain ⟨h4, h⟩ := arrayStr_split ht.phi hu.phi h
  simp only [List.cons.injEq, true_and] at h
  obtain ⟨h5, h⟩ := h
  rw [List.append_cancel_left_eq] at h
  have space : ∀ r : PyStr, " (".toList ++ r = ' ' :: '(' :: r := fun _ => rfl
  rw [space, space] at h
  obtain ⟨h6, -, h⟩ := split_unique (P := IsDigit) (natStr_digits _) (natStr_digits _) (by decide) (by decide) h
  simp only [List.cons.injEq, true_and] at h
  obtain ⟨h7, h⟩ := fmt2_split h
  simp only [List.cons.injEq, true_and, List.nil_append] at h
  refine ⟨⟨String.toList_inj.1 h1, h3, h4, ?_, natStr_inj h6, h2, h7⟩, h⟩
  cases ht' : t.dag <;> cases hu' : u.dag <;> rw [ht', hu'] at h5 <;> first | rfl | exact absurd h5 (by decide)

/-- C127: the lines of two terms agree exactly if coupling type, shifts, dagger and phonon index agree and
couplings and frequencies agree when printed with two decimals; then they are at most 0.01 apart -/
theorem C127_term {t u : SingleTerm ℚ} (ht : Printable t) (hu : Printable u) :
    (t.text = u.text ↔ t.ctype = u.ctype ∧ t.psi = u.psi ∧ t.phi = u.phi ∧ t.dag = u.dag ∧
      t.phononIndex = u.phononIndex ∧ fmt2 t.coupling = fmt2 u.coupling ∧
      fmt2 t.phononFrequency = fmt2 u.phononFrequency) ∧
    (t.text = u.text → |t.coupling - u.coupling| ≤ 1 / 100 ∧ |t.phononFrequency - u.phononFrequency| ≤ 1 / 100) := by
  have key : t.text = u.text → _ := fun h => (text_split ht hu (r₁ := []) (r₂ := []) (by rw [h])).1
  refine ⟨⟨key, ?_⟩, fun h => ?_⟩
  · rintro ⟨h1, h2, h3, h4, h5, h6, h7⟩
    unfold SingleTerm.text
    rw [h1, h2, h3, h4, h5, h6, h7]
  · obtain ⟨-, -, -, -, -, h6, h7⟩ := key h
    exact ⟨fmt2_near h6, fmt2_near h7⟩

/-- C127: the numbers in a line are coupling and frequency to half a hundredth -/
theorem C127_numbers (t : SingleTerm ℚ) : ∃ c f rest : PyStr,
    t.text = t.ctype.toList ++ ':' :: ' ' :: (c ++ ' ' :: 'x' :: (rest ++ '(' :: (f ++ [')']))) ∧
      |readDecimal c - t.coupling| ≤ 1 / 200 ∧ |readDecimal f - t.phononFrequency| ≤ 1 / 200 :=
  ⟨fmt2 t.coupling, fmt2 t.phononFrequency, " (".toList ++ arrayStr t.psi ++ ' ' :: (arrayStr t.phi ++
    ' ' :: t.dag.text :: (") | ".toList ++ (natStr t.phononIndex ++ [' ']))), by
      simp only [SingleTerm.text, List.append_assoc, List.cons_append, List.nil_append]
      rfl, readDecimal_near _, readDecimal_near _⟩

/-- no backslash: nothing to replace -/
theorem unescape_id {s : PyStr} (h : '\\' ∉ s) : unescape s = s := by
  induction s with
  | nil => rfl
  | cons c cs ih =>
    rw [List.mem_cons, not_or] at h
    unfold unescape
    split
    · rename_i e; cases e
    · rename_i e; simp only [List.cons.injEq] at e; exact absurd e.1.symm h.1
    · rename_i e; simp only [List.cons.injEq] at e; rw [← e.1, ← e.2, ih h.2]

theorem fmt2_chars (x : ℚ) : ∀ c ∈ fmt2 x, c = '.' ∨ IsIntChar c := by
  intro c hc
  unfold fmt2 at hc
  simp only [List.mem_append, List.mem_cons] at hc
  rcases hc with (hc | hc) | hc | hc
  · split at hc
    · rw [List.mem_singleton] at hc; exact Or.inr (Or.inl hc)
    · cases hc
  · exact Or.inr (Or.inr (natStr_digits _ c hc))
  · exact Or.inl hc
  · exact Or.inr (Or.inr (fixedDigits_digits _ _ c hc))

theorem arrayStr_chars (x : Num) : ∀ c ∈ arrayStr x, c = '[' ∨ c = ']' ∨ c = '.' ∨ IsIntChar c := by
  intro c hc
  unfold arrayStr at hc
  simp only [List.mem_append, List.mem_cons, List.not_mem_nil, or_false] at hc
  rcases hc with hc | hc | hc
  · exact Or.inl hc
  · right; right
    split at hc
    · simp only [List.mem_append] at hc
      rcases hc with (hc | hc) | hc
      · split at hc
        · rw [List.mem_singleton] at hc; exact Or.inr (Or.inl hc)
        · cases hc
      · exact Or.inr (Or.inr (natStr_digits _ c hc))
      · split at hc
        · rw [List.mem_singleton] at hc; exact Or.inl hc
        · simp only [List.mem_cons, List.not_mem_nil, or_false] at hc
          rcases hc with hc | hc
          · exact Or.inl hc
          · subst hc; exact Or.inr (Or.inr (by decide))
    · exact Or.inr (intStr_chars _ c hc)
  · exact Or.inr (Or.inl hc)

/-- a character that is in no number and in none of the fixed parts is in the line only if in the name -/
theorem text_mem {t : SingleTerm ℚ} {c : Char} (hc : c ∈ t.text)
    (h : ¬ IsIntChar c ∧ c ∉ ['.', '[', ']', ' ', ':', 'x', '(', ')', '|', '+']) : c ∈ t.ctype.toList := by
  obtain ⟨hi, ho⟩ := h
  simp only [List.mem_cons, List.not_mem_nil, or_false, not_or] at ho
  obtain ⟨o1, o2, o3, o4, o5, o6, o7, o8, o9, o10⟩ := ho
  have n : ∀ x : ℚ, c ∉ fmt2 x := fun x h => (fmt2_chars x c h).elim o1 hi
  have a : ∀ x : Num, c ∉ arrayStr x := fun x h =>
    (arrayStr_chars x c h).elim o2 (fun h => h.elim o3 (fun h => h.elim o1 hi))
  have d : ∀ k : Nat, c ∉ natStr k := fun k h => hi (Or.inr (natStr_digits k c h))
  have g : c ≠ t.dag.text := by
    cases t.dag
    · exact o10
    · exact fun h => hi (Or.inl h)
  have e1 : " x (".toList = [' ', 'x', ' ', '('] := rfl
  have e2 : ") | ".toList = [')', ' ', '|', ' '] := rfl
  have e3 : " (".toList = [' ', '('] := rfl
  unfold SingleTerm.text at hc
  rw [e1, e2, e3] at hc
  simpa only [List.mem_append, List.mem_cons, List.not_mem_nil, n, a, d, g, o4, o5, o6, o7, o8, o9, or_false] using hc

/-- lines without a line break are determined by the joined text -/
theorem lineJoin_inj : ∀ {xs ys : List PyStr}, (∀ x ∈ xs, '\n' ∉ x ∧ x ≠ []) → (∀ y ∈ ys, '\n' ∉ y ∧ y ≠ []) →
    lineJoin xs = lineJoin ys → xs = ys
  | [], [], _, _, _ => rfl
  | [], [y], _, hy, h => absurd h.symm (hy y (by simp)).2
  | [], y :: y' :: ys, _, _, h => by simp [lineJoin] at h
  | [x], [], hx, _, h => absurd h (hx x (by simp)).2
  | x :: x' :: xs, [], _, _, h => by simp [lineJoin] at h
  | [x], [y], _, _, h => by simpa [lineJoin] using h
  | [x], y :: y' :: ys, hx, _, h => by
    simp only [lineJoin] at h
    exact absurd (h ▸ by simp) (hx x (by simp)).1
  | x :: x' :: xs, [y], _, hy, h => by
    simp only [lineJoin] at h
    exact absurd (h ▸ by simp) (hy y (by simp)).1
  | x :: x' :: xs, y :: y' :: ys, hx, hy, h => by
    simp only [lineJoin] at h
    obtain ⟨h1, -, h2⟩ := split_unique (P := (· ≠ '\n')) (fun c hc e => (hx x (by simp)).1 (e ▸ hc))
      (fun c hc e => (hy y (by simp)).1 (e ▸ hc)) (by simp) (by simp) h
    rw [h1, lineJoin_inj (fun z hz => hx z (List.mem_cons_of_mem _ hz)) (fun z hz => hy z (List.mem_cons_of_mem _ hz)) h2]

/-- C127: the printed text of a Hamiltonian determines the number and order of its terms and each term as far
as its line shows it; names of coupling types without colon, line break or backslash -/
theorem C127_hamiltonian_partial {h g : Hamiltonian ℚ}
    (hh : ∀ t ∈ h.terms, Printable t ∧ '\n' ∉ t.ctype.toList ∧ '\\' ∉ t.ctype.toList)
    (hg : ∀ t ∈ g.terms, Printable t ∧ '\n' ∉ t.ctype.toList ∧ '\\' ∉ t.ctype.toList) :
    h.text = g.text ↔ List.Forall₂ (fun t u : SingleTerm ℚ => t.ctype = u.ctype ∧ t.psi = u.psi ∧ t.phi = u.phi ∧
      t.dag = u.dag ∧ t.phononIndex = u.phononIndex ∧ fmt2 t.coupling = fmt2 u.coupling ∧
      fmt2 t.phononFrequency = fmt2 u.phononFrequency) h.terms g.terms := by
  have join_mem : ∀ (c : Char) (xs : List PyStr), c ≠ '\n' → c ∈ lineJoin xs → ∃ x ∈ xs, c ∈ x := by
    intro c xs hc
    induction xs with
    | nil => intro h; cases h
    | cons x xs ih =>
      cases xs with
      | nil => exact fun h => ⟨x, by simp, h⟩
      | cons y ys =>
        intro h
        simp only [lineJoin, List.mem_append, List.mem_cons] at h
        rcases h with h | h | h
        · exact ⟨x, by simp, h⟩
        · exact absurd h hc
        · obtain ⟨z, hz, hcz⟩ := ih h
          exact ⟨z, List.mem_cons_of_mem _ hz, hcz⟩
  have plain : ∀ {k : Hamiltonian ℚ}, (∀ t ∈ k.terms, Printable t ∧ '\n' ∉ t.ctype.toList ∧ '\\' ∉ t.ctype.toList) →
      k.text = lineJoin (k.terms.map SingleTerm.text) := by
    intro k hk
    refine unescape_id fun hc => ?_
    obtain ⟨x, hx, hcx⟩ := join_mem _ _ (by decide) hc
    obtain ⟨t, ht, rfl⟩ := List.mem_map.1 hx
    exact (hk t ht).2.2 (text_mem hcx ⟨by unfold IsIntChar; decide, by decide⟩)
  have lines : ∀ {k : Hamiltonian ℚ}, (∀ t ∈ k.terms, Printable t ∧ '\n' ∉ t.ctype.toList ∧ '\\' ∉ t.ctype.toList) →
      ∀ x ∈ k.terms.map SingleTerm.text, '\n' ∉ x ∧ x ≠ [] := by
    intro k hk x hx
    obtain ⟨t, ht, rfl⟩ := List.mem_map.1 hx
    exact ⟨fun hc => (hk t ht).2.1 (text_mem hc ⟨by unfold IsIntChar; decide, by decide⟩), by simp [SingleTerm.text]⟩
  have same : ∀ {l l' : List (SingleTerm ℚ)}, (∀ t ∈ l, Printable t) → (∀ t ∈ l', Printable t) →
      (l.map SingleTerm.text = l'.map SingleTerm.text ↔ List.Forall₂ (fun t u : SingleTerm ℚ => t.ctype = u.ctype ∧
        t.psi = u.psi ∧ t.phi = u.phi ∧ t.dag = u.dag ∧ t.phononIndex = u.phononIndex ∧
        fmt2 t.coupling = fmt2 u.coupling ∧ fmt2 t.phononFrequency = fmt2 u.phononFrequency) l l') := by
    intro l
    induction l with
    | nil =>
      intro l' _ _
      cases l' <;> simp
    | cons t l ih =>
      intro l' hl hl'
      cases l' with
      | nil => simp
      | cons u l' =>
        rw [List.map_cons, List.map_cons, List.cons.injEq, List.forall₂_cons,
          (C127_term (hl t (by simp)) (hl' u (by simp))).1,
          ih (fun x hx => hl x (List.mem_cons_of_mem _ hx)) (fun x hx => hl' x (List.mem_cons_of_mem _ hx))]
  rw [plain hh, plain hg, ← same (fun t ht => (hh t ht).1) (fun t ht => (hg t ht).1)]
  exact ⟨fun e => lineJoin_inj (lines hh) (lines hg) e, fun e => by rw [e]⟩

/-- terms made by `add_` can be printed -/
theorem termsOf_printable {ct : String} {g : ℚ} {i : Nat} {f : ℚ} {t : SingleTerm ℚ} (h : t ∈ termsOf ct g i f) :
    Printable t ∧ '\n' ∉ t.ctype.toList ∧ '\\' ∉ t.ctype.toList := by
  simp only [termsOf, List.mem_map] at h
  obtain ⟨s, hs, rfl⟩ := h
  unfold termShapes at hs
  split at hs
  · subst ct
    refine ⟨⟨by dsimp only; decide, ?_, ?_⟩, by dsimp only; decide, by dsimp only; decide⟩ <;>
      simp [Num.int] at hs <;> rcases hs with rfl | rfl <;> simp
  split at hs
  · subst ct
    refine ⟨⟨by dsimp only; decide, ?_, ?_⟩, by dsimp only; decide, by dsimp only; decide⟩ <;>
      simp [Num.int] at hs <;> rcases hs with rfl | rfl | rfl | rfl <;> simp
  split at hs
  · subst ct
    refine ⟨⟨by dsimp only; decide, ?_, ?_⟩, by dsimp only; decide, by dsimp only; decide⟩ <;>
      simp [Num.int] at hs <;> rcases hs with rfl | rfl | rfl | rfl <;> simp
  split at hs
  · subst ct
    refine ⟨⟨by dsimp only; decide, ?_, ?_⟩, by dsimp only; decide, by dsimp only; decide⟩ <;>
      simp [Num.int] at hs <;> rcases hs with rfl | rfl | rfl | rfl | rfl | rfl | rfl | rfl <;> simp
  · simp at hs

/-- C127: for models made with `add_` calls, whatever their arguments, the printed Hamiltonian determines every
term as far as its line shows it -/
theorem C127_models_partial (P : Prims ℚ) (hopping lattice T hopping' lattice' T' : ℚ) (cap cap' : Option Int) (dim dim' : Nat)
    (as bs : List (AddArgs ℚ)) (m n : Model ℚ)
    (hm : (Model.fromParameters hopping lattice T cap dim).adds P as = .ok m)
    (hn : (Model.fromParameters hopping' lattice' T' cap' dim').adds P bs = .ok n) :
    m.ham.text = n.ham.text ↔ List.Forall₂ (fun t u : SingleTerm ℚ => t.ctype = u.ctype ∧ t.psi = u.psi ∧ t.phi = u.phi ∧
      t.dag = u.dag ∧ t.phononIndex = u.phononIndex ∧ fmt2 t.coupling = fmt2 u.coupling ∧
      fmt2 t.phononFrequency = fmt2 u.phononFrequency) m.ham.terms n.ham.terms := by
  have key : ∀ {hopping lattice T : ℚ} {cap : Option Int} {dim : Nat} {as : List (AddArgs ℚ)} {m : Model ℚ},
      (Model.fromParameters hopping lattice T cap dim).adds P as = .ok m →
      ∀ t ∈ m.ham.terms, Printable t ∧ '\n' ∉ t.ctype.toList ∧ '\\' ∉ t.ctype.toList := by
    intro hopping lattice T cap dim as m hm t ht
    rcases adds_ctypes as hm t ht with h | ⟨a, -, g, i, f, h⟩
    · simp [Model.fromParameters, Hamiltonian.new] at h
    · exact termsOf_printable h
  exact C127_hamiltonian_partial (key hm) (key hn)

/-- the terms of a Holstein coupling at zero temperature -/
def twoTerms (g : ℚ) : Hamiltonian ℚ :=
  ⟨[⟨"Holstein", .int 0, .int 0, .plus, -g, 0, 5 / 4⟩, ⟨"Holstein", .int 0, .int 0, .minus, -g, 0, 5 / 4⟩], [5 / 4], 1, 1⟩

example : (twoTerms (2 / 3)).text =
    "Holstein: -0.67 x ([0] [0] +) | 0 (1.25)\nHolstein: -0.67 x ([0] [0] -) | 0 (1.25)".toList := by
  decide +kernel

example (g : ℚ) : ∀ t ∈ (twoTerms g).terms, Printable t ∧ '\n' ∉ t.ctype.toList ∧ '\\' ∉ t.ctype.toList := by
  intro t ht
  simp only [twoTerms, List.mem_cons, List.not_mem_nil, or_false] at ht
  rcases ht with rfl | rfl <;> exact ⟨⟨by dsimp only; decide, fun _ => rfl, fun _ => rfl⟩, by dsimp only; decide, by dsimp only; decide⟩

example : (⟨"BondPeierls", .int 1, ⟨true, -1⟩, .minus, 1 / 2, 3, 1⟩ : SingleTerm ℚ).text =
    "BondPeierls: 0.50 x ([1] [-0.5] -) | 3 (1.00)".toList := by
  decide +kernel

/-- C127 fails for the numbers themselves: Hamiltonians with different couplings print the same text, weak
couplings as zero -/
theorem C127_rounded_fails : (twoTerms (1 / 1000)).text = (twoTerms (4 / 1000)).text ∧
    (twoTerms (1 / 1000)).text = "Holstein: -0.00 x ([0] [0] +) | 0 (1.25)\nHolstein: -0.00 x ([0] [0] -) | 0 (1.25)".toList := by
  decide +kernel

/-- C127 fails for arbitrary names given to the constructor of a term: a name with a line break imitates a
second term -/
theorem C127_names_fails : ∃ h g : Hamiltonian ℚ, h.text = g.text ∧ h.terms.length = 1 ∧ g.terms.length = 2 :=
  ⟨⟨[⟨"Holstein: -0.67 x ([0] [0] +) | 0 (1.25)\\nHolstein", .int 0, .int 0, .minus, -(2 / 3), 0, 5 / 4⟩], [5 / 4], 1, 1⟩,
    twoTerms (2 / 3), by decide +kernel, rfl, rfl⟩

end GGCE.Props
