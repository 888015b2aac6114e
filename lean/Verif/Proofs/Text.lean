import Verif.Model.Text
import Verif.Spec.Text
import Verif.Proofs.Cache
import Mathlib.Tactic.Ring
import Mathlib.Tactic.IntervalCases
import Mathlib.Tactic.Linarith
import Mathlib.Data.Rat.Floor

/-! Printed numbers can be read back. -/

set_option linter.unusedSectionVars false

namespace GGCE

open Spec

theorem readNat_append (a b : PyStr) : readNat (a ++ b) = readNat a * 10 ^ b.length + readNat b := by
  have key : ∀ (b : PyStr) (n : Nat), b.foldl (fun n c => 10 * n + (c.toNat - '0'.toNat)) n =
      n * 10 ^ b.length + readNat b := by
    intro b
    induction b using List.reverseRecOn with
    | nil => intro n; simp [readNat]
    | append_singleton b c ih =>
      intro n
      unfold readNat
      rw [List.foldl_append, List.foldl_append, ih n, ih 0]
      simp [readNat, pow_succ]
      ring
  unfold readNat
  rw [List.foldl_append]
  exact key b _

theorem readNat_digit {n : Nat} (h : n < 10) : readNat [Nat.digitChar n] = n := by
  interval_cases n <;> rfl

theorem readNat_natStr (n : Nat) : readNat (natStr n) = n := by
  induction n using Nat.strongRecOn with
  | _ n ih =>
    by_cases h : n < 10
    · rw [natStr_lt h, readNat_digit h]
    · rw [natStr_ge h, readNat_append, ih _ (by omega), readNat_digit (Nat.mod_lt _ (by norm_num))]
      simp
      omega

theorem readNat_fixedDigits (d n : Nat) : readNat (fixedDigits d n) = n % 10 ^ d := by
  induction d generalizing n with
  | zero => simp [fixedDigits, readNat, Nat.mod_one]
  | succ d ih =>
    rw [fixedDigits, readNat_append, ih, readNat_digit (Nat.mod_lt _ (by norm_num))]
    simp only [List.length_singleton, pow_one]
    rw [pow_succ', Nat.mod_mul]
    ring

theorem fixedDigits_digits (d n : Nat) : ∀ c ∈ fixedDigits d n, IsDigit c := by
  induction d generalizing n with
  | zero => simp [fixedDigits]
  | succ d ih =>
    intro c hc
    rw [fixedDigits, List.mem_append, List.mem_singleton] at hc
    rcases hc with hc | rfl
    · exact ih _ _ hc
    · exact digitChar_isDigit (Nat.mod_lt _ (by norm_num))

theorem digit_ne_point {c : Char} (h : IsDigit c) : c ≠ '.' := by rintro rfl; exact absurd h (by decide)

/-- digits, a point, two digits: hundredths -/
theorem readPositive_two (n : Nat) : readPositive (natStr (n / 10 ^ 2) ++ '.' :: fixedDigits 2 (n % 10 ^ 2)) = n / 100 := by
  have h1 : (natStr (n / 10 ^ 2) ++ '.' :: fixedDigits 2 (n % 10 ^ 2)).filter (· ≠ '.') =
      natStr (n / 10 ^ 2) ++ fixedDigits 2 (n % 10 ^ 2) := by
    rw [List.filter_append, List.filter_cons_of_neg (by simp)]
    congr 1
    · exact List.filter_eq_self.2 (fun c hc => by simpa using digit_ne_point (natStr_digits _ c hc))
    · exact List.filter_eq_self.2 (fun c hc => by simpa using digit_ne_point (fixedDigits_digits _ _ c hc))
  have h2 : (natStr (n / 10 ^ 2) ++ '.' :: fixedDigits 2 (n % 10 ^ 2)).dropWhile (· ≠ '.') =
      '.' :: fixedDigits 2 (n % 10 ^ 2) := by
    rw [List.dropWhile_append_of_pos (fun c hc => by simpa using digit_ne_point (natStr_digits _ c hc))]
    simp
  unfold readPositive
  rw [h1, h2, readNat_append, readNat_natStr, readNat_fixedDigits, fixedDigits_length, List.tail_cons, fixedDigits_length,
    Nat.mod_mod, Nat.div_add_mod']
  norm_num

/-- what is printed is the rounded number, with the sign of the number -/
theorem readDecimal_fmt2 (x : ℚ) : readDecimal (fmt2 x) = if x < 0 then -((round2 x : ℚ) / 100) else (round2 x : ℚ) / 100 := by
  unfold fmt2
  split
  · simp only [List.cons_append, List.nil_append, readDecimal]
    rw [readPositive_two]
  · simp only [List.nil_append]
    rw [← readPositive_two]
    cases hs : natStr (round2 x / 10 ^ 2) with
    | nil => exact absurd hs (natStr_ne_nil _)
    | cons c cs =>
      have hc : c ≠ '-' := by
        rintro rfl
        exact minus_not_digit (natStr_digits (round2 x / 10 ^ 2) '-' (by rw [hs]; simp))
      simp only [List.cons_append]
      unfold readDecimal
      split
      · rename_i h; simp only [List.cons.injEq] at h; exact absurd h.1 hc
      · rfl

/-- the printed number is within half a hundredth -/
theorem readDecimal_near (x : ℚ) : |readDecimal (fmt2 x) - x| ≤ 1 / 200 := by
  have h := roundHalfEven_near (x := |x| * 10 ^ 2) (by positivity)
  rw [readDecimal_fmt2]
  unfold round2
  rw [abs_le] at h ⊢
  split
  · rename_i hx
    rw [abs_of_neg hx] at h ⊢
    constructor <;> linarith [h.1, h.2]
  · rename_i hx
    rw [abs_of_nonneg (not_lt.1 hx)] at h ⊢
    constructor <;> linarith [h.1, h.2]

/-- a number printed with two decimals, followed by anything but a digit or nothing, can be cut off -/
theorem fmt2_split {x y : ℚ} {r₁ r₂ : PyStr} (h : fmt2 x ++ r₁ = fmt2 y ++ r₂) : fmt2 x = fmt2 y ∧ r₁ = r₂ := by
  have key : ∀ (n m : Nat) (r₁ r₂ : PyStr), natStr (n / 10 ^ 2) ++ '.' :: fixedDigits 2 (n % 10 ^ 2) ++ r₁ =
      natStr (m / 10 ^ 2) ++ '.' :: fixedDigits 2 (m % 10 ^ 2) ++ r₂ →
        natStr (n / 10 ^ 2) ++ '.' :: fixedDigits 2 (n % 10 ^ 2) = natStr (m / 10 ^ 2) ++ '.' :: fixedDigits 2 (m % 10 ^ 2) ∧ r₁ = r₂ := by
    intro n m r₁ r₂ h
    rw [List.append_assoc, List.append_assoc, List.cons_append, List.cons_append] at h
    obtain ⟨h1, -, h2⟩ := split_unique (P := IsDigit) (natStr_digits _) (natStr_digits _) (by decide) (by decide) h
    obtain ⟨h3, h4⟩ := List.append_inj h2 (by rw [fixedDigits_length, fixedDigits_length])
    exact ⟨by rw [h1, h3], h4⟩
  have key2 : ∀ (n : Nat) (r s : PyStr), natStr (n / 10 ^ 2) ++ '.' :: fixedDigits 2 (n % 10 ^ 2) ++ r ≠ '-' :: s := by
    intro n r s h
    cases hs : natStr (n / 10 ^ 2) with
    | nil => exact natStr_ne_nil _ hs
    | cons c cs =>
      rw [hs] at h
      simp only [List.cons_append, List.cons.injEq] at h
      have := natStr_digits (n / 10 ^ 2) c (by rw [hs]; simp)
      rw [h.1] at this
      exact minus_not_digit this
  unfold fmt2 at h ⊢
  by_cases hx : x < 0 <;> by_cases hy : y < 0 <;>
    simp only [hx, hy, if_true, if_false, List.nil_append, List.cons_append, List.cons.injEq, true_and] at h ⊢
  · exact key _ _ _ _ h
  · exact absurd h.symm (key2 _ _ _)
  · exact absurd h (key2 _ _ _)
  · exact key _ _ _ _ h

/-- equal prints mean nearly equal numbers -/
theorem fmt2_near {x y : ℚ} (h : fmt2 x = fmt2 y) : |x - y| ≤ 1 / 100 := by
  have hx := readDecimal_near x
  have hy := readDecimal_near y
  rw [h] at hx
  rw [abs_le] at hx hy ⊢
  constructor <;> linarith [hx.1, hx.2, hy.1, hy.2]

end GGCE
