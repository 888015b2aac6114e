import Verif.Model.Cache
import Verif.Proofs.Ids
import Verif.Proofs.Basic
import Mathlib.Algebra.Order.Floor.Defs
import Mathlib.Algebra.Order.Ring.Abs
import Mathlib.Algebra.Order.Field.Basic
import Mathlib.Tactic.Linarith
import Mathlib.Tactic.NormNum
import Mathlib.Tactic.Positivity
import Mathlib.Tactic.FieldSimp

/-! File names of results determine the rounded point. -/

set_option linter.unusedSectionVars false

namespace GGCE

theorem fixedDigits_length (d n : Nat) : (fixedDigits d n).length = d := by
  induction d generalizing n with
  | zero => rfl
  | succ d ih => simp [fixedDigits, ih]

theorem fixedDigits_inj {d n m : Nat} (hn : n < 10 ^ d) (hm : m < 10 ^ d) (h : fixedDigits d n = fixedDigits d m) :
    n = m := by
  induction d generalizing n m with
  | zero => simp at hn hm; omega
  | succ d ih =>
    rw [fixedDigits, fixedDigits] at h
    obtain ⟨h1, h2⟩ := List.append_inj h (by rw [fixedDigits_length, fixedDigits_length])
    rw [Nat.pow_succ] at hn hm
    have e1 := ih (n := n / 10) (m := m / 10) (by omega) (by omega) h1
    have e2 := digitChar_inj (Nat.mod_lt _ (by omega)) (Nat.mod_lt _ (by omega)) (by simpa using h2)
    omega

variable {R : Type} [Field R] [LinearOrder R] [IsStrictOrderedRing R] [FloorRing R]

/-- a formatted number, followed by anything, determines sign and rounded value -/
theorem fmt10_inj {x y : R} {r₁ r₂ : PyStr} (h : fmt10 x ++ r₁ = fmt10 y ++ r₂) :
    (x < 0 ↔ y < 0) ∧ round10 x = round10 y ∧ r₁ = r₂ := by
  have key : ∀ (n m : Nat) (r₁ r₂ : PyStr), natStr (n / 10 ^ 10) ++ '.' :: fixedDigits 10 (n % 10 ^ 10) ++ r₁ =
      natStr (m / 10 ^ 10) ++ '.' :: fixedDigits 10 (m % 10 ^ 10) ++ r₂ → n = m ∧ r₁ = r₂ := by
    intro n m r₁ r₂ h
    rw [List.append_assoc, List.append_assoc, List.cons_append, List.cons_append] at h
    obtain ⟨h1, -, h2⟩ := split_unique (P := IsDigit) (natStr_digits _) (natStr_digits _) (by decide) (by decide) h
    obtain ⟨h3, h4⟩ := List.append_inj h2 (by rw [fixedDigits_length, fixedDigits_length])
    have e1 := natStr_inj h1
    have e2 := fixedDigits_inj (Nat.mod_lt _ (by norm_num)) (Nat.mod_lt _ (by norm_num)) h3
    refine ⟨?_, h4⟩
    rw [← Nat.div_add_mod n (10 ^ 10), ← Nat.div_add_mod m (10 ^ 10), e1, e2]
  have key2 : ∀ (n : Nat) (r s : PyStr), natStr (n / 10 ^ 10) ++ '.' :: fixedDigits 10 (n % 10 ^ 10) ++ r ≠ '-' :: s := by
    intro n r s h
    cases hs : natStr (n / 10 ^ 10) with
    | nil => exact natStr_ne_nil _ hs
    | cons c cs =>
      rw [hs] at h
      simp only [List.cons_append, List.cons.injEq] at h
      have := natStr_digits (n / 10 ^ 10) c (by rw [hs]; simp)
      rw [h.1] at this
      exact minus_not_digit this
  unfold fmt10 at h
  by_cases hx : x < 0 <;> by_cases hy : y < 0 <;>
    simp only [hx, hy, if_true, if_false, List.nil_append, List.cons_append, List.cons.injEq, true_and] at h
  · obtain ⟨h1, h2⟩ := key _ _ _ _ h
    exact ⟨by simp [hx, hy], h1, h2⟩
  · exact absurd h.symm (key2 _ _ _)
  · exact absurd h (key2 _ _ _)
  · obtain ⟨h1, h2⟩ := key _ _ _ _ h
    exact ⟨by simp [hx, hy], h1, h2⟩

theorem fmt10_eq_iff {x y : R} : fmt10 x = fmt10 y ↔ (x < 0 ↔ y < 0) ∧ round10 x = round10 y := by
  constructor
  · intro h
    obtain ⟨h1, h2, -⟩ := fmt10_inj (r₁ := []) (r₂ := []) (by simpa using h)
    exact ⟨h1, h2⟩
  · rintro ⟨h1, h2⟩
    unfold fmt10
    rw [h2]
    by_cases hx : x < 0
    · rw [if_pos hx, if_pos (h1.1 hx)]
    · rw [if_neg hx, if_neg (fun h => hx (h1.2 h))]

theorem cacheKey_eq_iff {p q : Point R} : cacheKey p = cacheKey q ↔
    ((p.k < 0 ↔ q.k < 0) ∧ round10 p.k = round10 q.k) ∧ ((p.w < 0 ↔ q.w < 0) ∧ round10 p.w = round10 q.w) ∧
      ((p.eta < 0 ↔ q.eta < 0) ∧ round10 p.eta = round10 q.eta) := by
  constructor
  · intro h
    unfold cacheKey at h
    obtain ⟨a1, a2, a3⟩ := fmt10_inj h
    simp only [List.cons.injEq, true_and] at a3
    obtain ⟨b1, b2, b3⟩ := fmt10_inj a3
    simp only [List.cons.injEq, true_and] at b3
    obtain ⟨c1, c2, -⟩ := fmt10_inj b3
    exact ⟨⟨a1, a2⟩, ⟨b1, b2⟩, c1, c2⟩
  · rintro ⟨h1, h2, h3⟩
    unfold cacheKey
    rw [fmt10_eq_iff.2 h1, fmt10_eq_iff.2 h2, fmt10_eq_iff.2 h3]

/-- rounding moves a non-negative number by at most one half -/
theorem roundHalfEven_near {x : R} (hx : 0 ≤ x) : |x - (roundHalfEven x : R)| ≤ 1 / 2 := by
  have h0 : (0 : Int) ≤ ⌊x⌋ := Int.floor_nonneg.2 hx
  have hf : ((⌊x⌋.toNat : Nat) : R) = (⌊x⌋ : R) := by
    have : ((⌊x⌋.toNat : Nat) : Int) = ⌊x⌋ := Int.toNat_of_nonneg h0
    exact_mod_cast congrArg (Int.cast : Int → R) this
  have h1 := Int.floor_le x
  have h2 := Int.lt_floor_add_one x
  unfold roundHalfEven
  simp only [hf]
  split
  · rename_i h; rw [hf, abs_of_nonneg (by linarith)]; exact h.le
  · rename_i h
    push Not at h
    split
    · rename_i h3; push_cast; rw [hf, abs_of_nonpos (by linarith)]; linarith
    · rename_i h3
      push Not at h3
      have : x - (⌊x⌋ : R) = 1 / 2 := le_antisymm h3 h
      split
      · rw [hf, this, abs_of_pos (by norm_num)]
      · push_cast
        rw [hf, show x - ((⌊x⌋ : R) + 1) = 1 / 2 - 1 by rw [← this]; ring, abs_of_neg (by norm_num)]
        norm_num

/-- an integer is its own rounding -/
theorem roundHalfEven_nat (n : Nat) : roundHalfEven (n : R) = n := by
  unfold roundHalfEven
  simp

/-- equal formatted numbers are at most `1e-10` apart -/
theorem fmt10_near {x y : R} (h : fmt10 x = fmt10 y) : |x - y| ≤ 1 / 10 ^ 10 := by
  obtain ⟨hs, hr⟩ := fmt10_eq_iff.1 h
  have hx := roundHalfEven_near (x := |x| * 10 ^ 10) (by positivity)
  have hy := roundHalfEven_near (x := |y| * 10 ^ 10) (by positivity)
  unfold round10 at hr
  rw [hr] at hx
  rw [abs_le] at hx hy
  have hd : |(|x| - |y|)| * 10 ^ 10 ≤ 1 := by
    rw [show |(|x| - |y|)| * (10 : R) ^ 10 = |(|x| - |y|) * 10 ^ 10| by
      rw [abs_mul, abs_of_pos (show (0 : R) < 10 ^ 10 by positivity)]]
    rw [abs_le]
    constructor <;> linarith [hx.1, hx.2, hy.1, hy.2]
  have hxy : |x - y| = |(|x| - |y|)| := by
    by_cases h1 : x < 0
    · rw [abs_of_neg h1, abs_of_neg (hs.1 h1), show -x - -y = -(x - y) by ring, abs_neg]
    · have h2 : ¬ y < 0 := fun h => h1 (hs.2 h)
      push Not at h1 h2
      rw [abs_of_nonneg h1, abs_of_nonneg h2]
  rw [hxy, le_div_iff₀ (by positivity)]
  exact hd

/-- multiples of `1e-10` are told apart -/
theorem fmt10_lattice {i j : Int} (h : fmt10 ((i : R) / 10 ^ 10) = fmt10 ((j : R) / 10 ^ 10)) : i = j := by
  have hp : (0 : R) < 10 ^ 10 := by positivity
  have hr : ∀ i : Int, round10 ((i : R) / 10 ^ 10) = i.natAbs := by
    intro i
    unfold round10
    have : |(i : R) / 10 ^ 10| * 10 ^ 10 = ((i.natAbs : Nat) : R) := by
      rw [abs_div, abs_of_pos hp, div_mul_cancel₀ _ hp.ne', ← Int.cast_abs, Int.abs_eq_natAbs]
      exact Int.cast_natCast _
    rw [this, roundHalfEven_nat]
  have hn : ∀ i : Int, (i : R) / 10 ^ 10 < 0 ↔ i < 0 := by
    intro i
    rw [div_lt_iff₀ hp, zero_mul]
    exact Int.cast_lt_zero
  obtain ⟨h1, h2⟩ := fmt10_eq_iff.1 h
  rw [hr, hr] at h2
  rw [hn, hn] at h1
  omega

end GGCE
