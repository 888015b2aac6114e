import Verif.Proofs.Frame

/-! From the resolvent of the operator to the amplitudes on the infinite chain. -/

set_option linter.unusedSectionVars false

namespace GGCE
open Spec Complex ComplexConjugate
open scoped InnerProductSpace

variable {m : Model ℝ} {ae : ℤ} {k : ℝ} {c : ℤ}

/-- `Π n!`, the square of the norm of `Π (b†)^n |0⟩` -/
noncomputable def occFact (n : Occ) : ℕ := ∏ᶠ q : ℕ × ℤ, (n q.1 q.2).toNat.factorial

theorem occFact_shift (n : Occ) (s : ℤ) : occFact (n.shift s) = occFact n := by
  unfold occFact
  exact finprod_comp_equiv (Equiv.prodCongr (Equiv.refl ℕ) (Equiv.subRight s))
    (f := fun q : ℕ × ℤ => (n q.1 q.2).toNat.factorial)

theorem occFact_zero : occFact 0 = 1 := by unfold occFact; simp

theorem occFact_pos (n : Occ) : 0 < occFact n := by
  unfold occFact
  exact finprod_induction (p := fun x => 0 < x) one_pos (fun a b ha hb => Nat.mul_pos ha hb)
    (fun q => Nat.factorial_pos _)

theorem Spec.Allowed.finite_fact {n : Occ} (h : Allowed m ae n) :
    (Function.mulSupport (fun q : ℕ × ℤ => (n q.1 q.2).toNat.factorial)).Finite := by
  have h1 : (⋃ t ∈ Finset.range m.nTypes, (fun x => (t, x)) '' Function.support (n t)).Finite :=
    Set.Finite.biUnion (Finset.finite_toSet _) (fun t _ => (h.finite t).image _)
  refine h1.subset (fun q hq => ?_)
  have hne : n q.1 q.2 ≠ 0 := by
    intro e
    apply hq
    show (n q.1 q.2).toNat.factorial = 1
    rw [e]; rfl
  simp only [Set.mem_iUnion, Set.mem_image]
  exact ⟨q.1, Finset.mem_coe.2 (Finset.mem_range.2 (h.types _ _ hne)), q.2, hne, rfl⟩

theorem occFact_plus {n : Occ} (h : Allowed m ae n) (t : ℕ) (x : ℤ) :
    (occFact (n.act .plus t x) : ℝ) = (n t x + 1) * occFact n := by
  have hf := h.finite_fact
  have hval : ∀ q : ℕ × ℤ, q ≠ (t, x) → n.act .plus t x q.1 q.2 = n q.1 q.2 := by
    intro q hq
    show n q.1 q.2 + (if q.1 = t ∧ q.2 = x then _ else 0) = _
    rw [if_neg (fun e => hq (Prod.ext e.1 e.2)), add_zero]
  have hself : n.act .plus t x t x = n t x + 1 := by
    show n t x + (if t = t ∧ x = x then _ else 0) = _
    rw [if_pos ⟨rfl, rfl⟩]; rfl
  have hf' : (Function.mulSupport (fun q : ℕ × ℤ => (n.act .plus t x q.1 q.2).toNat.factorial)).Finite := by
    refine (hf.union (Set.finite_singleton (t, x))).subset (fun q hq => ?_)
    by_cases e : q = (t, x)
    · exact Or.inr e
    · left
      intro e'
      apply hq
      show (n.act .plus t x q.1 q.2).toNat.factorial = 1
      rw [hval q e]; exact e'
  have h1 := mul_finprod_cond_ne (t, x) hf
  have h2 := mul_finprod_cond_ne (t, x) hf'
  have h3 : (∏ᶠ (q : ℕ × ℤ) (_ : q ≠ (t, x)), (n.act .plus t x q.1 q.2).toNat.factorial) =
      ∏ᶠ (q : ℕ × ℤ) (_ : q ≠ (t, x)), (n q.1 q.2).toNat.factorial :=
    finprod_congr (fun q => finprod_congr (fun hq => by rw [hval q hq]))
  have hn := h.nonneg t x
  have h4 : (n t x + 1).toNat = (n t x).toNat + 1 := by omega
  have h5 : (((n t x).toNat : ℤ) : ℝ) = n t x := by rw [Int.toNat_of_nonneg hn]
  have key : occFact (n.act .plus t x) = ((n t x).toNat + 1) * occFact n := by
    unfold occFact
    rw [← h1, ← h2, h3]
    simp only
    rw [hself, h4, Nat.factorial_succ]
    ring
  rw [key]
  push_cast
  rw [← h5]
  push_cast
  ring

/-- `√(x+1)` or `√x` -/
noncomputable def rung : Dag → ℤ → ℝ
  | .plus, x => Real.sqrt (x + 1)
  | .minus, x => Real.sqrt x

theorem ladder_eq (h : SingleTerm ℝ) (n : Occ) : ladder h n = rung h.dag (n h.phononIndex (bosonSite h 0)) := by
  unfold ladder rung; cases h.dag <;> rfl

theorem factor_fact {n : Occ} (h : Allowed m ae n) (d : Dag) (t : ℕ) (x : ℤ) (h' : Allowed m ae (n.act d t x)) :
    (occFactor d n t x : ℝ) * Real.sqrt (occFact (n.act d t x)) =
      rung d (n t x) * Real.sqrt (occFact n) := by
  have hn : (0 : ℝ) ≤ n t x := by exact_mod_cast h.nonneg t x
  cases d with
  | plus =>
    rw [occFact_plus h, Real.sqrt_mul (by linarith)]
    show ((1 : ℤ) : ℝ) * _ = Real.sqrt (n t x + 1) * _
    simp
  | minus =>
    have h1 := occFact_plus h' t x
    rw [show (n.act .minus t x).act .plus t x = n from act_other n .minus t x] at h1
    have hself : n.act .minus t x t x = n t x - 1 := by
      show n t x + (if t = t ∧ x = x then _ else 0) = _
      rw [if_pos ⟨rfl, rfl⟩]; rfl
    rw [hself] at h1
    push_cast at h1
    rw [show (n t x : ℝ) - 1 + 1 = n t x by ring] at h1
    rw [h1, Real.sqrt_mul hn, ← mul_assoc]
    show _ = Real.sqrt (n t x) * Real.sqrt (n t x) * _
    rw [Real.mul_self_sqrt hn]
    rfl

open Classical in
/-- the amplitudes on the chain of a state given in the frame of the electron -/
noncomputable def unframe (m : Model ℝ) (ae : ℤ) (k : ℝ) (u : Occ → ℂ) (n : Occ) (e : ℤ) : ℂ :=
  if Allowed m ae n then
    exp (-(I * (k * m.latticeConstant * e))) * (Real.sqrt (occFact n) : ℂ) * u (n.shift (-e))
  else 0

theorem boson_shift (h : SingleTerm ℝ) (e : ℤ) : bosonSite h e = bosonSite h 0 + e := by
  unfold bosonSite; omega

theorem electron_shift (h : SingleTerm ℝ) (e : ℤ) : electronSite h e = electronSite h 0 + e := by
  unfold electronSite; omega

theorem jump_shift (h : SingleTerm ℝ) (n : Occ) (e : ℤ) :
    (n.act h.dag h.phononIndex (bosonSite h e)).shift (-(electronSite h e)) = jump h (n.shift (-e)) := by
  unfold jump
  rw [act_shift, act_shift, shift_shift, boson_shift h e, electron_shift h e,
    show -(electronSite h 0 + e) = -e + -electronSite h 0 by ring]
  congr 1
  ring

open Classical in
theorem unframe_resolvent {w eta : ℝ} {u : Occ → ℂ} (hb : ∃ C, ∀ n, ‖u n‖ ≤ C)
    (hu : ∀ n, Allowed m ae n → (w + I * eta) * u n - frame m ae k u n = if n = 0 then 1 else 0) :
    Resolvent m ae ⟨k, w, eta⟩ (unframe m ae k u) where
  bloch n e s := by
    unfold unframe
    simp only [allowed_shift, occFact_shift, shift_shift]
    by_cases hn : Allowed m ae n
    · rw [if_pos hn, if_pos hn, show s + -(e + s) = -e by ring]
      have : exp (-(I * (k * m.latticeConstant * ((e + s : ℤ) : ℂ)))) =
          exp (-(I * (k * m.latticeConstant * s))) * exp (-(I * (k * m.latticeConstant * e))) := by
        rw [← Complex.exp_add]
        congr 1
        push_cast
        ring
      rw [this]
      ring
    · rw [if_neg hn, if_neg hn, mul_zero]
  bounded n := by
    obtain ⟨C, hC⟩ := hb
    refine ⟨Real.sqrt (occFact n) * C, fun e => ?_⟩
    have hC0 : 0 ≤ C := (norm_nonneg _).trans (hC 0)
    unfold unframe
    split
    · have := norm_phase' (k * m.latticeConstant * e)
      push_cast at this
      rw [norm_mul, norm_mul, this, one_mul, Complex.norm_real, Real.norm_eq_abs, abs_of_nonneg (Real.sqrt_nonneg _)]
      exact mul_le_mul_of_nonneg_left (hC _) (Real.sqrt_nonneg _)
    · rw [norm_zero]; positivity
  outside n hn e := by unfold unframe; rw [if_neg hn]
  motion n hn e := by
    have hn0 : Allowed m ae (n.shift (-e)) := hn.shift _
    have h0 := hu _ hn0
    unfold frame at h0
    rw [if_pos hn0, energy_shift, shift_shift, shift_shift] at h0
    have hz : (n.shift (-e) = 0) ↔ n = 0 := by
      constructor
      · intro q
        have := congrArg (fun x : Occ => x.shift e) q
        simpa using this
      · rintro rfl; rfl
    simp only [hz] at h0
    set A : ℂ := exp (-(I * (k * m.latticeConstant * e))) * (Real.sqrt (occFact n) : ℂ) with hA
    have e1 : unframe m ae k u n e = A * u (n.shift (-e)) := by unfold unframe; rw [if_pos hn]
    have e2 : unframe m ae k u n (e - 1) = A * (exp (I * (k * m.latticeConstant)) * u (n.shift (-e + 1))) := by
      unfold unframe
      rw [if_pos hn, show -(e - 1) = -e + 1 by ring, hA]
      push_cast
      rw [show -(I * (k * m.latticeConstant * ((e : ℂ) - 1))) =
        -(I * (k * m.latticeConstant * e)) + I * (k * m.latticeConstant) by ring, Complex.exp_add]
      ring
    have e3 : unframe m ae k u n (e + 1) = A * (exp (-(I * (k * m.latticeConstant))) * u (n.shift (-e + -1))) := by
      unfold unframe
      rw [if_pos hn, show -(e + 1) = -e + -1 by ring, hA]
      push_cast
      rw [show -(I * (k * m.latticeConstant * ((e : ℂ) + 1))) =
        -(I * (k * m.latticeConstant * e)) + -(I * (k * m.latticeConstant)) by ring, Complex.exp_add]
      ring
    have e4 : ∀ h : SingleTerm ℝ, (h.coupling : ℂ) * (occFactor h.dag n h.phononIndex (bosonSite h e) : ℂ) *
        unframe m ae k u (n.act h.dag h.phononIndex (bosonSite h e)) (electronSite h e) =
        A * ((h.coupling : ℂ) * (ladder h (n.shift (-e)) : ℂ) *
          exp (-(I * (k * m.latticeConstant * electronSite h 0))) *
          if Allowed m ae (jump h (n.shift (-e))) then u (jump h (n.shift (-e))) else 0) := by
      intro h
      have hiff : Allowed m ae (jump h (n.shift (-e))) ↔ Allowed m ae (n.act h.dag h.phononIndex (bosonSite h e)) := by
        rw [← jump_shift, allowed_shift]
      unfold unframe
      by_cases hj : Allowed m ae (n.act h.dag h.phononIndex (bosonSite h e))
      · rw [if_pos hj, if_pos (hiff.2 hj), jump_shift]
        have hl : (occFactor h.dag n h.phononIndex (bosonSite h e) : ℝ) *
            Real.sqrt (occFact (n.act h.dag h.phononIndex (bosonSite h e))) =
            ladder h (n.shift (-e)) * Real.sqrt (occFact n) := by
          rw [factor_fact hn _ _ _ hj]
          congr 1
          rw [ladder_eq]
          have : n.shift (-e) h.phononIndex (bosonSite h 0) = n h.phononIndex (bosonSite h e) := by
            show n _ (bosonSite h 0 - -e) = _
            rw [boson_shift h e, sub_neg_eq_add]
          rw [this]
        have hl' : ((occFactor h.dag n h.phononIndex (bosonSite h e) : ℂ)) *
            (Real.sqrt (occFact (n.act h.dag h.phononIndex (bosonSite h e))) : ℂ) =
            (ladder h (n.shift (-e)) : ℂ) * (Real.sqrt (occFact n) : ℂ) := by exact_mod_cast hl
        have hx : exp (-(I * (k * m.latticeConstant * electronSite h e))) =
            exp (-(I * (k * m.latticeConstant * electronSite h 0))) * exp (-(I * (k * m.latticeConstant * e))) := by
          rw [← Complex.exp_add, electron_shift h e]
          congr 1
          push_cast
          ring
        rw [hA]
        rw [hx]
        linear_combination (h.coupling : ℂ) * exp (-(I * (k * m.latticeConstant * electronSite h 0))) *
          exp (-(I * (k * m.latticeConstant * e))) * u (jump h (n.shift (-e))) * hl'
      · rw [if_neg hj, if_neg (fun q => hj (hiff.1 q)), mul_zero, mul_zero, mul_zero]
    have e5 : (m.ham.terms.map (fun h : SingleTerm ℝ => (h.coupling : ℂ) *
        (occFactor h.dag n h.phononIndex (bosonSite h e) : ℂ) *
        unframe m ae k u (n.act h.dag h.phononIndex (bosonSite h e)) (electronSite h e))).sum =
        A * (m.ham.terms.map (fun h : SingleTerm ℝ => (h.coupling : ℂ) * (ladder h (n.shift (-e)) : ℂ) *
          exp (-(I * (k * m.latticeConstant * electronSite h 0))) *
          if Allowed m ae (jump h (n.shift (-e))) then u (jump h (n.shift (-e))) else 0)).sum := by
      rw [← List.sum_map_mul_left]
      congr 1
      exact List.map_congr_left (fun h _ => e4 h)
    simp only
    rw [e1, e2, e3, e5]
    have e6 : (if n = 0 then exp (-(I * (k * m.latticeConstant * e))) else 0 : ℂ) = A * if n = 0 then 1 else 0 := by
      by_cases hz0 : n = 0
      · rw [if_pos hz0, if_pos hz0, hA, hz0, occFact_zero]; simp
      · rw [if_neg hz0, if_neg hz0, mul_zero]
    rw [e6, ← h0]
    ring

end GGCE
