import Verif.Proofs.ThermalMode
import Mathlib.MeasureTheory.Integral.Pi

/-!
Products of `b` and `b†` of many modes: the thermal average and the vacuum average of the doubled modes both factorise over
the modes.
-/

namespace GGCE
open Spec MeasureTheory

/-- `b†` or `b` of a type at a site -/
abbrev Letter := Dag × ℕ × ℤ

/-- a product; the head acts first -/
abbrev Word := List Letter

/-- the matrix element of a product between normalised states -/
noncomputable def weight : Word → Occ → ℝ
  | [], _ => 1
  | (d, t, x) :: w, n => climb d (n t x) * weight w (n.act d t x)

/-- the occupations after a product -/
def landing : Word → Occ → Occ
  | [], n => n
  | (d, t, x) :: w, n => landing w (n.act d t x)

/-- the factors of one mode -/
def ops : Word → ℕ × ℤ → List Dag
  | [], _ => []
  | (d, i) :: w, j => if i = j then d :: ops w j else ops w j

/-- the average over the vacuum of the doubled modes `2 t` and `2 t + 1`, started from the state `n` -/
noncomputable def doubled (C S : ℕ → ℝ) : Word → Occ → ℝ
  | [], n => open Classical in if n = 0 then 1 else 0
  | (d, t, x) :: w, n => C t * climb d (n (2 * t) x) * doubled C S w (n.act d (2 * t) x) +
      S t * climb d.flip (n (2 * t + 1) x) * doubled C S w (n.act d.flip (2 * t + 1) x)

theorem landing_apply (w : Word) (n : Occ) (t : ℕ) (x : ℤ) : landing w n t x = n t x + net (ops w (t, x)) := by
  induction w generalizing n with
  | nil => simp [landing, ops, net]
  | cons l w ih =>
    obtain ⟨d, t', x'⟩ := l
    rw [landing, ih, ops]
    by_cases h : (t', x') = (t, x)
    · obtain ⟨rfl, rfl⟩ := Prod.mk.inj h
      simp only [if_true, net, Occ.act, and_self]; ring
    · rw [if_neg h]
      have : ¬ (t = t' ∧ x = x') := fun hc => h (by rw [hc.1, hc.2])
      simp [Occ.act, this]

theorem ops_nil {w : Word} {i : ℕ × ℤ} (h : ∀ l ∈ w, l.2 ≠ i) : ops w i = [] := by
  induction w with
  | nil => rfl
  | cons l w ih =>
    obtain ⟨d, j⟩ := l
    rw [ops, if_neg (h (d, j) List.mem_cons_self), ih (fun l hl => h l (List.mem_cons_of_mem _ hl))]

theorem weight_prod (w : Word) (A : Finset (ℕ × ℤ)) (hA : ∀ l ∈ w, l.2 ∈ A) (n : Occ) :
    weight w n = ∏ i ∈ A, wt (ops w i) (n i.1 i.2) := by
  induction w generalizing n with
  | nil => simp [weight, ops, wt]
  | cons l w ih =>
    obtain ⟨d, t, x⟩ := l
    have hm : (t, x) ∈ A := hA _ List.mem_cons_self
    rw [weight, ih (fun l hl => hA l (List.mem_cons_of_mem _ hl)), ← Finset.mul_prod_erase _ _ hm,
      ← Finset.mul_prod_erase _ _ hm, ← mul_assoc]
    congr 1
    · simp [ops, wt, Occ.act]
    · refine Finset.prod_congr rfl (fun i hi => ?_)
      have hne := Finset.ne_of_mem_erase hi
      rw [ops, if_neg (Ne.symm hne)]
      have : ¬ (i.1 = t ∧ i.2 = x) := fun hc => hne (Prod.ext hc.1 hc.2)
      simp [Occ.act, this]

theorem landing_iff (w : Word) (A : Finset (ℕ × ℤ)) (hA : ∀ l ∈ w, l.2 ∈ A) (n : Occ) :
    landing w n = n ↔ ∀ i ∈ A, net (ops w i) = 0 := by
  constructor
  · intro h i _
    have := landing_apply w n i.1 i.2
    rw [h] at this
    linarith
  · intro h
    funext t x
    rw [landing_apply]
    by_cases hi : (t, x) ∈ A
    · rw [h _ hi, add_zero]
    · rw [ops_nil (i := (t, x)) (fun l hl he => hi (by rw [← he]; exact hA l hl))]; simp [net]

theorem closed_prod (w : Word) (A : Finset (ℕ × ℤ)) (hA : ∀ l ∈ w, l.2 ∈ A) (ν : Sample) :
    (open Classical in if landing w ν.occ = ν.occ then weight w ν.occ else 0) =
      ∏ i ∈ A, if net (ops w i) = 0 then wt (ops w i) (ν i) else 0 := by
  rw [weight_prod w A hA]
  by_cases h : ∀ i ∈ A, net (ops w i) = 0
  · rw [if_pos ((landing_iff w A hA _).2 h)]
    exact Finset.prod_congr rfl (fun i hi => by rw [if_pos (h i hi)]; rfl)
  · rw [if_neg (fun hc => h ((landing_iff w A hA _).1 hc))]
    push Not at h
    obtain ⟨i, hi, hne⟩ := h
    exact (Finset.prod_eq_zero hi (if_neg hne)).symm

theorem doubled_prod (C S : ℕ → ℝ) (w : Word) (A : Finset (ℕ × ℤ)) (hA : ∀ l ∈ w, l.2 ∈ A) (n : Occ)
    (hn : ∀ t x, (t, x) ∉ A → n (2 * t) x = 0 ∧ n (2 * t + 1) x = 0) :
    doubled C S w n = ∏ i ∈ A, twin2 (C i.1) (S i.1) (ops w i) (n (2 * i.1) i.2) (n (2 * i.1 + 1) i.2) := by
  induction w generalizing n with
  | nil =>
    simp only [doubled, ops, twin2]
    by_cases h : n = 0
    · rw [if_pos h]
      exact (Finset.prod_eq_one (fun i _ => by simp [h])).symm
    · rw [if_neg h]
      have : ∃ t x, n t x ≠ 0 := by
        by_contra hc
        push Not at hc
        exact h (funext fun t => funext fun x => hc t x)
      obtain ⟨t, x, hne⟩ := this
      obtain ⟨s, hs⟩ : ∃ s, t = 2 * s ∨ t = 2 * s + 1 := ⟨t / 2, by omega⟩
      have hm : (s, x) ∈ A := by
        by_contra hc
        rcases hs with rfl | rfl
        · exact hne (hn s x hc).1
        · exact hne (hn s x hc).2
      refine (Finset.prod_eq_zero hm (if_neg ?_)).symm
      rintro ⟨h1, h2⟩
      rcases hs with rfl | rfl
      · exact hne h1
      · exact hne h2
  | cons l w ih =>
    obtain ⟨d, t, x⟩ := l
    have hm : (t, x) ∈ A := hA _ List.mem_cons_self
    have hA' := fun l hl => hA l (List.mem_cons_of_mem (d, t, x) hl)
    have hout : ∀ (e : Dag) (s : ℕ), s = 2 * t ∨ s = 2 * t + 1 →
        ∀ t' x', (t', x') ∉ A → (n.act e s x) (2 * t') x' = 0 ∧ (n.act e s x) (2 * t' + 1) x' = 0 := by
      intro e s hs t' x' hc
      have h0 : ¬ (t' = t ∧ x' = x) := by rintro ⟨rfl, rfl⟩; exact hc hm
      have h1 : ¬ (2 * t' = s ∧ x' = x) := by rintro ⟨h, rfl⟩; exact h0 ⟨by omega, rfl⟩
      have h2 : ¬ (2 * t' + 1 = s ∧ x' = x) := by rintro ⟨h, rfl⟩; exact h0 ⟨by omega, rfl⟩
      simp only [Occ.act, h1, h2, if_false, add_zero]
      exact hn t' x' hc
    have hrest : ∀ (e : Dag) (s : ℕ), s = 2 * t ∨ s = 2 * t + 1 →
        ∏ i ∈ A.erase (t, x), twin2 (C i.1) (S i.1) (ops w i) ((n.act e s x) (2 * i.1) i.2) ((n.act e s x) (2 * i.1 + 1) i.2) =
          ∏ i ∈ A.erase (t, x), twin2 (C i.1) (S i.1) (ops ((d, t, x) :: w) i) (n (2 * i.1) i.2) (n (2 * i.1 + 1) i.2) := by
      intro e s hs
      refine Finset.prod_congr rfl (fun i hi => ?_)
      have hne := Finset.ne_of_mem_erase hi
      have h0 : ¬ (i.1 = t ∧ i.2 = x) := fun hc => hne (Prod.ext hc.1 hc.2)
      have h1 : ¬ (2 * i.1 = s ∧ i.2 = x) := by rintro ⟨h, h'⟩; exact h0 ⟨by omega, h'⟩
      have h2 : ¬ (2 * i.1 + 1 = s ∧ i.2 = x) := by rintro ⟨h, h'⟩; exact h0 ⟨by omega, h'⟩
      rw [ops, if_neg (Ne.symm hne)]
      simp only [Occ.act, h1, h2, if_false, add_zero]
    rw [doubled, ih hA' _ (hout d (2 * t) (Or.inl rfl)), ih hA' _ (hout d.flip (2 * t + 1) (Or.inr rfl)),
      ← Finset.mul_prod_erase _ _ hm, ← Finset.mul_prod_erase _ _ hm, ← Finset.mul_prod_erase _ _ hm,
      hrest d (2 * t) (Or.inl rfl), hrest d.flip (2 * t + 1) (Or.inr rfl), ops, if_pos rfl, twin2]
    simp only [Occ.act, and_self, if_true, show ¬ (2 * t + 1 = 2 * t) by omega, show ¬ (2 * t = 2 * t + 1) by omega,
      false_and, if_false, add_zero]
    ring

/-! ### the thermal average -/

/-- `exp (-Omega / T)` -/
noncomputable def ratio (m : Model ℝ) (T : ℝ) (t : ℕ) : ℝ := Real.exp (-(m.ham.freqs.getD t 0) / T)

instance (T Omega : ℝ) : IsProbabilityMeasure (boltzmann T Omega) := by unfold boltzmann; infer_instance

theorem boltzmann_integral {T Omega : ℝ} (hT : 0 < T) (hO : 0 < Omega) (w : List Dag) (hw : net w = 0) :
    Integrable (fun v : ℕ => (wt w v : ℂ)) (boltzmann T Omega) ∧
      ∫ v : ℕ, (wt w v : ℂ) ∂(boltzmann T Omega) = (average (Real.exp (-Omega / T)) w : ℝ) := by
  set q := Real.exp (-Omega / T)
  have hq : 0 < q := Real.exp_pos _
  have hq' : q < 1 := Real.exp_lt_one_iff.2 (by rw [neg_div]; exact neg_neg_of_pos (by positivity))
  have hp : (Set.projIcc (0 : ℝ) 1 zero_le_one (1 - q) : ℝ) = 1 - q := by
    rw [Set.coe_projIcc, min_eq_right (by linarith), max_eq_right (by linarith)]
  have hp0 : Set.projIcc (0 : ℝ) 1 zero_le_one (1 - q) ≠ 0 := by
    intro h
    have := congrArg Subtype.val h
    rw [hp] at this
    simp at this
    linarith
  constructor
  · unfold boltzmann
    rw [ProbabilityTheory.integrable_geometricMeasure_iff hp0, hp]
    have := (summable_poly hq.le hq' w 0).mul_left (1 - q)
    refine this.congr (fun j => ?_)
    rw [Complex.norm_real, Real.norm_eq_abs, wt_closed w hw]
    simp only [sub_sub_cancel, Nat.cast_zero, add_zero]
    ring
  · unfold boltzmann average
    rw [ProbabilityTheory.integral_geometricMeasure hp0, hp, if_pos hw, Complex.ofReal_tsum]
    refine tsum_congr (fun j => ?_)
    rw [wt_closed w hw, sub_sub_cancel]
    push_cast
    rw [Complex.real_smul]
    push_cast
    ring

/-- the thermal average of a product is the vacuum average for the doubled modes -/
theorem gibbs_word (m : Model ℝ) {T : ℝ} (hT : 0 < T) (C S : ℕ → ℝ) (w : Word)
    (hw : ∀ l ∈ w, 0 < m.ham.freqs.getD l.2.1 0 ∧ C l.2.1 ^ 2 = 1 / (1 - ratio m T l.2.1) ∧
      S l.2.1 ^ 2 = ratio m T l.2.1 / (1 - ratio m T l.2.1)) :
    Integrable (fun ν : Sample => (((open Classical in if landing w ν.occ = ν.occ then weight w ν.occ else 0) : ℝ) : ℂ))
        (gibbs m T) ∧
      ∫ ν : Sample, (((open Classical in if landing w ν.occ = ν.occ then weight w ν.occ else 0) : ℝ) : ℂ) ∂(gibbs m T) =
        (doubled C S w 0 : ℝ) := by
  set A : Finset (ℕ × ℤ) := (w.map (·.2)).toFinset
  have hA : ∀ l ∈ w, l.2 ∈ A := fun l hl => List.mem_toFinset.2 (List.mem_map_of_mem hl)
  have hA' : ∀ i ∈ A, 0 < m.ham.freqs.getD i.1 0 ∧ C i.1 ^ 2 = 1 / (1 - ratio m T i.1) ∧
      S i.1 ^ 2 = ratio m T i.1 / (1 - ratio m T i.1) := by
    intro i hi
    obtain ⟨l, hl, rfl⟩ := List.mem_map.1 (List.mem_toFinset.1 hi)
    exact hw l hl
  set f : (i : A) → ℕ → ℂ := fun i v => if net (ops w i.1) = 0 then (wt (ops w i.1) v : ℂ) else 0
  have hone : ∀ i : A, Integrable (f i) (boltzmann T (m.ham.freqs.getD i.1.1 0)) ∧
      ∫ v, f i v ∂(boltzmann T (m.ham.freqs.getD i.1.1 0)) = (twin2 (C i.1.1) (S i.1.1) (ops w i.1) 0 0 : ℝ) := by
    intro i
    obtain ⟨h1, h2, h3⟩ := hA' i.1 i.2
    have hq' : ratio m T i.1.1 < 1 := Real.exp_lt_one_iff.2 (by rw [neg_div]; exact neg_neg_of_pos (by positivity))
    have hp := average_twin2 (Real.exp_pos _) hq' h2 h3 _ (ops w i.1) rfl
    by_cases hn : net (ops w i.1) = 0
    · have := boltzmann_integral hT h1 (ops w i.1) hn
      simp only [f, hn, if_true]
      exact ⟨this.1, by rw [this.2, ← hp]⟩
    · simp only [f, hn, if_false]
      refine ⟨integrable_zero _ _ _, ?_⟩
      rw [integral_zero, ← hp]
      unfold average
      rw [if_neg hn, Complex.ofReal_zero]
  have hfun : (fun ν : Sample => (((open Classical in if landing w ν.occ = ν.occ then weight w ν.occ else 0) : ℝ) : ℂ)) =
      fun ν : Sample => (fun y : A → ℕ => ∏ i, f i (y i)) (A.restrict ν) := by
    funext ν
    rw [closed_prod w A hA]
    simp only [Finset.restrict, f]
    rw [Finset.prod_coe_sort A (fun i => if net (ops w i) = 0 then (wt (ops w i) (ν i) : ℂ) else 0)]
    push_cast
    exact Finset.prod_congr rfl (fun i _ => by split <;> simp)
  have hint : Integrable (fun y : A → ℕ => ∏ i, f i (y i)) (Measure.pi (fun i : A => boltzmann T (m.ham.freqs.getD i.1.1 0))) :=
    Integrable.fintype_prod_dep (fun i => (hone i).1)
  rw [hfun]
  constructor
  · unfold gibbs
    have := Measure.infinitePi_map_restrict (fun i : ℕ × ℤ => boltzmann T (m.ham.freqs.getD i.1 0)) (I := A)
    rw [← this] at hint
    exact (integrable_map_measure hint.1 (by fun_prop)).1 hint
  · unfold gibbs
    rw [integral_restrict_infinitePi (μ := fun i : ℕ × ℤ => boltzmann T (m.ham.freqs.getD i.1 0)) hint.1,
      integral_fintype_prod_eq_prod, doubled_prod C S w A hA 0 (fun _ _ _ => ⟨rfl, rfl⟩)]
    push_cast
    rw [← Finset.prod_coe_sort A]
    exact Finset.prod_congr rfl (fun i _ => (hone i).2)

end GGCE
