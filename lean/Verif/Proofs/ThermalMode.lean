import Verif.Spec.Thermal
import Mathlib.Analysis.SpecificLimits.Normed
import Mathlib.Analysis.SpecialFunctions.Pow.Real

/-!
One mode: the thermal average of a product of `b` and `b†` is the vacuum average of the product of
`C B + S B'†` and `C B† + S B'` with `C² = 1/(1-q)` and `S² = q/(1-q)`. Both satisfy the recursion that contracts the first
factor with every other one (Wick's theorem).

A product is a list; its head acts first.
-/

namespace GGCE
open Spec

/-- the other one of `b†` and `b` -/
def Dag.flip : Dag → Dag
  | .plus => .minus
  | .minus => .plus

/-- the change of the number of phonons -/
def net : List Dag → ℤ
  | [] => 0
  | d :: w => Dag.delta d + net w

/-- the matrix element of a product between normalised states -/
noncomputable def wt : List Dag → ℤ → ℝ
  | [], _ => 1
  | d :: w, v => climb d v * wt w (v + Dag.delta d)

/-- the same between the states `(b†)^v |0⟩` -/
def poly : List Dag → ℤ → ℤ
  | [], _ => 1
  | .plus :: w, v => poly w (v + 1)
  | .minus :: w, v => v * poly w (v - 1)

/-- the products with one factor `d` left out -/
def del (d : Dag) : List Dag → List (List Dag)
  | [] => []
  | x :: w => (if x = d then [w] else []) ++ (del d w).map (x :: ·)

/-- the vacuum average of two modes, started from the state with `a` and `b` phonons -/
noncomputable def twin2 (C S : ℝ) : List Dag → ℤ → ℤ → ℝ
  | [], a, b => if a = 0 ∧ b = 0 then 1 else 0
  | d :: w, a, b => C * climb d a * twin2 C S w (a + Dag.delta d) b +
      S * climb d.flip b * twin2 C S w a (b + Dag.delta d.flip)

theorem length_del {d : Dag} {w v : List Dag} (h : v ∈ del d w) : v.length + 1 = w.length := by
  induction w generalizing v with
  | nil => simp [del] at h
  | cons x w ih =>
    simp only [del, List.mem_append, List.mem_map] at h
    rcases h with h | ⟨u, hu, rfl⟩
    · split at h <;> simp at h
      rw [h]; rfl
    · simp [ih hu]

theorem net_del {d : Dag} {w v : List Dag} (h : v ∈ del d w) : net v + Dag.delta d = net w := by
  induction w generalizing v with
  | nil => simp [del] at h
  | cons x w ih =>
    simp only [del, List.mem_append, List.mem_map] at h
    rcases h with h | ⟨u, hu, rfl⟩
    · split at h <;> simp at h
      rename_i hx
      rw [h, hx, net]; ring
    · simp [net, ← ih hu]; ring

/-! ### the contraction rule for the vacuum average -/

theorem twin2_raise_left (C S : ℝ) (w : List Dag) {a b : ℤ} (ha : 0 ≤ a) (hb : 0 ≤ b) :
    Real.sqrt (a + 1) * twin2 C S w (a + 1) b = C * ((del .minus w).map (fun v => twin2 C S v a b)).sum := by
  induction w generalizing a b with
  | nil => simp [twin2, del, show ¬ (a + 1 = 0 ∧ b = 0) by omega]
  | cons x w ih =>
    have ha' : (0 : ℝ) ≤ a := by exact_mod_cast ha
    cases x with
    | plus =>
      have h1 := ih (a := a + 1) (b := b) (by omega) hb
      have h2 : Real.sqrt b * (Real.sqrt (a + 1) * twin2 C S w (a + 1) (b - 1)) =
          Real.sqrt b * (C * ((del .minus w).map (fun v => twin2 C S v a (b - 1))).sum) := by
        rcases hb.eq_or_lt with rfl | hb'
        · simp
        · rw [ih ha (by omega)]
      simp only [twin2, del, Dag.flip, climb, Dag.delta, reduceCtorEq, if_false, List.nil_append, List.map_map,
        Function.comp_def, List.sum_map_add, List.sum_map_mul_left, mul_assoc] at h1 h2 ⊢
      push_cast at h1 ⊢
      rw [show b + -1 = b - 1 by ring]
      linear_combination C * Real.sqrt (a + 1) * h1 + S * h2
    | minus =>
      have h1 := ih (a := a) (b := b + 1) ha (by omega)
      have h2 : Real.sqrt a * (Real.sqrt a * twin2 C S w a b) =
          Real.sqrt a * (C * ((del .minus w).map (fun v => twin2 C S v (a - 1) b)).sum) := by
        rcases ha.eq_or_lt with rfl | ha''
        · simp
        · have := ih (a := a - 1) (b := b) (by omega) hb
          push_cast at this
          rw [sub_add_cancel, sub_add_cancel] at this
          rw [this]
      have s1 : Real.sqrt (a + 1) * Real.sqrt (a + 1) = a + 1 := Real.mul_self_sqrt (by linarith)
      have s2 : Real.sqrt a * Real.sqrt a = a := Real.mul_self_sqrt ha'
      simp only [twin2, del, Dag.flip, climb, Dag.delta, if_true, List.map_map, List.cons_append, List.nil_append,
        Function.comp_def, List.sum_map_add, List.sum_map_mul_left, mul_assoc, List.map_cons, List.sum_cons] at h1 h2 ⊢
      push_cast at h1 ⊢
      rw [show a + 1 + -1 = a by ring, show a + -1 = a - 1 by ring]
      linear_combination C * twin2 C S w a b * s1 - C * twin2 C S w a b * s2 + S * Real.sqrt (b + 1) * h1 + C * h2

theorem twin2_raise_right (C S : ℝ) (w : List Dag) {a b : ℤ} (ha : 0 ≤ a) (hb : 0 ≤ b) :
    Real.sqrt (b + 1) * twin2 C S w a (b + 1) = S * ((del .plus w).map (fun v => twin2 C S v a b)).sum := by
  induction w generalizing a b with
  | nil => simp [twin2, del, show ¬ (a = 0 ∧ b + 1 = 0) by omega]
  | cons x w ih =>
    have hb' : (0 : ℝ) ≤ b := by exact_mod_cast hb
    cases x with
    | minus =>
      have h1 := ih (a := a) (b := b + 1) ha (by omega)
      have h2 : Real.sqrt a * (Real.sqrt (b + 1) * twin2 C S w (a - 1) (b + 1)) =
          Real.sqrt a * (S * ((del .plus w).map (fun v => twin2 C S v (a - 1) b)).sum) := by
        rcases ha.eq_or_lt with rfl | ha'
        · simp
        · rw [ih (by omega) hb]
      simp only [twin2, del, Dag.flip, climb, Dag.delta, reduceCtorEq, if_false, List.nil_append, List.map_map,
        Function.comp_def, List.sum_map_add, List.sum_map_mul_left, mul_assoc] at h1 h2 ⊢
      push_cast at h1 ⊢
      rw [show a + -1 = a - 1 by ring]
      linear_combination S * Real.sqrt (b + 1) * h1 + C * h2
    | plus =>
      have h1 := ih (a := a + 1) (b := b) (by omega) hb
      have h2 : Real.sqrt b * (Real.sqrt b * twin2 C S w a b) =
          Real.sqrt b * (S * ((del .plus w).map (fun v => twin2 C S v a (b - 1))).sum) := by
        rcases hb.eq_or_lt with rfl | hb''
        · simp
        · have := ih (a := a) (b := b - 1) ha (by omega)
          push_cast at this
          rw [sub_add_cancel, sub_add_cancel] at this
          rw [this]
      have s1 : Real.sqrt (b + 1) * Real.sqrt (b + 1) = b + 1 := Real.mul_self_sqrt (by linarith)
      have s2 : Real.sqrt b * Real.sqrt b = b := Real.mul_self_sqrt hb'
      simp only [twin2, del, Dag.flip, climb, Dag.delta, if_true, List.map_map, List.cons_append, List.nil_append,
        Function.comp_def, List.sum_map_add, List.sum_map_mul_left, mul_assoc, List.map_cons, List.sum_cons] at h1 h2 ⊢
      push_cast at h1 ⊢
      rw [show b + 1 + -1 = b by ring, show b + -1 = b - 1 by ring]
      linear_combination S * twin2 C S w a b * s1 - S * twin2 C S w a b * s2 + C * Real.sqrt (a + 1) * h1 + S * h2

theorem twin2_plus (C S : ℝ) (w : List Dag) :
    twin2 C S (.plus :: w) 0 0 = C ^ 2 * ((del .minus w).map (fun v => twin2 C S v 0 0)).sum := by
  have h := twin2_raise_left C S w (le_refl 0) (le_refl 0)
  simp only [Int.cast_zero, zero_add, Real.sqrt_one, one_mul] at h
  simp only [twin2, climb, Dag.flip, Dag.delta, Int.cast_zero, zero_add, Real.sqrt_one, Real.sqrt_zero, h]
  ring

theorem twin2_minus (C S : ℝ) (w : List Dag) :
    twin2 C S (.minus :: w) 0 0 = S ^ 2 * ((del .plus w).map (fun v => twin2 C S v 0 0)).sum := by
  have h := twin2_raise_right C S w (le_refl 0) (le_refl 0)
  simp only [Int.cast_zero, zero_add, Real.sqrt_one, one_mul] at h
  simp only [twin2, climb, Dag.flip, Dag.delta, Int.cast_zero, zero_add, Real.sqrt_one, Real.sqrt_zero, h]
  ring

/-! ### the contraction rule for the thermal average -/

theorem poly_succ (w : List Dag) (v : ℤ) :
    poly w (v + 1) = poly w v + ((del .minus w).map (fun u => poly u v)).sum := by
  induction w generalizing v with
  | nil => simp [poly, del]
  | cons x w ih =>
    cases x with
    | plus =>
      simp only [poly, del, reduceCtorEq, if_false, List.nil_append, List.map_map, Function.comp_def]
      exact ih (v + 1)
    | minus =>
      have h := ih (v - 1)
      rw [sub_add_cancel] at h
      simp only [poly, del, if_true, List.map_map, List.cons_append, List.nil_append, Function.comp_def,
        List.map_cons, List.sum_cons, List.sum_map_mul_left]
      rw [add_sub_cancel_right]
      linear_combination v * h

theorem poly_pred (w : List Dag) (v : ℤ) :
    v * poly w (v - 1) = (v + net w) * poly w v - ((del .plus w).map (fun u => poly u v)).sum := by
  induction w generalizing v with
  | nil => simp [poly, del, net]
  | cons x w ih =>
    cases x with
    | minus =>
      have h := ih (v - 1)
      simp only [poly, net, Dag.delta, del, reduceCtorEq, if_false, List.nil_append, List.map_map, Function.comp_def,
        List.sum_map_mul_left]
      linear_combination v * h
    | plus =>
      have h := ih (v + 1)
      rw [add_sub_cancel_right] at h
      simp only [poly, net, Dag.delta, del, if_true, List.map_map, List.cons_append, List.nil_append, Function.comp_def,
        List.map_cons, List.sum_cons]
      rw [sub_add_cancel]
      linear_combination h

theorem poly_bound (w : List Dag) (v : ℤ) : |poly w v| ≤ (|v| + w.length) ^ w.length := by
  induction w generalizing v with
  | nil => simp [poly]
  | cons x w ih =>
    have key : ∀ u : ℤ, |u| ≤ |v| + 1 → |poly w u| ≤ (|v| + (w.length + 1 : ℤ)) ^ w.length := fun u hu =>
      (ih u).trans (pow_le_pow_left₀ (by positivity) (by linarith) _)
    have h1 : (1 : ℤ) ≤ |v| + (w.length + 1 : ℤ) := by have := abs_nonneg v; omega
    have h2 : |v| ≤ |v| + (w.length + 1 : ℤ) := by omega
    have h0 : (0 : ℤ) ≤ (|v| + (w.length + 1 : ℤ)) ^ w.length := by positivity
    rw [List.length_cons, pow_succ']
    push_cast
    cases x with
    | plus =>
      refine (key (v + 1) ((abs_add_le v 1).trans (by simp))).trans ?_
      nlinarith
    | minus =>
      rw [poly, abs_mul]
      refine mul_le_mul h2 (key (v - 1) ((abs_sub v 1).trans (by simp))) (abs_nonneg _) (by omega)

/-- the matrix elements between normalised and unnormalised states differ by the norms -/
theorem wt_poly (w : List Dag) (v : ℕ) :
    wt w v * Real.sqrt (v.factorial) = poly w v * Real.sqrt ((v + net w).toNat.factorial) := by
  induction w generalizing v with
  | nil => simp [wt, poly, net]
  | cons x w ih =>
    cases x with
    | plus =>
      have h := ih (v + 1)
      have e : Real.sqrt ((v + 1).factorial) = Real.sqrt (v + 1) * Real.sqrt (v.factorial) := by
        rw [Nat.factorial_succ, Nat.cast_mul, Real.sqrt_mul (by positivity)]; push_cast; rfl
      rw [e] at h
      simp only [wt, poly, climb, Dag.delta, net]
      push_cast at h ⊢
      rw [← add_assoc]
      linear_combination h
    | minus =>
      cases v with
      | zero => simp [wt, poly, climb, Dag.delta]
      | succ v =>
        have h := ih v
        have e : Real.sqrt ((v + 1).factorial) = Real.sqrt (v + 1) * Real.sqrt (v.factorial) := by
          rw [Nat.factorial_succ, Nat.cast_mul, Real.sqrt_mul (by positivity)]; push_cast; rfl
        have s : Real.sqrt ((v : ℝ) + 1) * Real.sqrt ((v : ℝ) + 1) = v + 1 := Real.mul_self_sqrt (by positivity)
        simp only [wt, poly, climb, Dag.delta, net]
        rw [e, show ((v + 1 : ℕ) : ℤ) + -1 = v by push_cast; ring, show ((v + 1 : ℕ) : ℤ) - 1 = v by push_cast; ring,
          show ((v + 1 : ℕ) : ℤ) + (-1 + net w) = v + net w by push_cast; ring]
        push_cast
        linear_combination (↑v + 1) * h + wt w v * Real.sqrt v.factorial * s

theorem wt_closed (w : List Dag) (hw : net w = 0) (v : ℕ) : wt w v = poly w v := by
  have h := wt_poly w v
  rw [hw, add_zero, Int.toNat_natCast] at h
  exact mul_right_cancel₀ (Real.sqrt_pos.2 (by positivity)).ne' h

variable {q : ℝ}

theorem summable_poly (hq : 0 ≤ q) (hq' : q < 1) (w : List Dag) (s : ℕ) :
    Summable (fun j : ℕ => q ^ j * |(poly w ((j : ℤ) + s) : ℝ)|) := by
  set L := w.length
  refine Summable.of_nonneg_of_le (fun j => by positivity) (fun j => ?_)
    (f := fun j : ℕ => (s + L + 1 : ℝ) ^ L * (q ^ j * (j + 1 : ℝ) ^ L)) ?_
  · have h := poly_bound w ((j : ℤ) + s)
    have h' : |(poly w ((j : ℤ) + s) : ℝ)| ≤ ((j : ℝ) + s + L) ^ L := by
      rw [abs_of_nonneg (show (0 : ℤ) ≤ (j : ℤ) + s by positivity)] at h
      exact_mod_cast h
    have h2 : ((j : ℝ) + s + L) ^ L ≤ ((s + L + 1 : ℝ) * (j + 1)) ^ L := by
      refine pow_le_pow_left₀ (by positivity) ?_ _
      have a1 : (0 : ℝ) ≤ j := by positivity
      have a2 : (0 : ℝ) ≤ s := by positivity
      have a3 : (0 : ℝ) ≤ L := by positivity
      nlinarith [mul_nonneg a1 a2, mul_nonneg a1 a3]
    calc q ^ j * |(poly w ((j : ℤ) + s) : ℝ)| ≤ q ^ j * ((s + L + 1 : ℝ) * (j + 1)) ^ L :=
          mul_le_mul_of_nonneg_left (h'.trans h2) (by positivity)
      _ = _ := by rw [mul_pow]; ring
  · refine Summable.mul_left _ ?_
    rcases hq.eq_or_lt with rfl | hq0
    · refine summable_of_ne_finset_zero (s := {0}) (fun j hj => ?_)
      have : j ≠ 0 := by simpa using hj
      simp [this]
    · have base : Summable (fun j : ℕ => (j : ℝ) ^ L * q ^ j) :=
        summable_pow_mul_geometric_of_norm_lt_one L (by rw [Real.norm_of_nonneg hq]; exact hq')
      have := (summable_nat_add_iff (f := fun j : ℕ => (j : ℝ) ^ L * q ^ j) 1).2 base
      refine (this.mul_left (q⁻¹)).congr (fun j => ?_)
      push_cast
      rw [pow_succ]
      field_simp

theorem summable_poly' (hq : 0 ≤ q) (hq' : q < 1) (w : List Dag) (s : ℕ) :
    Summable (fun j : ℕ => q ^ j * (poly w ((j : ℤ) + s) : ℝ)) :=
  Summable.of_norm ((summable_poly hq hq' w s).congr (fun j => by
    rw [norm_mul, Real.norm_of_nonneg (by positivity), Real.norm_eq_abs]))

/-- the thermal average -/
noncomputable def average (q : ℝ) (w : List Dag) : ℝ :=
  if net w = 0 then ∑' j : ℕ, (q ^ j * (1 - q)) * (poly w j : ℝ) else 0

theorem poly_zero_of_neg (w : List Dag) (v : ℕ) (h : (v : ℤ) + net w < 0) : poly w v = 0 := by
  induction w generalizing v with
  | nil => simp [net] at h; omega
  | cons x w ih =>
    cases x with
    | plus =>
      have := ih (v + 1) (by simp only [net, Dag.delta] at h; push_cast; omega)
      rw [poly]; exact_mod_cast this
    | minus =>
      cases v with
      | zero => simp [poly]
      | succ v =>
        rw [poly, show ((v + 1 : ℕ) : ℤ) - 1 = v by push_cast; ring,
          ih v (by simp only [net, Dag.delta] at h; push_cast at h; omega), mul_zero]

theorem summable_sum (hq : 0 ≤ q) (hq' : q < 1) (l : List (List Dag)) :
    Summable (fun j : ℕ => q ^ j * (((l.map (fun v => poly v j)).sum : ℤ) : ℝ)) := by
  induction l with
  | nil => simp [summable_zero]
  | cons u l ih =>
    have s1 : Summable (fun j : ℕ => q ^ j * (poly u j : ℝ)) := by simpa using summable_poly' hq hq' u 0
    refine (s1.add ih).congr (fun j => ?_)
    simp only [List.map_cons, List.sum_cons]; push_cast; ring

theorem average_sum (hq : 0 ≤ q) (hq' : q < 1) (l : List (List Dag)) (hd : ∀ v ∈ l, net v = 0) :
    (l.map (average q)).sum = (1 - q) * ∑' j : ℕ, q ^ j * (((l.map (fun v => poly v j)).sum : ℤ) : ℝ) := by
  induction l with
  | nil => simp
  | cons v l ih =>
    rw [List.map_cons, List.sum_cons, ih (fun u hu => hd u (List.mem_cons_of_mem _ hu))]
    have e : average q v = (1 - q) * ∑' j : ℕ, q ^ j * (poly v j : ℝ) := by
      unfold average
      rw [if_pos (hd v List.mem_cons_self), ← tsum_mul_left]
      exact tsum_congr (fun j => by ring)
    have s1 : Summable (fun j : ℕ => q ^ j * (poly v j : ℝ)) := by simpa using summable_poly' hq hq' v 0
    rw [e, ← mul_add, ← s1.tsum_add (summable_sum hq hq' l)]
    congr 1
    refine tsum_congr (fun j => ?_)
    simp only [List.map_cons, List.sum_cons]; push_cast; ring

theorem average_off {w : List Dag} {d : Dag} (h : net w ≠ Dag.delta d) : ((del d w).map (average q)).sum = 0 := by
  refine List.sum_eq_zero (fun x hx => ?_)
  obtain ⟨v, hv, rfl⟩ := List.mem_map.1 hx
  have := net_del hv
  unfold average
  rw [if_neg (by omega)]

theorem average_plus (hq : 0 < q) (hq' : q < 1) (w : List Dag) :
    average q (.plus :: w) = 1 / (1 - q) * ((del .minus w).map (average q)).sum := by
  have h1q : (1 - q) ≠ 0 := by linarith
  by_cases hn : net w = -1
  · have hd : ∀ v ∈ del .minus w, net v = 0 := fun v hv => by have := net_del hv; simp [Dag.delta] at this; omega
    have e1 : average q (.plus :: w) = (1 - q) * ∑' j : ℕ, q ^ j * (poly w ((j : ℤ) + 1) : ℝ) := by
      unfold average
      rw [if_pos (by simp [net, Dag.delta, hn]), ← tsum_mul_left]
      refine tsum_congr (fun j => ?_)
      rw [poly]; ring
    have s0 : Summable (fun j : ℕ => q ^ j * (poly w j : ℝ)) := by simpa using summable_poly' hq.le hq' w 0
    have s1 : Summable (fun j : ℕ => q ^ j * (poly w ((j : ℤ) + 1) : ℝ)) := by
      simpa using summable_poly' hq.le hq' w 1
    have hz : poly w 0 = 0 := poly_zero_of_neg w 0 (by simp [hn])
    have e3 : ∑' j : ℕ, q ^ j * (poly w j : ℝ) = q * ∑' j : ℕ, q ^ j * (poly w ((j : ℤ) + 1) : ℝ) := by
      rw [s0.tsum_eq_zero_add, ← tsum_mul_left]
      simp only [Nat.cast_zero, hz, Int.cast_zero, mul_zero, zero_add]
      refine tsum_congr (fun j => ?_)
      push_cast
      ring
    have e4 : ∑' j : ℕ, q ^ j * (((del .minus w).map (fun v => poly v j)).sum : ℤ) =
        (1 - q) * ∑' j : ℕ, q ^ j * (poly w ((j : ℤ) + 1) : ℝ) := by
      rw [sub_mul, one_mul, ← e3, ← s1.tsum_sub s0]
      refine tsum_congr (fun j => ?_)
      rw [poly_succ w j]
      push_cast
      ring
    rw [e1, average_sum hq.le hq' _ hd, e4]
    field_simp
  · rw [average_off (by simpa [Dag.delta] using hn), mul_zero]
    unfold average
    rw [if_neg (by simp only [net, Dag.delta]; omega)]

theorem average_minus (hq : 0 < q) (hq' : q < 1) (w : List Dag) :
    average q (.minus :: w) = q / (1 - q) * ((del .plus w).map (average q)).sum := by
  have h1q : (1 - q) ≠ 0 := by linarith
  by_cases hn : net w = 1
  · have hd : ∀ v ∈ del .plus w, net v = 0 := fun v hv => by have := net_del hv; simp [Dag.delta] at this; omega
    have e1 : average q (.minus :: w) = (1 - q) * ∑' j : ℕ, q ^ j * (poly (.minus :: w) j : ℝ) := by
      unfold average
      rw [if_pos (by simp [net, Dag.delta, hn]), ← tsum_mul_left]
      exact tsum_congr (fun j => by ring)
    have s0 : Summable (fun j : ℕ => q ^ j * (poly (.minus :: w) j : ℝ)) := by
      simpa using summable_poly' hq.le hq' (.minus :: w) 0
    have s1 : Summable (fun j : ℕ => q ^ j * (((j : ℝ) + 1) * poly w j)) := by
      refine (summable_poly' hq.le hq' (.minus :: w) 1).congr (fun j => ?_)
      rw [poly]
      push_cast
      rw [add_sub_cancel_right]
    have e3 : ∑' j : ℕ, q ^ j * (poly (.minus :: w) j : ℝ) = q * ∑' j : ℕ, q ^ j * (((j : ℝ) + 1) * poly w j) := by
      rw [s0.tsum_eq_zero_add, ← tsum_mul_left]
      simp only [poly, Nat.cast_zero, zero_mul, Int.cast_zero, mul_zero, zero_add]
      refine tsum_congr (fun j => ?_)
      push_cast
      rw [add_sub_cancel_right]
      ring
    have e4 : ∑' j : ℕ, q ^ j * (((del .plus w).map (fun v => poly v j)).sum : ℤ) =
        (1 - q) * ∑' j : ℕ, q ^ j * (((j : ℝ) + 1) * poly w j) := by
      rw [sub_mul, one_mul, ← e3, ← s1.tsum_sub s0]
      refine tsum_congr (fun j => ?_)
      have h := poly_pred w j
      rw [hn] at h
      have h' : ((((del .plus w).map (fun v => poly v j)).sum : ℤ) : ℝ) =
          ((j : ℝ) + 1) * poly w j - (poly (.minus :: w) j : ℝ) := by
        rw [poly, h]; push_cast; ring
      rw [h']; ring
    rw [e1, average_sum hq.le hq' _ hd, e4, e3]
    field_simp
  · rw [average_off (by simpa [Dag.delta] using hn), mul_zero]
    unfold average
    rw [if_neg (by simp only [net, Dag.delta]; omega)]

/-- one mode: thermal average and vacuum average of the doubled mode agree -/
theorem average_twin2 (hq : 0 < q) (hq' : q < 1) {C S : ℝ} (hC : C ^ 2 = 1 / (1 - q)) (hS : S ^ 2 = q / (1 - q)) :
    ∀ (L : ℕ) (w : List Dag), w.length = L → average q w = twin2 C S w 0 0 := by
  intro L
  induction L using Nat.strong_induction_on with
  | _ L ih =>
    intro w hw
    have key : ∀ d v, v.length < L → ((del d v).map (average q)).sum = ((del d v).map (fun u => twin2 C S u 0 0)).sum := by
      intro d v hv
      congr 1
      refine List.map_congr_left (fun u hu => ih u.length ?_ u rfl)
      have := length_del hu
      omega
    match w with
    | [] =>
      have h1q : (1 - q) ≠ 0 := by linarith
      simp only [average, net, if_true, twin2, poly, Int.cast_one, mul_one, and_self]
      rw [tsum_mul_right, tsum_geometric_of_lt_one hq.le hq']
      field_simp
    | .plus :: w => rw [average_plus hq hq', twin2_plus, hC, key _ w (by rw [← hw]; simp)]
    | .minus :: w => rw [average_minus hq hq', twin2_minus, hS, key _ w (by rw [← hw]; simp)]

end GGCE
