import Verif.Proofs.Decay
import Verif.Proofs.Untruncated
import Verif.Spec.ErrorBar

/-!
The number of phonons plus the distance of the farthest phonon from the electron changes by at most three in a move.
Its square root is the function `φ` of `Decay.lean`.
-/

set_option linter.unusedSectionVars false

namespace GGCE
open Spec Complex ComplexConjugate
open scoped InnerProductSpace

variable {m m' : Model ℝ} {ae : ℤ} {k : ℝ} {c : ℤ} {n : Occ}

/-! ### the farthest phonon -/

/-- the distance of the farthest phonon from the electron (0 without phonons) -/
noncomputable def far (n : Occ) : ℕ := sSup {j : ℕ | ∃ t x, n t x ≠ 0 ∧ x.natAbs = j}

theorem far_bdd (h : Conceivable m n) : BddAbove {j : ℕ | ∃ t x, n t x ≠ 0 ∧ x.natAbs = j} := by
  have hfin : (⋃ t ∈ Finset.range m.nTypes, Function.support (n t)).Finite :=
    (Finset.range m.nTypes).finite_toSet.biUnion (fun t _ => h.finite t)
  refine ((hfin.image Int.natAbs).subset ?_).bddAbove
  rintro j ⟨t, x, hx, rfl⟩
  exact ⟨x, Set.mem_biUnion (Finset.mem_range.2 (h.types t x hx)) hx, rfl⟩

theorem le_far (h : Conceivable m n) {t : ℕ} {x : ℤ} (hx : n t x ≠ 0) : x.natAbs ≤ far n :=
  le_csSup (far_bdd h) ⟨t, x, hx, rfl⟩

theorem far_le {b : ℕ} (h : ∀ t x, n t x ≠ 0 → x.natAbs ≤ b) : far n ≤ b :=
  csSup_le' (fun _ ⟨t, x, hx, hj⟩ => hj ▸ h t x hx)

theorem far_zero : far 0 = 0 := Nat.le_zero.1 (far_le (fun _ _ h => absurd rfl h))

theorem far_shift_le (h : Conceivable m n) (s : ℤ) : far (n.shift s) ≤ far n + s.natAbs :=
  far_le (fun t x hx => by
    have := le_far h (t := t) (x := x - s) hx
    omega)

theorem far_shift (h : Conceivable m n) (s : ℤ) : far n ≤ far (n.shift s) + s.natAbs := by
  have := far_shift_le (h.shift s) (-s)
  simpa using this

theorem far_act_le (h : Conceivable m n) (d : Dag) (t : ℕ) (x : ℤ) : far (n.act d t x) ≤ far n + x.natAbs :=
  far_le (fun t' y hy => by
    by_cases hn : n t' y = 0
    · have : t' = t ∧ y = x := by
        by_contra hc
        apply hy
        show n t' y + (if t' = t ∧ y = x then Dag.delta d else 0) = 0
        rw [if_neg hc, hn]; rfl
      rw [this.2]; omega
    · have := le_far h hn
      omega)

theorem far_jump_le (hn : Conceivable m n) {h : SingleTerm ℝ} (hj : Conceivable m (jump h n)) {b a : ℕ}
    (hb : (bosonSite h 0).natAbs ≤ b) (ha : (electronSite h 0).natAbs ≤ a) :
    far (jump h n) ≤ far n + (a + b) := by
  have h1 : Conceivable m (n.act h.dag h.phononIndex (bosonSite h 0)) := conceivable_shift.1 hj
  have h2 := far_shift_le h1 (-(electronSite h 0))
  have h3 := far_act_le hn h.dag h.phononIndex (bosonSite h 0)
  rw [Int.natAbs_neg] at h2
  have h4 : far (jump h n) ≤ far (n.act h.dag h.phononIndex (bosonSite h 0)) + (electronSite h 0).natAbs := h2
  omega

theorem far_jump_ge {h : SingleTerm ℝ} (hj : Conceivable m (jump h n)) {b a : ℕ}
    (hb : (bosonSite h 0).natAbs ≤ b) (ha : (electronSite h 0).natAbs ≤ a) :
    far n ≤ far (jump h n) + (a + b) := by
  have h1 : Conceivable m (n.act h.dag h.phononIndex (bosonSite h 0)) := conceivable_shift.1 hj
  have h2 := far_shift h1 (-(electronSite h 0))
  have h3 : far n ≤ far (n.act h.dag h.phononIndex (bosonSite h 0)) + (bosonSite h 0).natAbs := by
    have := far_act_le h1 (other h.dag) h.phononIndex (bosonSite h 0)
    rwa [act_other] at this
  rw [Int.natAbs_neg] at h2
  have h4 : far (n.act h.dag h.phononIndex (bosonSite h 0)) ≤ far (jump h n) + (electronSite h 0).natAbs := h2
  omega

/-! ### size -/

/-- the number of phonons plus the distance of the farthest one -/
noncomputable def size (m : Model ℝ) (n : Occ) : ℝ := (phononCount m n : ℝ) + (far n : ℝ)

/-- its square root, shifted to avoid zero -/
noncomputable def root (m : Model ℝ) (n : Occ) : ℝ := √(size m n + 1)

/-- every term acts next to the electron and moves it by at most one site -/
def Near (m : Model ℝ) : Prop :=
  ∀ h ∈ m.ham.terms, (bosonSite h 0).natAbs ≤ 1 ∧ (electronSite h 0).natAbs ≤ 1

theorem size_nonneg (h : Conceivable m n) : 0 ≤ size m n := by
  have : (0 : ℝ) ≤ phononCount m n := by exact_mod_cast h.count_nonneg
  unfold size; positivity

theorem one_le_size_root (h : Conceivable m n) : 1 ≤ root m n := by
  unfold root; rw [Real.one_le_sqrt]; linarith [size_nonneg h]

theorem size_zero : size m 0 = 0 := by
  unfold size phononCount; rw [far_zero]; simp

theorem root_zero : root m 0 = 1 := by unfold root; rw [size_zero]; simp

theorem count_le_root : √((phononCount m n : ℝ) + 1) ≤ root m n :=
  Real.sqrt_le_sqrt (by unfold size; linarith [(Nat.cast_nonneg (far n) : (0 : ℝ) ≤ far n)])

theorem size_step (hnear : Near m) {μ} (hμ : μ ∈ (hops m k).moves) (hn : Conceivable m n)
    (hn' : Conceivable m (μ.1 n)) : |size m (μ.1 n) - size m n| ≤ 3 := by
  have hshift : ∀ s : ℤ, s.natAbs ≤ 1 → |size m (n.shift s) - size m n| ≤ 3 := fun s hs => by
    have h1 := far_shift_le hn s
    have h2 := far_shift hn s
    have h1' : (far (n.shift s) : ℝ) ≤ far n + 1 := by exact_mod_cast h1.trans (by omega)
    have h2' : (far n : ℝ) ≤ far (n.shift s) + 1 := by exact_mod_cast h2.trans (by omega)
    unfold size
    rw [count_shift, abs_le]
    constructor <;> linarith
  rcases List.mem_cons.1 hμ with rfl | hμ
  · exact hshift 1 (by simp)
  rcases List.mem_cons.1 hμ with rfl | hμ
  · exact hshift (-1) (by simp)
  obtain ⟨h, hh, rfl⟩ := List.mem_map.1 hμ
  have hn'' : Conceivable m (jump h n) := hn'
  show |size m (jump h n) - size m n| ≤ 3
  have h1 := far_jump_le hn hn'' (hnear h hh).1 (hnear h hh).2
  have h2 := far_jump_ge (m := m) hn'' (hnear h hh).1 (hnear h hh).2
  have h1' : (far (jump h n) : ℝ) ≤ far n + 2 := by exact_mod_cast h1
  have h2' : (far n : ℝ) ≤ far (jump h n) + 2 := by exact_mod_cast h2
  have h3 := hn.count_jump h
  have h4 : |(phononCount m (jump h n) : ℝ) - phononCount m n| ≤ 1 := by
    rw [h3]
    push_cast
    rw [add_sub_cancel_left]
    split
    · cases h.dag <;> simp [Dag.delta]
    · simp
  rw [abs_le] at h4 ⊢
  unfold size
  constructor <;> linarith

theorem root_step (hnear : Near m) {μ} (hμ : μ ∈ (hops m k).moves) (hn : Conceivable m n)
    (hn' : Conceivable m (μ.1 n)) : |root m n - root m (μ.1 n)| * (root m n + root m (μ.1 n)) ≤ 3 := by
  have h1 := size_step hnear hμ hn hn'
  have e1 : root m n ^ 2 = size m n + 1 := Real.sq_sqrt (by linarith [size_nonneg hn])
  have e2 : root m (μ.1 n) ^ 2 = size m (μ.1 n) + 1 := Real.sq_sqrt (by linarith [size_nonneg hn'])
  have h0 : 0 ≤ root m n + root m (μ.1 n) := by linarith [one_le_size_root hn, one_le_size_root hn']
  rw [← abs_of_nonneg h0, ← abs_mul]
  have : (root m n - root m (μ.1 n)) * (root m n + root m (μ.1 n)) = -(size m (μ.1 n) - size m n) := by
    linear_combination e1 - e2
  rw [this, abs_neg]
  exact h1

/-! ### the function of `Decay.lean` -/

theorem sinh_le {y : ℝ} (h0 : 0 ≤ y) (h1 : y ≤ 3 / 10) : Real.sinh y ≤ 13 / 10 * y := by
  have a1 := (abs_le.1 (Real.abs_exp_sub_one_sub_id_le (x := y) (by rw [abs_of_nonneg h0]; linarith))).2
  have a2 := (abs_le.1 (Real.abs_exp_sub_one_sub_id_le (x := -y) (by rw [abs_neg, abs_of_nonneg h0]; linarith))).1
  rw [Real.sinh_eq]
  nlinarith

open Classical in
/-- `β (min (root n) D - 1)`, and 0 for what is not an occupation -/
noncomputable def slope (m : Model ℝ) (β D : ℝ) (n : Occ) : ℝ :=
  if Conceivable m n then β * (min (root m n) D - 1) else 0

/-- the moves, with the bounds for the change of `slope` and for the entries at the border -/
noncomputable def bounded (m : Model ℝ) (k β E : ℝ) : List (((Occ ≃ Occ) × (Occ → ℂ)) × ℝ × ℝ) :=
  ((shiftE 1, fun _ => hopWeight m k), 4 * β * |m.ham.hopping|, 0) ::
    ((shiftE (-1), fun _ => hopWeight m (-k)), 4 * β * |m.ham.hopping|, 0) ::
    m.ham.terms.map (fun h => ((jumpE h, termWeight m k h), 4 * β * |h.coupling|, |h.coupling| * E))

theorem bounded_list (β E : ℝ) : (bounded m k β E).map (·.1) = (hops m k).moves := by
  unfold bounded hops
  simp only [List.map_cons, List.map_map]
  rfl

theorem list_mul_sum (l : List (SingleTerm ℝ)) (a : ℝ) :
    (l.map (fun h => a * |h.coupling|)).sum = a * (l.map (fun h => |h.coupling|)).sum := by
  induction l with
  | nil => simp
  | cons x l ih => simp only [List.map_cons, List.sum_cons, ih]; ring

theorem bounded_first (β E : ℝ) :
    ((bounded m k β E).map (·.2.1)).sum = 4 * β * (2 * |m.ham.hopping| + totalCoupling m) := by
  unfold bounded totalCoupling
  simp only [List.map_cons, List.map_map, List.sum_cons]
  rw [show ((fun p : ((Occ ≃ Occ) × (Occ → ℂ)) × ℝ × ℝ => p.2.1) ∘ fun h : SingleTerm ℝ =>
    ((jumpE h, termWeight m k h), 4 * β * |h.coupling|, |h.coupling| * E)) = fun h => 4 * β * |h.coupling| from rfl,
    list_mul_sum]
  ring

theorem bounded_second (β E : ℝ) : ((bounded m k β E).map (·.2.2)).sum = totalCoupling m * E := by
  unfold bounded totalCoupling
  simp only [List.map_cons, List.map_map, List.sum_cons]
  rw [show ((fun p : ((Occ ≃ Occ) × (Occ → ℂ)) × ℝ × ℝ => p.2.2) ∘ fun h : SingleTerm ℝ =>
    ((jumpE h, termWeight m k h), 4 * β * |h.coupling|, |h.coupling| * E)) = fun h => E * |h.coupling| from by
      funext h; simp [mul_comm], list_mul_sum]
  ring

theorem ladder_le_root (hn : Conceivable m n) (h : SingleTerm ℝ) : ladder h n ≤ √((phononCount m n : ℝ) + 1) := by
  have h1 : n h.phononIndex (bosonSite h 0) ≤ phononCount m n := (hn.le_total _ _).trans (hn.total_le _)
  have h1' : (n h.phononIndex (bosonSite h 0) : ℝ) ≤ phononCount m n := by exact_mod_cast h1
  unfold ladder
  cases h.dag with
  | plus => exact Real.sqrt_le_sqrt (by linarith)
  | minus => exact Real.sqrt_le_sqrt (by linarith)

/-- the strength of a move -/
theorem bounded_weight {β E : ℝ} {p} (hp : p ∈ bounded m k β E) :
    ∃ g : ℝ, 0 ≤ g ∧ p.2.1 = 4 * β * g ∧ ∀ n, Conceivable m n → ‖p.1.2 n‖ ≤ g * √((phononCount m n : ℝ) + 1) := by
  have hone : ∀ n, Conceivable m n → 1 ≤ √((phononCount m n : ℝ) + 1) := fun n hn => by
    rw [Real.one_le_sqrt]
    have : (0 : ℝ) ≤ phononCount m n := by exact_mod_cast hn.count_nonneg
    linarith
  have hhop : ∀ k' n, Conceivable m n → ‖hopWeight m k'‖ ≤ |m.ham.hopping| * √((phononCount m n : ℝ) + 1) := fun k' n hn => by
    rw [hopWeight_norm]
    nlinarith [hone n hn, abs_nonneg m.ham.hopping]
  rcases List.mem_cons.1 hp with rfl | hp
  · exact ⟨|m.ham.hopping|, abs_nonneg _, rfl, hhop k⟩
  rcases List.mem_cons.1 hp with rfl | hp
  · exact ⟨|m.ham.hopping|, abs_nonneg _, rfl, hhop (-k)⟩
  obtain ⟨h, hh, rfl⟩ := List.mem_map.1 hp
  refine ⟨|h.coupling|, abs_nonneg _, rfl, fun n hn => ?_⟩
  show ‖termWeight m k h n‖ ≤ _
  rw [termWeight_norm]
  exact mul_le_mul_of_nonneg_left (ladder_le_root hn h) (abs_nonneg _)

theorem min_sub_le (a b D : ℝ) : |min a D - min b D| ≤ |a - b| := by
  rcases le_total a D with h1 | h1 <;> rcases le_total b D with h2 | h2 <;>
    simp only [h1, h2, min_eq_left, min_eq_right]
  · exact le_refl _
  · rw [abs_le]; constructor <;> cases abs_cases (a - b) <;> linarith
  · rw [abs_le]; constructor <;> cases abs_cases (a - b) <;> linarith
  · simp

theorem slope_tilt (hnear : Near m) {P : Occ → Prop} (hP : ∀ n, P n → Conceivable m n) {β D E : ℝ} (hβ : 0 ≤ β)
    (hβ' : β ≤ 1 / 5) (hD : 1 ≤ D) :
    (hops m k).Tilt P (slope m β D) (β * D) (bounded m k β E) where
  list := bounded_list β E
  nonneg n := by
    unfold slope
    split
    · rename_i h
      exact mul_nonneg hβ (by linarith [le_min (one_le_size_root h) hD])
    · exact le_refl _
  le n := by
    unfold slope
    split
    · exact mul_le_mul_of_nonneg_left (by linarith [min_le_right (root m n) D]) hβ
    · exact mul_nonneg hβ (by linarith)
  base := by
    show slope m β D 0 = 0
    unfold slope
    rw [if_pos conceivable_zero, root_zero, min_eq_left hD]; simp
  pos p hp := by
    obtain ⟨g, hg, e, -⟩ := bounded_weight hp
    rw [e]; positivity
  step p hp n hn hn' := by
    obtain ⟨g, hg, e, hw⟩ := bounded_weight hp
    have hμ : p.1 ∈ (hops m k).moves := by
      rw [← bounded_list (m := m) (k := k) β E]; exact List.mem_map_of_mem hp
    have c1 := hP _ hn
    have c2 := hP _ hn'
    have r1 := one_le_size_root c1
    have r2 := one_le_size_root c2
    have h1 := root_step hnear hμ c1 c2
    have h2 : ‖p.1.2 n‖ ≤ g * (root m n + root m (p.1.1 n)) :=
      (hw n c1).trans (mul_le_mul_of_nonneg_left (by linarith [count_le_root (m := m) (n := n)]) hg)
    set r := root m n + root m (p.1.1 n) with hr
    set d := |root m n - root m (p.1.1 n)| with hd
    have hd0 : 0 ≤ d := abs_nonneg _
    have hd1 : d ≤ 3 / 2 := by nlinarith
    have h3 : |slope m β D n - slope m β D (p.1.1 n)| ≤ β * d := by
      unfold slope
      rw [if_pos c1, if_pos c2, ← mul_sub, abs_mul, abs_of_nonneg hβ]
      refine mul_le_mul_of_nonneg_left ?_ hβ
      rw [sub_sub_sub_cancel_right]
      exact min_sub_le _ _ _
    rw [Real.abs_sinh]
    have h4 : Real.sinh |slope m β D n - slope m β D (p.1.1 n)| ≤ 13 / 10 * (β * d) := by
      refine (Real.sinh_le_sinh.2 h3).trans (sinh_le (by positivity) ?_)
      nlinarith
    rw [e]
    calc ‖p.1.2 n‖ * Real.sinh |slope m β D n - slope m β D (p.1.1 n)|
        ≤ g * r * (13 / 10 * (β * d)) :=
          mul_le_mul h2 h4 (Real.sinh_nonneg_iff.2 (abs_nonneg _)) (by nlinarith)
      _ = g * β * (13 / 10) * (d * r) := by ring
      _ ≤ g * β * (13 / 10) * 3 := by gcongr
      _ ≤ 4 * β * g := by nlinarith [mul_nonneg hg hβ]

/-! ### what the limits leave out is large -/

theorem excluded_large (hn : Conceivable m n) (hs : m'.nTypes = m.nTypes) {B : ℤ} (hB : LimitsAtLeast B m' ae)
    (hx : ¬ Allowed m' ae n) : (B : ℝ) / 2 ≤ size m n := by
  by_contra hc
  push Not at hc
  have hc0 := hn.count_nonneg
  have hc0' : (0 : ℝ) ≤ phononCount m n := by exact_mod_cast hc0
  have h1 : phononCount m n ≤ B := by
    have : (phononCount m n : ℝ) ≤ B := by
      unfold size at hc
      have : (0 : ℝ) ≤ far n := Nat.cast_nonneg _
      linarith
    exact_mod_cast this
  have h2 : 2 * (far n : ℤ) + 1 ≤ B := by
    have : 2 * (far n : ℝ) < B := by
      unfold size at hc
      linarith
    have : 2 * (far n : ℤ) < B := by exact_mod_cast this
    omega
  have hw : ∀ t x t' y, n t x ≠ 0 → n t' y ≠ 0 → y - x + 1 ≤ B := fun t x t' y q1 q2 => by
    have a1 := le_far hn q1
    have a2 := le_far hn q2
    omega
  exact hx ⟨hn.nonneg, fun t x q => hs ▸ hn.types t x q,
    fun c hc t x => ((hn.le_total t x).trans (hn.total_le t)).trans (h1.trans (hB.cap c hc)),
    fun t x t' y q1 q2 => (hw t x t' y q1 q2).trans hB.window,
    fun t M hM x y q1 q2 => (hw t x t y q1 q2).trans (hB.extent M (List.mem_of_getElem? hM)),
    fun t N hN => (hn.total_le t).trans (h1.trans (hB.number N (List.mem_of_getElem? hN)))⟩

theorem border_arith {g l τ τ' q β : ℝ} (hβ : 0 < β) (hβ' : β ≤ 1 / 5) (hg : 0 ≤ g) (hl : l ≤ τ) (hq : q ≤ τ)
    (hd : |τ - τ'| ≤ 3 / 2) :
    g * l ≤ g * (1 / β * Real.exp (-(β * q))) * Real.exp (β * (τ - 1)) * Real.exp (β * (τ' - 1)) := by
  have h3 : τ ≤ 1 / β * Real.exp (β * τ - 1) := by
    have := Real.add_one_le_exp (β * τ - 1)
    rw [sub_add_cancel] at this
    rw [one_div_mul_eq_div, le_div_iff₀ hβ]
    linarith
  have h4 : Real.exp (β * τ - 1) ≤ Real.exp (-(β * q)) * Real.exp (β * (τ - 1)) * Real.exp (β * (τ' - 1)) := by
    rw [← Real.exp_add, ← Real.exp_add, Real.exp_le_exp]
    have := (abs_le.1 hd).2
    nlinarith
  have h5 : (0 : ℝ) ≤ 1 / β := by positivity
  calc g * l ≤ g * (1 / β * (Real.exp (-(β * q)) * Real.exp (β * (τ - 1)) * Real.exp (β * (τ' - 1)))) :=
        mul_le_mul_of_nonneg_left ((hl.trans h3).trans (mul_le_mul_of_nonneg_left h4 h5)) hg
    _ = _ := by ring

theorem root_step_jump (hnear : Near m) {h : SingleTerm ℝ} (hh : h ∈ m.ham.terms) (c1 : Conceivable m n)
    (c2 : Conceivable m (jump h n)) :
    |root m n - root m (jump h n)| * (root m n + root m (jump h n)) ≤ 3 :=
  root_step (k := 0) (μ := (jumpE h, termWeight m 0 h)) hnear
    (List.mem_cons_of_mem _ (List.mem_cons_of_mem _ (List.mem_map_of_mem hh))) c1 c2

theorem slope_border_term (hnear : Near m) {h : SingleTerm ℝ} (hh : h ∈ m.ham.terms) {β D q : ℝ} (hβ : 0 < β)
    (hβ' : β ≤ 1 / 5) (c1 : Conceivable m n) (c2 : Conceivable m (jump h n)) (hq : q ≤ root m n) (hqD : q ≤ D)
    (hcount : √((phononCount m n : ℝ) + 1) ≤ D) :
    |h.coupling| * ladder h n ≤ |h.coupling| * (1 / β * Real.exp (-(β * q))) *
      Real.exp (β * (min (root m n) D - 1)) * Real.exp (β * (min (root m (jump h n)) D - 1)) := by
  have h1 := root_step_jump hnear hh c1 c2
  have r1 := one_le_size_root c1
  have r2 := one_le_size_root c2
  have hd : |min (root m n) D - min (root m (jump h n)) D| ≤ 3 / 2 := by
    refine (min_sub_le _ _ _).trans ?_
    nlinarith [abs_nonneg (root m n - root m (jump h n))]
  exact border_arith hβ hβ' (abs_nonneg _)
    ((ladder_le_root c1 h).trans (le_min (count_le_root (m := m) (n := n)) hcount)) (le_min hq hqD) hd

theorem slope_of (hn : Conceivable m n) (β D : ℝ) : slope m β D n = β * (min (root m n) D - 1) := by
  unfold slope; rw [if_pos hn]

theorem slope_border (hnear : Near m) (hs : m'.nTypes = m.nTypes) {B : ℤ} (hB : LimitsAtLeast B m' ae) {β D b : ℝ}
    (hβ : 0 < β) (hβ' : β ≤ 1 / 5) (hDb : √(b + 1) ≤ D) (hDB : √((B : ℝ) / 2) ≤ D)
    (p : ((Occ ≃ Occ) × (Occ → ℂ)) × ℝ × ℝ)
    (hp : p ∈ bounded m k β (1 / β * Real.exp (-(β * √((B : ℝ) / 2))))) (n : Occ) (hn : (hops m k).upto b n)
    (hx : ¬ Allowed m' ae n) (hy : Allowed m' ae (p.1.1 n)) :
    ‖p.1.2 n‖ ≤ p.2.2 * Real.exp (slope m β D n) * Real.exp (slope m β D (p.1.1 n)) := by
  have c1 : Conceivable m n := hn.1
  have c2 : Conceivable m (p.1.1 n) := by
    have := Allowed.conceivable hy
    exact ⟨this.nonneg, fun t x q => hs ▸ this.types t x q, this.finite⟩
  have hq : √((B : ℝ) / 2) ≤ root m n :=
    Real.sqrt_le_sqrt (by linarith [excluded_large c1 hs hB hx])
  have hcount : √((phononCount m n : ℝ) + 1) ≤ D := by
    refine (Real.sqrt_le_sqrt ?_).trans hDb
    have : ((phononCount m n : ℤ) : ℝ) ≤ b := hn.2
    linarith
  rw [slope_of c1, slope_of c2]
  rcases List.mem_cons.1 hp with rfl | hp
  · exact absurd ((allowed_shift (s := 1)).1 hy) hx
  rcases List.mem_cons.1 hp with rfl | hp
  · exact absurd ((allowed_shift (s := -1)).1 hy) hx
  obtain ⟨h, hh, rfl⟩ := List.mem_map.1 hp
  refine (termWeight_norm h n).le.trans ?_
  exact slope_border_term hnear hh hβ hβ' c1 c2 hq hDB hcount

/-- The resolvent on the allowed occupations is close to the one on all occupations with at most `b` phonons. -/
theorem truncation_close (hs : Props.ShiftsOk m c) (hadj : (m.ham.terms.map adjoint).Perm m.ham.terms) (hnear : Near m)
    (hsame : SameSystem m m') (hm' : ListsOk m') (h0 : Allowed m' ae 0) {B : ℤ} (hB : LimitsAtLeast B m' ae) {b : ℝ}
    (hb : ((m'.nTypes * numBound m' : ℤ) : ℝ) ≤ b) {z : ℂ} (hz : 0 < |z.im|)
    {β : ℝ} (hr : Rate m |z.im| β) {v : States} (hv : ∀ n, n ≠ 0 → v n = 0) (hv1 : ‖v‖ = 1) :
    ‖⟪v, resolvent ((hops m k).op ((hops m k).upto b)) z v⟫_ℂ -
      ⟪v, resolvent ((hops m k).op (Allowed m' ae)) z v⟫_ℂ‖ ≤ errorBar m |z.im| β B := by
  have hQ := hops_ok (k := k) hs hadj
  have hsub := hops_sub (k := k) hm' h0
  rw [hops_same hsame] at hsub
  have hb0 : 0 ≤ b := (hsub.pos hQ).trans hb
  have hup := Hops.upto_sub hQ hb0
  set η := |z.im| with hη
  have hβ := hr.pos
  have hβ5 := hr.le
  have hβη : 4 * β * (2 * |m.ham.hopping| + totalCoupling m) ≤ η / 2 := by linarith [hr.slow]
  set D := max 1 (max √(b + 1) √((B : ℝ) / 2)) with hD
  have hT := slope_tilt (k := k) hnear (P := (hops m k).upto b) (fun n hn => hn.1) (D := D)
    (E := 1 / β * Real.exp (-(β * √((B : ℝ) / 2)))) hβ.le hβ5 (le_max_left _ _)
  have hK := bounded_first (m := m) (k := k) β (1 / β * Real.exp (-(β * √((B : ℝ) / 2))))
  have hS := bounded_second (m := m) (k := k) β (1 / β * Real.exp (-(β * √((B : ℝ) / 2))))
  have h1 := Hops.green_close hQ hsub hup (fun n hn => ⟨hsub.sub n hn, (hsub.bound n hn).trans hb⟩) hT
    (z := z) (by rw [hK]; linarith) hv hv1
    (by
      intro p hp
      rcases List.mem_cons.1 hp with rfl | hp
      · exact le_refl _
      rcases List.mem_cons.1 hp with rfl | hp
      · exact le_refl _
      obtain ⟨h, -, rfl⟩ := List.mem_map.1 hp
      positivity)
    (slope_border hnear hsame.types hB hβ hβ5
      ((le_max_left _ _).trans (le_max_right _ _)) ((le_max_right _ _).trans (le_max_right _ _)))
  rw [hK, hS] at h1
  refine h1.trans ?_
  have hΓ : 0 ≤ totalCoupling m := list_sum_nonneg _
  have h2 : η / 2 ≤ η - 4 * β * (2 * |m.ham.hopping| + totalCoupling m) := by linarith
  have h3 : (η / 2) ^ 2 ≤ (η - 4 * β * (2 * |m.ham.hopping| + totalCoupling m)) ^ 2 :=
    pow_le_pow_left₀ (by positivity) h2 2
  refine (div_le_div_of_nonneg_left (by positivity) (by positivity) h3).trans (le_of_eq ?_)
  unfold errorBar
  field_simp
  ring

end GGCE
