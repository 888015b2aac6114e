import Verif.Proofs.ErrorBar
import Verif.Proofs.Residual
import Verif.Spec.Spread

/-!
The distance of the farthest phonon from the electron changes by at most two in a move. It is the function `φ` of
`Decay.lean` when the numbers of phonons are limited.
-/

set_option linter.unusedSectionVars false

namespace GGCE
open Spec Complex ComplexConjugate
open scoped InnerProductSpace

variable {m m' : Model ℝ} {ae : ℤ} {k : ℝ} {c : ℤ} {n : Occ}

/-! ### admitted occupations -/

/-- the model with all extents equal to `B` -/
def wide (m : Model ℝ) (B : ℤ) : Model ℝ := { m with extent := List.replicate m.nTypes B }

theorem wide_lists (hm : ListsOk m) (B : ℤ) : ListsOk (wide m B) := ⟨by simp [wide], hm.num⟩

theorem Spec.Admitted.wide (h : Admitted m n) {B : ℤ} (hB : 2 * (far n : ℤ) + 1 ≤ B) : Allowed (wide m B) B n := by
  have hw : ∀ t x t' y, n t x ≠ 0 → n t' y ≠ 0 → y - x + 1 ≤ B := fun t x t' y q1 q2 => by
    have a1 := le_far h.toConceivable q1
    have a2 := le_far h.toConceivable q2
    omega
  refine ⟨h.nonneg, h.types, h.cap, hw, fun t M hM x y => ?_, h.number⟩
  have : M = B := List.eq_of_mem_replicate (List.mem_of_getElem? hM)
  rw [this]
  exact hw t x t y

theorem admitted_same (h : SameNumbers m m') : Admitted m' n ↔ Admitted m n := by
  constructor <;> intro ⟨⟨a1, a2, a3⟩, a4, a5⟩
  · exact ⟨⟨a1, h.types ▸ a2, a3⟩, h.cap ▸ a4, h.number ▸ a5⟩
  · exact ⟨⟨a1, h.types.symm ▸ a2, a3⟩, h.cap.symm ▸ a4, h.number.symm ▸ a5⟩

theorem Spec.Allowed.admitted (h : Allowed m ae n) : Admitted m n := ⟨h.conceivable, h.cap, h.number⟩

theorem Spec.Admitted.shift (h : Admitted m n) (s : ℤ) : Admitted m (n.shift s) := by
  have := (allowed_shift (s := s)).2 (h.wide (le_refl _))
  exact ⟨h.toConceivable.shift s, this.cap, this.number⟩

theorem Spec.Admitted.count_le (hm : ListsOk m) (h : Admitted m n) : phononCount m n ≤ m.nTypes * numBound m :=
  Spec.Allowed.count_le (m := GGCE.wide m _) (wide_lists hm _) (h.wide (le_refl _))

/-- a transition between admitted occupations involves at most `N` phonons -/
theorem ladder_le_admitted (hm : ListsOk m) {h : SingleTerm ℝ} (hi : h.phononIndex < m.nTypes)
    (hn : Admitted m n) (hj : Admitted m (jump h n)) : ladder h n ≤ √(maxNumber m h.phononIndex) :=
  ladder_le_max (wide_lists hm _) (m := wide m (max (2 * (far n : ℤ) + 1) (2 * (far (jump h n) : ℤ) + 1))) hi
    (hn.wide (le_max_left _ _)) (hj.wide (le_max_right _ _))

theorem spread_sub (hm : ListsOk m) (h0 : Admitted m 0) :
    (hops m k).Sub (Admitted m) (m.nTypes * numBound m : ℤ) :=
  ⟨fun _ h => h.toConceivable, h0, fun n h => by
    show ((phononCount m n : ℤ) : ℝ) ≤ _
    exact_mod_cast h.count_le hm⟩

theorem hops_act_spread (f : Occ → ℂ) {n : Occ} (hn : Admitted m n) :
    (hops m k).act (Admitted m) f n = frameSpread m k f n := by
  unfold Hops.act Hops.diagIn Hops.inside hops frameSpread
  rw [if_pos hn]
  simp only [List.map_cons, List.sum_cons, List.map_map]
  rw [if_pos ⟨hn, hn.shift 1⟩, if_pos ⟨hn, hn.shift (-1)⟩]
  have e1 : (m.ham.terms.map ((fun μ : (Occ ≃ Occ) × (Occ → ℂ) =>
        (open Classical in if Admitted m n ∧ Admitted m (μ.1 n) then μ.2 n else 0) * f (μ.1 n)) ∘
        fun h => (jumpE h, termWeight m k h))).sum =
      (m.ham.terms.map (fun h : SingleTerm ℝ => (h.coupling : ℂ) * (ladder h n : ℂ) *
      exp (-(I * (k * m.latticeConstant * electronSite h 0))) *
      open Classical in if Admitted m (jump h n) then f (jump h n) else 0)).sum := by
    congr 1
    apply List.map_congr_left
    intro h _
    simp only [Function.comp]
    show (open Classical in if Admitted m n ∧ Admitted m (jump h n) then termWeight m k h n else 0) * f (jump h n) = _
    by_cases hj : Admitted m (jump h n)
    · rw [if_pos ⟨hn, hj⟩, if_pos hj]; rfl
    · rw [if_neg (fun q => hj q.2), if_neg hj, zero_mul, mul_zero]
  rw [e1]
  unfold hopWeight
  show _ + (_ * f (n.shift 1) + (_ * f (n.shift (-1)) + _)) = _
  push_cast
  rw [show I * (-(k : ℂ) * m.latticeConstant) = -(I * (k * m.latticeConstant)) by ring]
  ring

theorem hops_act_outside {P : Occ → Prop} (f : Occ → ℂ) {n : Occ} (hn : ¬ P n) : (hops m k).act P f n = 0 := by
  unfold Hops.act Hops.diagIn Hops.inside
  rw [if_neg hn, zero_mul, zero_add]
  refine List.sum_eq_zero (fun x hx => ?_)
  obtain ⟨μ, -, rfl⟩ := List.mem_map.1 hx
  rw [if_neg (fun q => hn q.1), zero_mul]

open Classical in
theorem bare_at (n : Occ) : (bare : States) n = if n = 0 then 1 else 0 := by
  by_cases h : n = 0
  · subst h; rw [if_pos rfl]; simp [bare]
  · rw [if_neg h]; simp [bare, h]

/-- the solution is the resolvent -/
theorem spread_iff (hs : Props.ShiftsOk m c) (hadj : (m.ham.terms.map adjoint).Perm m.ham.terms) (hm : ListsOk m)
    (h0 : Admitted m 0) {w eta : ℝ} (heta : 0 < eta) (u : States) :
    Spread m k w eta u ↔ u = resolvent ((hops m k).op (Admitted m)) (energyAt w eta) bare := by
  have hQ := hops_ok (k := k) hs hadj
  have hsub := spread_sub (k := k) hm h0
  have hz : (energyAt w eta).im ≠ 0 := by simpa [energyAt] using heta.ne'
  have hsa := Hops.op_selfAdjoint hQ hsub
  have hr := mem_resolventSet_of_im hsa hz
  have hz0 : energyAt w eta ≠ 0 := fun h => hz (by rw [h]; rfl)
  have key : Spread m k w eta u ↔ energyAt w eta • u - (hops m k).op (Admitted m) u = bare := by
    constructor
    · intro h
      ext n
      show energyAt w eta * u n - (hops m k).op (Admitted m) u n = bare n
      rw [Hops.op_apply hQ hsub, bare_at]
      by_cases hn : Admitted m n
      · rw [hops_act_spread _ hn]; exact h.motion n hn
      · rw [hops_act_outside _ hn, h.outside n hn, mul_zero, sub_zero, if_neg (fun q : n = 0 => hn (q ▸ h0))]
    · intro h
      have h' : ∀ n, energyAt w eta * u n - (hops m k).op (Admitted m) u n = bare n := fun n => by rw [← h]; rfl
      constructor
      · intro n hn
        have := h' n
        rw [Hops.op_apply hQ hsub, hops_act_outside _ hn, bare_at, if_neg (fun q : n = 0 => hn (q ▸ h0)), sub_zero] at this
        exact (mul_eq_zero.1 this).resolve_left hz0
      · intro n hn
        have := h' n
        rwa [Hops.op_apply hQ hsub, hops_act_spread _ hn, bare_at] at this
  rw [key]
  exact ⟨fun h => resolvent_unique hr h, fun h => by rw [h]; exact resolvent_apply hr bare⟩

/-! ### the function of `Decay.lean` -/

open Classical in
/-- `α min (far n) D`, and 0 for what is not an occupation -/
noncomputable def reach (m : Model ℝ) (α D : ℝ) (n : Occ) : ℝ :=
  if Conceivable m n then α * min (far n : ℝ) D else 0

theorem reach_of (hn : Conceivable m n) (α D : ℝ) : reach m α D n = α * min (far n : ℝ) D := by
  unfold reach; rw [if_pos hn]

/-- the moves, with the bounds for the change of `reach` and for the entries at the border -/
noncomputable def reached (m : Model ℝ) (k α E : ℝ) : List (((Occ ≃ Occ) × (Occ → ℂ)) × ℝ × ℝ) :=
  ((shiftE 1, fun _ => hopWeight m k), 3 * α * |m.ham.hopping|, 0) ::
    ((shiftE (-1), fun _ => hopWeight m (-k)), 3 * α * |m.ham.hopping|, 0) ::
    m.ham.terms.map (fun h => ((jumpE h, termWeight m k h), 3 * α * (|h.coupling| * √(maxNumber m h.phononIndex)),
      E * (|h.coupling| * √(maxNumber m h.phononIndex))))

theorem reached_list (α E : ℝ) : (reached m k α E).map (·.1) = (hops m k).moves := by
  unfold reached hops
  simp only [List.map_cons, List.map_map]
  rfl

theorem list_const_sum {ι : Type} (l : List ι) (f : ι → ℝ) (a : ℝ) :
    (l.map (fun h => a * f h)).sum = a * (l.map f).sum := by
  induction l with
  | nil => simp
  | cons x l ih => simp only [List.map_cons, List.sum_cons, ih]; ring

theorem reached_first (α E : ℝ) :
    ((reached m k α E).map (·.2.1)).sum = 3 * α * (2 * |m.ham.hopping| + interaction m) := by
  unfold reached interaction
  simp only [List.map_cons, List.map_map, List.sum_cons]
  rw [show ((fun p : ((Occ ≃ Occ) × (Occ → ℂ)) × ℝ × ℝ => p.2.1) ∘ fun h : SingleTerm ℝ =>
    ((jumpE h, termWeight m k h), 3 * α * (|h.coupling| * √(maxNumber m h.phononIndex)),
      E * (|h.coupling| * √(maxNumber m h.phononIndex)))) =
      fun h => 3 * α * (|h.coupling| * √(maxNumber m h.phononIndex)) from rfl, list_const_sum]
  ring

theorem reached_second (α E : ℝ) : ((reached m k α E).map (·.2.2)).sum = E * interaction m := by
  unfold reached interaction
  simp only [List.map_cons, List.map_map, List.sum_cons]
  rw [show ((fun p : ((Occ ≃ Occ) × (Occ → ℂ)) × ℝ × ℝ => p.2.2) ∘ fun h : SingleTerm ℝ =>
    ((jumpE h, termWeight m k h), 3 * α * (|h.coupling| * √(maxNumber m h.phononIndex)),
      E * (|h.coupling| * √(maxNumber m h.phononIndex)))) =
      fun h => E * (|h.coupling| * √(maxNumber m h.phononIndex)) from rfl, list_const_sum]
  ring

theorem reach_step {n' : Occ} (h : Conceivable m n) (h' : Conceivable m n') {α D : ℝ} (hα : 0 ≤ α) {s : ℕ}
    (h1 : far n' ≤ far n + s) (h2 : far n ≤ far n' + s) : |reach m α D n - reach m α D n'| ≤ α * s := by
  rw [reach_of h, reach_of h', ← mul_sub, abs_mul, abs_of_nonneg hα]
  refine mul_le_mul_of_nonneg_left ((min_sub_le _ _ _).trans ?_) hα
  have a1 : (far n' : ℝ) ≤ far n + s := by exact_mod_cast h1
  have a2 : (far n : ℝ) ≤ far n' + s := by exact_mod_cast h2
  rw [abs_le]
  constructor <;> linarith

theorem reach_move {n' : Occ} (h : Conceivable m n) (h' : Conceivable m n') {α D : ℝ} (hα : 0 ≤ α) (hα' : α ≤ 3 / 20)
    (h1 : far n' ≤ far n + 2) (h2 : far n ≤ far n' + 2) : |Real.sinh (reach m α D n - reach m α D n')| ≤ 3 * α := by
  have h3 := reach_step h h' (D := D) hα h1 h2
  push_cast at h3
  rw [Real.abs_sinh]
  refine (Real.sinh_le_sinh.2 h3).trans ((sinh_le (by positivity) (by linarith)).trans (by linarith))

theorem reach_tilt (hnear : Near m) (hm : ListsOk m) (hi : ∀ h ∈ m.ham.terms, h.phononIndex < m.nTypes)
    {α D E : ℝ} (hα : 0 ≤ α) (hα' : α ≤ 3 / 20) (hD : 0 ≤ D) :
    (hops m k).Tilt (Admitted m) (reach m α D) (α * D) (reached m k α E) where
  list := reached_list α E
  nonneg n := by
    unfold reach
    split
    · exact mul_nonneg hα (le_min (Nat.cast_nonneg _) hD)
    · exact le_refl _
  le n := by
    unfold reach
    split
    · exact mul_le_mul_of_nonneg_left (min_le_right _ _) hα
    · exact mul_nonneg hα hD
  base := by
    show reach m α D 0 = 0
    rw [reach_of conceivable_zero, far_zero, Nat.cast_zero, min_eq_left hD, mul_zero]
  pos p hp := by
    rcases List.mem_cons.1 hp with rfl | hp
    · positivity
    rcases List.mem_cons.1 hp with rfl | hp
    · positivity
    obtain ⟨h, -, rfl⟩ := List.mem_map.1 hp
    positivity
  step p hp n hn hn' := by
    have c1 := hn.toConceivable
    have c2 := hn'.toConceivable
    have hop : ∀ (k' : ℝ) (s : ℤ), s.natAbs ≤ 1 →
        ‖hopWeight m k'‖ * |Real.sinh (reach m α D n - reach m α D (n.shift s))| ≤ 3 * α * |m.ham.hopping| :=
      fun k' s hs => by
        have h1 := far_shift_le c1 s
        have h2 := far_shift c1 s
        have := reach_move (D := D) c1 (c1.shift s) hα hα' (by omega) (by omega)
        rw [hopWeight_norm, mul_comm (3 * α)]
        exact mul_le_mul_of_nonneg_left this (abs_nonneg _)
    rcases List.mem_cons.1 hp with rfl | hp
    · exact hop k 1 (by simp)
    rcases List.mem_cons.1 hp with rfl | hp
    · exact hop (-k) (-1) (by simp)
    obtain ⟨h, hh, rfl⟩ := List.mem_map.1 hp
    have hj : Admitted m (jump h n) := hn'
    have h1 := far_jump_le c1 hj.toConceivable (hnear h hh).1 (hnear h hh).2
    have h2 := far_jump_ge (m := m) hj.toConceivable (hnear h hh).1 (hnear h hh).2
    have h3 := reach_move (D := D) c1 hj.toConceivable hα hα' h1 h2
    show ‖termWeight m k h n‖ * |Real.sinh (reach m α D n - reach m α D (jump h n))| ≤ _
    rw [termWeight_norm, mul_comm (3 * α)]
    exact mul_le_mul (mul_le_mul_of_nonneg_left (ladder_le_admitted hm (hi h hh) hn hj) (abs_nonneg _)) h3
      (abs_nonneg _) (by positivity)

/-! ### what the extents leave out is far away -/

theorem excluded_far (hn : Admitted m n) (hs : SameNumbers m m') {B : ℤ} (hB : ExtentsAtLeast B m' ae)
    (hx : ¬ Allowed m' ae n) : B ≤ 2 * (far n : ℤ) := by
  by_contra hc
  push Not at hc
  have hn' := (admitted_same hs).2 hn
  have hw : ∀ t x t' y, n t x ≠ 0 → n t' y ≠ 0 → y - x + 1 ≤ B := fun t x t' y q1 q2 => by
    have a1 := le_far hn.toConceivable q1
    have a2 := le_far hn.toConceivable q2
    omega
  exact hx ⟨hn'.nonneg, hn'.types, hn'.cap, fun t x t' y q1 q2 => (hw t x t' y q1 q2).trans hB.window,
    fun t M hM x y q1 q2 => (hw t x t y q1 q2).trans (hB.extent M (List.mem_of_getElem? hM)), hn'.number⟩

theorem reach_border (hnear : Near m) (hm : ListsOk m) (hi : ∀ h ∈ m.ham.terms, h.phononIndex < m.nTypes)
    (hs : SameNumbers m m') {B : ℤ} (hB : ExtentsAtLeast B m' ae) {α D : ℝ} (hα : 0 ≤ α) (hD : (B : ℝ) / 2 ≤ D)
    (p : ((Occ ≃ Occ) × (Occ → ℂ)) × ℝ × ℝ) (hp : p ∈ reached m k α (Real.exp (-(α * ((B : ℝ) - 2))))) (n : Occ)
    (hn : Admitted m n) (hx : ¬ Allowed m' ae n) (hy : Allowed m' ae (p.1.1 n)) :
    ‖p.1.2 n‖ ≤ p.2.2 * Real.exp (reach m α D n) * Real.exp (reach m α D (p.1.1 n)) := by
  rcases List.mem_cons.1 hp with rfl | hp
  · exact absurd ((allowed_shift (s := 1)).1 hy) hx
  rcases List.mem_cons.1 hp with rfl | hp
  · exact absurd ((allowed_shift (s := -1)).1 hy) hx
  obtain ⟨h, hh, rfl⟩ := List.mem_map.1 hp
  have hj : Admitted m (jump h n) := (admitted_same hs).1 (Allowed.admitted hy)
  have h1 := far_jump_le hn.toConceivable hj.toConceivable (hnear h hh).1 (hnear h hh).2
  have h2 := far_jump_ge (m := m) hj.toConceivable (hnear h hh).1 (hnear h hh).2
  have h3 := (abs_le.1 (reach_step (D := D) hn.toConceivable hj.toConceivable hα h1 h2)).2
  push_cast at h3
  have h4 : α * ((B : ℝ) / 2) ≤ reach m α D n := by
    rw [reach_of hn.toConceivable]
    refine mul_le_mul_of_nonneg_left (le_min ?_ hD) hα
    have : ((B : ℤ) : ℝ) ≤ 2 * (far n : ℝ) := by exact_mod_cast excluded_far hn hs hB hx
    linarith
  show ‖termWeight m k h n‖ ≤ Real.exp (-(α * ((B : ℝ) - 2))) * (|h.coupling| * √(maxNumber m h.phononIndex)) *
    Real.exp (reach m α D n) * Real.exp (reach m α D (jump h n))
  rw [termWeight_norm]
  have h5 : 1 ≤ Real.exp (-(α * ((B : ℝ) - 2))) * Real.exp (reach m α D n) * Real.exp (reach m α D (jump h n)) := by
    rw [← Real.exp_add, ← Real.exp_add, Real.one_le_exp_iff]
    linarith
  have h6 : |h.coupling| * ladder h n ≤ |h.coupling| * √(maxNumber m h.phononIndex) :=
    mul_le_mul_of_nonneg_left (ladder_le_admitted hm (hi h hh) hn hj) (abs_nonneg _)
  have h7 : 0 ≤ |h.coupling| * √(maxNumber m h.phononIndex) := by positivity
  nlinarith

/-- The resolvent on the allowed occupations is close to the one on all admitted occupations. -/
theorem extents_close (hs : Props.ShiftsOk m c) (hadj : (m.ham.terms.map adjoint).Perm m.ham.terms) (hnear : Near m)
    (hm : ListsOk m) (hi : ∀ h ∈ m.ham.terms, h.phononIndex < m.nTypes)
    (hsame : SameNumbers m m') (hm' : ListsOk m') (h0 : Allowed m' ae 0) {B : ℤ} (hB : ExtentsAtLeast B m' ae)
    {z : ℂ} (hz : 0 < |z.im|) {α : ℝ} (hr : SiteRate m |z.im| α) {v : States} (hv : ∀ n, n ≠ 0 → v n = 0)
    (hv1 : ‖v‖ = 1) :
    ‖⟪v, resolvent ((hops m k).op (Admitted m)) z v⟫_ℂ -
      ⟪v, resolvent ((hops m k).op (Allowed m' ae)) z v⟫_ℂ‖ ≤ extentBar m |z.im| α B := by
  have hQ := hops_ok (k := k) hs hadj
  have hsub := hops_sub (k := k) hm' h0
  rw [hops_same hsame.toSameSystem] at hsub
  have hup := spread_sub (k := k) hm ((admitted_same hsame).1 h0.admitted)
  set η := |z.im| with hη
  have hα := hr.pos
  have hαη : 3 * α * (2 * |m.ham.hopping| + interaction m) ≤ η / 2 := by linarith [hr.slow]
  have hT := reach_tilt (k := k) hnear hm hi (D := max 0 ((B : ℝ) / 2)) (E := Real.exp (-(α * ((B : ℝ) - 2)))) hα.le
    hr.le (le_max_left _ _)
  have hK := reached_first (m := m) (k := k) α (Real.exp (-(α * ((B : ℝ) - 2))))
  have hS := reached_second (m := m) (k := k) α (Real.exp (-(α * ((B : ℝ) - 2))))
  have h1 := Hops.green_close hQ hsub hup (fun n hn => (admitted_same hsame).1 hn.admitted) hT
    (z := z) (by rw [hK]; linarith) hv hv1
    (by
      intro p hp
      rcases List.mem_cons.1 hp with rfl | hp
      · exact le_refl _
      rcases List.mem_cons.1 hp with rfl | hp
      · exact le_refl _
      obtain ⟨h, -, rfl⟩ := List.mem_map.1 hp
      positivity)
    (reach_border hnear hm hi hsame hB hα.le (le_max_right _ _))
  rw [hK, hS] at h1
  refine h1.trans ?_
  have hV := interaction_nonneg m
  have h2 : η / 2 ≤ η - 3 * α * (2 * |m.ham.hopping| + interaction m) := by linarith
  have h3 : (η / 2) ^ 2 ≤ (η - 3 * α * (2 * |m.ham.hopping| + interaction m)) ^ 2 :=
    pow_le_pow_left₀ (by positivity) h2 2
  refine (div_le_div_of_nonneg_left (by positivity) (by positivity) h3).trans (le_of_eq ?_)
  unfold extentBar
  field_simp
  ring

end GGCE
