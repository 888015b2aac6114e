import Verif.Spec.Operator
import Verif.Spec.WellFormed
import Verif.Proofs.Occ
import Verif.Proofs.Weighted
import Verif.Props.Symmetry

/-! The Hamiltonian in the frame of the electron is a bounded self-adjoint operator, and its resolvent solves
the equation of motion. -/

set_option linter.unusedSectionVars false

namespace GGCE
open Spec Complex ComplexConjugate
open scoped InnerProductSpace

variable {m : Model ℝ} {ae : ℤ} {k : ℝ} {c : ℤ}

/-! ### moving and acting -/

@[simp] theorem shift_zero (n : Occ) : n.shift 0 = n := by
  funext t x; show n t (x - 0) = n t x; rw [sub_zero]

@[simp] theorem shift_shift (n : Occ) (a b : ℤ) : (n.shift a).shift b = n.shift (a + b) := by
  funext t x; show n t (x - b - a) = n t (x - (a + b)); congr 1; ring

@[simp] theorem zero_shift (a : ℤ) : (0 : Occ).shift a = 0 := rfl

theorem act_shift (n : Occ) (d : Dag) (t : ℕ) (x s : ℤ) : (n.act d t x).shift s = (n.shift s).act d t (x + s) := by
  funext t' y
  show n t' (y - s) + (if t' = t ∧ y - s = x then Dag.delta d else 0) =
    n t' (y - s) + if t' = t ∧ y = x + s then Dag.delta d else 0
  congr 2
  exact propext ⟨fun h => ⟨h.1, by omega⟩, fun h => ⟨h.1, by omega⟩⟩

/-- the other ladder operator -/
def other : Dag → Dag
  | .plus => .minus
  | .minus => .plus

theorem act_other (n : Occ) (d : Dag) (t : ℕ) (x : ℤ) : (n.act d t x).act (other d) t x = n := by
  funext t' y
  show n t' y + (if t' = t ∧ y = x then Dag.delta d else 0) + (if t' = t ∧ y = x then Dag.delta (other d) else 0) = _
  cases d <;> by_cases h : t' = t ∧ y = x <;> simp [h, Dag.delta, other]

theorem act_other' (n : Occ) (d : Dag) (t : ℕ) (x : ℤ) : (n.act (other d) t x).act d t x = n := by
  have := act_other n (other d) t x
  cases d <;> exact this

theorem finsum_shift (n : Occ) (t : ℕ) (s : ℤ) : ∑ᶠ x, n.shift s t x = ∑ᶠ x, n t x :=
  finsum_comp_equiv (Equiv.subRight s) (f := fun x => n t x)

theorem Spec.Allowed.shift {n : Occ} (h : Allowed m ae n) (s : ℤ) : Allowed m ae (n.shift s) where
  nonneg t x := h.nonneg t _
  types t x := h.types t _
  cap c hc t x := h.cap c hc t _
  window t x t' y h1 h2 := by have := h.window t _ t' _ h1 h2; omega
  extent t M hM x y h1 h2 := by have := h.extent t M hM _ _ h1 h2; omega
  number t N hN := by rw [finsum_shift]; exact h.number t N hN

theorem allowed_shift {n : Occ} {s : ℤ} : Allowed m ae (n.shift s) ↔ Allowed m ae n := by
  constructor
  · intro h
    have := h.shift (-s)
    simpa using this
  · exact fun h => h.shift s

theorem energy_shift (n : Occ) (s : ℤ) : occEnergy m (n.shift s) = occEnergy m n := by
  unfold occEnergy
  simp only [finsum_shift]

theorem allowed_jump {h : SingleTerm ℝ} {n : Occ} :
    Allowed m ae (jump h n) ↔ Allowed m ae (n.act h.dag h.phononIndex (bosonSite h 0)) := allowed_shift

/-! ### bounds -/

theorem Spec.Allowed.finite {n : Occ} (h : Allowed m ae n) (t : ℕ) : (Function.support (n t)).Finite := by
  by_cases he : ∃ x, n t x ≠ 0
  · obtain ⟨x, hx⟩ := he
    refine (Set.finite_Icc (x - ae) (x + ae)).subset (fun y hy => ?_)
    have h1 := h.window t x t y hx hy
    have h2 := h.window t y t x hy hx
    rw [Set.mem_Icc]; omega
  · push Not at he
    convert Set.finite_empty
    ext x; simp [he x]

theorem Spec.Allowed.le_total {n : Occ} (h : Allowed m ae n) (t : ℕ) (x : ℤ) : n t x ≤ ∑ᶠ y, n t y :=
  single_le_finsum x (h.finite t) (h.nonneg t)

theorem Spec.Allowed.total_nonneg {n : Occ} (h : Allowed m ae n) (t : ℕ) : 0 ≤ ∑ᶠ y, n t y :=
  finsum_nonneg (h.nonneg t)

/-- a bound for the number of phonons of each type -/
def numBound (m : Model ℝ) : ℤ := m.number.foldr max 0

theorem numBound_nonneg (m : Model ℝ) : 0 ≤ numBound m := by
  unfold numBound
  induction m.number with
  | nil => exact le_refl _
  | cons x l ih => exact le_max_of_le_right ih

theorem le_numBound {N : ℤ} (h : N ∈ m.number) : N ≤ numBound m := by
  unfold numBound
  revert h
  induction m.number with
  | nil => intro h; simp at h
  | cons x l ih =>
    intro h
    rcases List.mem_cons.1 h with rfl | h
    · exact le_max_left _ _
    · exact le_max_of_le_right (ih h)

theorem Spec.Allowed.total_le {n : Occ} (hm : ListsOk m) (h : Allowed m ae n) (t : ℕ) : ∑ᶠ y, n t y ≤ numBound m := by
  by_cases ht : t < m.nTypes
  · have hl : t < m.number.length := by rw [hm.num]; exact ht
    exact (h.number t _ (List.getElem?_eq_getElem hl)).trans (le_numBound (List.getElem_mem hl))
  · have : ∀ x, n t x = 0 := fun x => by by_contra hc; exact ht (h.types t x hc)
    simp only [this, finsum_zero]
    exact numBound_nonneg m

/-- a bound for the phonon energy -/
noncomputable def energyBound (m : Model ℝ) : ℝ :=
  ∑ t ∈ Finset.range m.nTypes, |m.ham.freqs.getD t 0| * numBound m

theorem energyBound_nonneg (m : Model ℝ) : 0 ≤ energyBound m := by
  have := numBound_nonneg m
  exact Finset.sum_nonneg (fun t _ => mul_nonneg (abs_nonneg _) (by exact_mod_cast this))

theorem Spec.Allowed.energy_le {n : Occ} (hm : ListsOk m) (h : Allowed m ae n) : |occEnergy m n| ≤ energyBound m := by
  unfold occEnergy energyBound
  refine (Finset.abs_sum_le_sum_abs _ _).trans (Finset.sum_le_sum (fun t _ => ?_))
  rw [abs_mul, abs_of_nonneg (a := ((∑ᶠ x, n t x : ℤ) : ℝ)) (by exact_mod_cast h.total_nonneg t)]
  exact mul_le_mul_of_nonneg_left (by exact_mod_cast h.total_le hm t) (abs_nonneg _)

theorem ladder_nonneg (h : SingleTerm ℝ) (n : Occ) : 0 ≤ ladder h n := by
  unfold ladder; cases h.dag <;> exact Real.sqrt_nonneg _

theorem ladder_le (hm : ListsOk m) {n : Occ} (hn : Allowed m ae n) (h : SingleTerm ℝ) :
    ladder h n ≤ Real.sqrt (numBound m + 1) := by
  have h1 : ((n h.phononIndex (bosonSite h 0) : ℤ) : ℝ) ≤ numBound m := by
    exact_mod_cast (hn.le_total _ _).trans (hn.total_le hm _)
  unfold ladder
  cases h.dag <;> exact Real.sqrt_le_sqrt (by linarith)

/-! ### the operator -/

/-- moving the phonons, as a permutation -/
def shiftE (s : ℤ) : Occ ≃ Occ where
  toFun n := n.shift s
  invFun n := n.shift (-s)
  left_inv n := by simp
  right_inv n := by simp

/-- `jump` as a permutation -/
def jumpE (h : SingleTerm ℝ) : Occ ≃ Occ where
  toFun n := jump h n
  invFun n := (n.shift (electronSite h 0)).act (other h.dag) h.phononIndex (bosonSite h 0)
  left_inv n := by unfold jump; simp [act_other]
  right_inv n := by unfold jump; simp [act_other']

open Classical in
/-- weights of the three kinds of terms -/
noncomputable def wE (m : Model ℝ) (ae : ℤ) (n : Occ) : ℂ := if Allowed m ae n then (occEnergy m n : ℂ) else 0

open Classical in
@[inherit_doc wE]
noncomputable def wH (m : Model ℝ) (ae : ℤ) (k : ℝ) (n : Occ) : ℂ :=
  if Allowed m ae n then -(m.ham.hopping * exp (I * (k * m.latticeConstant))) else 0

open Classical in
@[inherit_doc wE]
noncomputable def wT (m : Model ℝ) (ae : ℤ) (k : ℝ) (h : SingleTerm ℝ) (n : Occ) : ℂ :=
  if Allowed m ae n ∧ Allowed m ae (jump h n) then
    (h.coupling : ℂ) * (ladder h n : ℂ) * exp (-(I * (k * m.latticeConstant * electronSite h 0)))
  else 0

theorem norm_phase (x : ℝ) : ‖exp (I * x)‖ = 1 := by rw [mul_comm]; exact Complex.norm_exp_ofReal_mul_I x

theorem norm_phase' (x : ℝ) : ‖exp (-(I * x))‖ = 1 := by
  have := norm_phase (-x)
  push_cast at this
  rwa [mul_neg] at this

theorem wE_bound (hm : ListsOk m) (n : Occ) : ‖wE m ae n‖ ≤ energyBound m := by
  unfold wE
  split
  · rename_i h
    rw [Complex.norm_real, Real.norm_eq_abs]; exact h.energy_le hm
  · rw [norm_zero]; exact energyBound_nonneg m

theorem wH_bound (k : ℝ) (n : Occ) : ‖wH m ae k n‖ ≤ |m.ham.hopping| := by
  unfold wH
  split
  · rw [norm_neg, norm_mul, Complex.norm_real, Real.norm_eq_abs]
    have := norm_phase (k * m.latticeConstant)
    push_cast at this
    rw [this, mul_one]
  · rw [norm_zero]; exact abs_nonneg _

theorem wT_bound (hm : ListsOk m) (h : SingleTerm ℝ) (n : Occ) :
    ‖wT m ae k h n‖ ≤ |h.coupling| * Real.sqrt (numBound m + 1) := by
  unfold wT
  split
  · rename_i hn
    have := norm_phase' (k * m.latticeConstant * electronSite h 0)
    push_cast at this
    rw [norm_mul, norm_mul, this, mul_one, Complex.norm_real, Complex.norm_real, Real.norm_eq_abs, Real.norm_eq_abs,
      abs_of_nonneg (ladder_nonneg h n)]
    exact mul_le_mul_of_nonneg_left (ladder_le hm hn.1 h) (abs_nonneg _)
  · rw [norm_zero]; positivity

/-- the Hamiltonian as an operator -/
noncomputable def hamOp (m : Model ℝ) (ae : ℤ) (k : ℝ) : L2 Occ →L[ℂ] L2 Occ :=
  wcomp (wE m ae) (Equiv.refl _) + (wcomp (wH m ae k) (shiftE 1) + wcomp (wH m ae (-k)) (shiftE (-1))) +
    (m.ham.terms.map (fun h => wcomp (wT m ae k h) (jumpE h))).sum

theorem coe_list_sum {α : Type} (l : List α) (A : α → L2 Occ →L[ℂ] L2 Occ) (f : L2 Occ) (n : Occ) :
    ((l.map A).sum f) n = (l.map (fun h => A h f n)).sum := by
  induction l with
  | nil => rfl
  | cons a l ih =>
    simp only [List.map_cons, List.sum_cons]
    rw [← ih]
    rfl

theorem hamOp_apply (hm : ListsOk m) (f : L2 Occ) (n : Occ) : hamOp m ae k f n = frame m ae k f n := by
  show wcomp (wE m ae) (Equiv.refl _) f n +
    (wcomp (wH m ae k) (shiftE 1) f n + wcomp (wH m ae (-k)) (shiftE (-1)) f n) +
    ((m.ham.terms.map (fun h => wcomp (wT m ae k h) (jumpE h))).sum f) n = _
  rw [coe_list_sum, wcomp_apply (wE_bound hm), wcomp_apply (wH_bound k), wcomp_apply (wH_bound (-k))]
  simp only [wcomp_apply (wT_bound hm _)]
  unfold frame
  by_cases hn : Allowed m ae n
  · rw [if_pos hn]
    congr 1
    · unfold wE wH
      rw [if_pos hn, if_pos hn, if_pos hn]
      show (occEnergy m n : ℂ) * f n + (_ * f (n.shift 1) + _ * f (n.shift (-1))) = _
      push_cast
      rw [show I * (-(k : ℂ) * m.latticeConstant) = -(I * (k * m.latticeConstant)) by ring]
      ring
    · congr 1
      apply List.map_congr_left
      intro h _
      unfold wT
      by_cases hj : Allowed m ae (jump h n)
      · rw [if_pos ⟨hn, hj⟩, if_pos hj]; rfl
      · rw [if_neg (fun q => hj q.2), if_neg hj, zero_mul, mul_zero]
  · rw [if_neg hn]
    unfold wE wH wT
    rw [if_neg hn, if_neg hn, if_neg hn]
    simp [hn]

/-! ### self-adjointness -/

theorem jump_adjoint {h : SingleTerm ℝ} (hp : h.psi.tw % 2 = 0) (n : Occ) : jump (adjoint h) (jump h n) = n := by
  have e1 : electronSite (adjoint h) 0 = -electronSite h 0 := by
    unfold electronSite adjoint; simp only; omega
  have e2 : bosonSite (adjoint h) 0 = bosonSite h 0 - electronSite h 0 := by
    unfold electronSite bosonSite adjoint; simp only; omega
  have e3 : (adjoint h).dag = other h.dag := by unfold adjoint other; cases h.dag <;> rfl
  have e4 : (adjoint h).phononIndex = h.phononIndex := rfl
  unfold jump
  rw [e1, e2, e3, e4, act_shift _ h.dag, act_shift, act_shift, shift_shift]
  have : (n.shift (-electronSite h 0 + - -electronSite h 0)) = n := by simp
  rw [this, show bosonSite h 0 + -electronSite h 0 + - -electronSite h 0 = bosonSite h 0 by ring,
    show bosonSite h 0 - electronSite h 0 + - -electronSite h 0 = bosonSite h 0 by ring, act_other]

theorem jump_value (h : SingleTerm ℝ) (hp : h.psi.tw % 2 = 0) (n : Occ) :
    jump h n h.phononIndex (bosonSite (adjoint h) 0) = n h.phononIndex (bosonSite h 0) + Dag.delta h.dag := by
  have e2 : bosonSite (adjoint h) 0 = bosonSite h 0 - electronSite h 0 := by
    unfold electronSite bosonSite adjoint; simp only; omega
  rw [e2]
  show n _ (bosonSite h 0 - electronSite h 0 - -electronSite h 0) + _ = _
  rw [show bosonSite h 0 - electronSite h 0 - -electronSite h 0 = bosonSite h 0 by ring, if_pos ⟨rfl, rfl⟩]

theorem ladder_adjoint {h : SingleTerm ℝ} (hp : h.psi.tw % 2 = 0) (n : Occ) :
    ladder (adjoint h) (jump h n) = ladder h n := by
  have hv := jump_value h hp n
  have e4 : (adjoint h).phononIndex = h.phononIndex := rfl
  unfold ladder
  rw [e4, hv]
  have e3 : (adjoint h).dag = other h.dag := by unfold adjoint other; cases h.dag <;> rfl
  rw [e3]
  cases h.dag
  · simp [other, Dag.delta]
  · simp [other, Dag.delta]

theorem wT_adjoint {h : SingleTerm ℝ} (hp : h.psi.tw % 2 = 0) (n : Occ) :
    wT m ae k (adjoint h) (jump h n) = conj (wT m ae k h n) := by
  unfold wT
  rw [jump_adjoint hp, ladder_adjoint hp]
  by_cases hc : Allowed m ae n ∧ Allowed m ae (jump h n)
  · rw [if_pos hc, if_pos hc.symm]
    have e1 : electronSite (adjoint h) 0 = -electronSite h 0 := by
      unfold electronSite adjoint; simp only; omega
    rw [e1, map_mul, map_mul, Complex.conj_ofReal, Complex.conj_ofReal, ← Complex.exp_conj]
    show (h.coupling : ℂ) * _ * _ = _
    congr 2
    simp
  · rw [if_neg hc, if_neg (fun q => hc q.symm), map_zero]

theorem hamOp_selfAdjoint (hm : ListsOk m) (hs : Props.ShiftsOk m c)
    (hadj : (m.ham.terms.map adjoint).Perm m.ham.terms) : IsSelfAdjoint (hamOp m ae k) := by
  have hE : star (wcomp (wE m ae) (Equiv.refl _)) = wcomp (wE m ae) (Equiv.refl _) := by
    refine wcomp_adjoint (wE_bound hm) (wE_bound hm) _ _ (fun _ => rfl) (fun n => ?_)
    show wE m ae n = _
    unfold wE
    split
    · rw [Complex.conj_ofReal]
    · rw [map_zero]
  have hH : ∀ k, star (wcomp (wH m ae k) (shiftE 1)) = wcomp (wH m ae (-k)) (shiftE (-1)) := by
    intro k
    refine wcomp_adjoint (wH_bound _) (wH_bound _) _ _ (fun n => ?_) (fun n => ?_)
    · show (n.shift 1).shift (-1) = n
      simp
    · show wH m ae (-k) (n.shift 1) = _
      unfold wH
      by_cases hn : Allowed m ae n
      · rw [if_pos hn, if_pos (allowed_shift.2 hn), map_neg, map_mul, Complex.conj_ofReal, ← Complex.exp_conj]
        congr 3
        simp
      · rw [if_neg hn, if_neg (fun q => hn (allowed_shift.1 q)), map_zero]
  have hT : ∀ h ∈ m.ham.terms, star (wcomp (wT m ae k h) (jumpE h)) = wcomp (wT m ae k (adjoint h)) (jumpE (adjoint h)) := by
    intro h hh
    have hp := (hs h hh).1
    exact wcomp_adjoint (wT_bound hm h) (wT_bound (h := adjoint h) hm) _ _ (fun n => jump_adjoint hp n)
      (fun n => wT_adjoint hp n)
  have hsum : star (m.ham.terms.map (fun h => wcomp (wT m ae k h) (jumpE h))).sum =
      (m.ham.terms.map (fun h => wcomp (wT m ae k h) (jumpE h))).sum := by
    have e1 : star (m.ham.terms.map (fun h => wcomp (wT m ae k h) (jumpE h))).sum =
        (m.ham.terms.map (fun h => star (wcomp (wT m ae k h) (jumpE h)))).sum := by
      rw [← starAddEquiv_apply, map_list_sum, List.map_map]; rfl
    rw [e1, List.map_congr_left hT]
    have := (hadj.map (fun h => wcomp (wT m ae k h) (jumpE h))).sum_eq
    rw [List.map_map] at this
    exact this
  unfold IsSelfAdjoint hamOp
  rw [star_add, star_add, star_add, hE, hH, hsum]
  have h2 : star (wcomp (wH m ae (-k)) (shiftE (-1))) = wcomp (wH m ae k) (shiftE 1) := by rw [← hH k, star_star]
  rw [h2, add_comm (wcomp (wH m ae (-k)) _)]

end GGCE
