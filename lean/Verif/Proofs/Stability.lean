import Verif.Spec.Stability
import Verif.Proofs.Frame
import Verif.Proofs.Hilbert
import Verif.Proofs.Blueprint
import Mathlib.Analysis.SpecialFunctions.Trigonometric.Bounds

/-! The resolvent of a perturbed Hamiltonian. -/

set_option linter.unusedSectionVars false

namespace GGCE
open Spec Complex ComplexConjugate
open scoped InnerProductSpace

section
variable {E : Type} [NormedAddCommGroup E] [InnerProductSpace ℂ E] [CompleteSpace E]

theorem green_perturb {H H' : E →L[ℂ] E} (hH : IsSelfAdjoint H) (hH' : IsSelfAdjoint H') {v : E} (hv : ‖v‖ = 1)
    {D : ℝ} (hD : ‖H - H'‖ ≤ D) {z : ℂ} (hz : z.im ≠ 0) : ‖green H v z - green H' v z‖ ≤ D / z.im ^ 2 := by
  have r := mem_resolventSet_of_im hH hz
  set u' := resolvent H' z v with hu'
  have h' := resolvent_apply (mem_resolventSet_of_im hH' hz) v
  have h : z • (resolvent H z v - u') - H (resolvent H z v - u') = (H - H') u' := by
    have h1 := resolvent_apply r v
    rw [map_sub, smul_sub]
    show _ = H u' - H' u'
    rw [← hu'] at h'
    have : z • resolvent H z v - z • u' - (H (resolvent H z v) - H u') =
      (z • resolvent H z v - H (resolvent H z v)) - (z • u' - H' u') + (H u' - H' u') := by abel
    rw [this, h1, h', sub_self, zero_add]
  have h2 := norm_le_of_eq hH h
  have h3 := norm_le_of_eq hH' h'
  have hp : 0 < |z.im| := abs_pos.2 hz
  rw [hv] at h3
  have h4 : ‖(H - H') u'‖ ≤ D * ‖u'‖ := ((H - H').le_opNorm u').trans (mul_le_mul_of_nonneg_right hD (norm_nonneg _))
  have hD0 : 0 ≤ D := (norm_nonneg _).trans hD
  unfold green
  rw [← inner_sub_right]
  refine (norm_inner_le_norm _ _).trans ?_
  rw [hv, one_mul, ← sq_abs, le_div_iff₀ (by positivity)]
  calc ‖resolvent H z v - u'‖ * |z.im| ^ 2 = (|z.im| * ‖resolvent H z v - u'‖) * |z.im| := by ring
    _ ≤ (D * ‖u'‖) * |z.im| := mul_le_mul_of_nonneg_right (h2.trans h4) hp.le
    _ = D * (|z.im| * ‖u'‖) := by ring
    _ ≤ D * 1 := mul_le_mul_of_nonneg_left h3 hD0
    _ = D := mul_one D
end

variable {m m' : Model ℝ} {ae : ℤ} {k k' : ℝ}

theorem wcomp_sub {ι : Type} {w w' : ι → ℂ} {C C' : ℝ} (hw : ∀ i, ‖w i‖ ≤ C) (hw' : ∀ i, ‖w' i‖ ≤ C') (τ : ι ≃ ι) {D : ℝ}
    (hD0 : 0 ≤ D) (hD : ∀ i, ‖w i - w' i‖ ≤ D) : ‖wcomp w τ - wcomp w' τ‖ ≤ D := by
  have : wcomp w τ - wcomp w' τ = wcomp (fun i => w i - w' i) τ := by
    ext f i
    show wcomp w τ f i - wcomp w' τ f i = _
    rw [wcomp_apply hw, wcomp_apply hw', wcomp_apply hD]
    ring
  rw [this]
  exact wcomp_norm hD0 hD τ

theorem Spec.SameShape.allowed (h : SameShape m m') (n : Occ) : Allowed m' ae n ↔ Allowed m ae n := by
  constructor <;> intro ⟨a1, a2, a3, a4, a5, a6⟩
  · exact ⟨a1, h.nTypes ▸ a2, h.cap ▸ a3, a4, h.extent ▸ a5, h.number ▸ a6⟩
  · exact ⟨a1, h.nTypes.symm ▸ a2, h.cap.symm ▸ a3, a4, h.extent.symm ▸ a5, h.number.symm ▸ a6⟩

theorem Spec.Allowed.total_le_max {n : Occ} (hm : ListsOk m) (h : Allowed m ae n) {t : ℕ} (ht : t < m.nTypes) :
    ((∑ᶠ y, n t y : ℤ) : ℝ) ≤ maxNumber m t := by
  have hl : t < m.number.length := by rw [hm.num]; exact ht
  have := h.number t _ (List.getElem?_eq_getElem hl)
  unfold maxNumber
  rw [List.getD_eq_getElem?_getD, List.getElem?_eq_getElem hl, Option.getD_some]
  exact_mod_cast this

theorem maxNumber_nonneg (hm : ListsOk m) (hz : Allowed m ae 0) {t : ℕ} (ht : t < m.nTypes) : 0 ≤ maxNumber m t := by
  have := hz.total_le_max hm ht
  simpa using this

/-- a transition between allowed occupations involves at most `N` phonons -/
theorem ladder_le_max (hm : ListsOk m) {h : SingleTerm ℝ} (hi : h.phononIndex < m.nTypes) {n : Occ}
    (hn : Allowed m ae n) (hj : Allowed m ae (jump h n)) : ladder h n ≤ √(maxNumber m h.phononIndex) := by
  have hj' := allowed_jump.1 hj
  unfold ladder
  cases hd : h.dag
  · refine Real.sqrt_le_sqrt ?_
    have h1 := hj'.le_total h.phononIndex (bosonSite h 0)
    have h2 := hj'.total_le_max hm hi
    have e : (n.act h.dag h.phononIndex (bosonSite h 0)) h.phononIndex (bosonSite h 0) =
        n h.phononIndex (bosonSite h 0) + 1 := by
      show n _ _ + _ = _
      rw [if_pos ⟨rfl, rfl⟩, hd]; rfl
    rw [e] at h1
    have h3 : ((n h.phononIndex (bosonSite h 0) + 1 : ℤ) : ℝ) ≤
      ((∑ᶠ y, (n.act h.dag h.phononIndex (bosonSite h 0)) h.phononIndex y : ℤ) : ℝ) := by exact_mod_cast h1
    push_cast at h3
    linarith
  · refine Real.sqrt_le_sqrt ?_
    have h1 := hn.le_total h.phononIndex (bosonSite h 0)
    have h2 := hn.total_le_max hm hi
    have h3 : ((n h.phononIndex (bosonSite h 0) : ℤ) : ℝ) ≤ ((∑ᶠ y, n h.phononIndex y : ℤ) : ℝ) := by exact_mod_cast h1
    linarith

theorem sum_zip_bound {α : Type} (A A' : α → L2 Occ →L[ℂ] L2 Occ) (d : α → α → ℝ) {P : α → α → Prop} :
    ∀ (l l' : List α), List.Forall₂ P l l' → (∀ a ∈ l, ∀ a' ∈ l', P a a' → ‖A a - A' a'‖ ≤ d a a') →
      ‖(l.map A).sum - (l'.map A').sum‖ ≤ (List.zipWith d l l').sum
  | [], [], _, _ => by simp
  | a :: l, a' :: l', h, hd => by
    rw [List.forall₂_cons] at h
    simp only [List.map_cons, List.sum_cons, List.zipWith_cons_cons]
    have e : A a + (l.map A).sum - (A' a' + (l'.map A').sum) = (A a - A' a') + ((l.map A).sum - (l'.map A').sum) := by abel
    rw [e]
    exact (norm_add_le _ _).trans (add_le_add (hd a (by simp) a' (by simp) h.1)
      (sum_zip_bound A A' d l l' h.2 (fun x hx y hy => hd x (List.mem_cons_of_mem _ hx) y (List.mem_cons_of_mem _ hy))))
  | [], _ :: _, h, _ => by cases h
  | _ :: _, [], h, _ => by cases h

/-- changing the parameters changes the Hamiltonian by at most the distance -/
theorem hamOp_distance (hm : ListsOk m) (hm' : ListsOk m') (hz : Allowed m ae 0)
    (hi : ∀ h ∈ m.ham.terms, h.phononIndex < m.nTypes) (hs : SameShape m m') :
    ‖hamOp m ae k - hamOp m' ae k‖ ≤ distance m m' := by
  have hE : ‖wcomp (wE m ae) (Equiv.refl _) - wcomp (wE m' ae) (Equiv.refl _)‖ ≤
      ∑ t ∈ Finset.range m.nTypes, |m.ham.freqs.getD t 0 - m'.ham.freqs.getD t 0| * maxNumber m t := by
    have h0 : 0 ≤ ∑ t ∈ Finset.range m.nTypes, |m.ham.freqs.getD t 0 - m'.ham.freqs.getD t 0| * maxNumber m t :=
      Finset.sum_nonneg (fun t ht => mul_nonneg (abs_nonneg _) (maxNumber_nonneg hm hz (Finset.mem_range.1 ht)))
    refine wcomp_sub (wE_bound hm) (wE_bound hm') _ h0 (fun n => ?_)
    unfold wE
    by_cases hn : Allowed m ae n
    · rw [if_pos hn, if_pos ((hs.allowed n).2 hn), ← Complex.ofReal_sub, Complex.norm_real, Real.norm_eq_abs]
      unfold occEnergy
      rw [hs.nTypes, ← Finset.sum_sub_distrib]
      refine (Finset.abs_sum_le_sum_abs _ _).trans (Finset.sum_le_sum (fun t ht => ?_))
      rw [← sub_mul, abs_mul, abs_of_nonneg (a := ((∑ᶠ x, n t x : ℤ) : ℝ)) (by exact_mod_cast hn.total_nonneg t)]
      exact mul_le_mul_of_nonneg_left (hn.total_le_max hm (Finset.mem_range.1 ht)) (abs_nonneg _)
    · rw [if_neg hn, if_neg (fun q => hn ((hs.allowed n).1 q)), sub_self, norm_zero]; exact h0
  have hH : ∀ (k : ℝ) (s : ℤ), ‖wcomp (wH m ae k) (shiftE s) - wcomp (wH m' ae k) (shiftE s)‖ ≤
      |m.ham.hopping - m'.ham.hopping| := by
    intro k s
    refine wcomp_sub (wH_bound _) (wH_bound _) _ (abs_nonneg _) (fun n => ?_)
    unfold wH
    by_cases hn : Allowed m ae n
    · rw [if_pos hn, if_pos ((hs.allowed n).2 hn), hs.lattice]
      have e : -((m.ham.hopping : ℂ) * exp (I * (k * m.latticeConstant))) -
          -((m'.ham.hopping : ℂ) * exp (I * (k * m.latticeConstant))) =
          -(((m.ham.hopping - m'.ham.hopping : ℝ) : ℂ) * exp (I * (k * m.latticeConstant))) := by push_cast; ring
      have := norm_phase (k * m.latticeConstant)
      push_cast at this
      rw [e, norm_neg, norm_mul, Complex.norm_real, Real.norm_eq_abs, this, mul_one]
    · rw [if_neg hn, if_neg (fun q => hn ((hs.allowed n).1 q)), sub_self, norm_zero]; exact abs_nonneg _
  have hT : ‖(m.ham.terms.map (fun h => wcomp (wT m ae k h) (jumpE h))).sum -
      (m'.ham.terms.map (fun h => wcomp (wT m' ae k h) (jumpE h))).sum‖ ≤
      (List.zipWith (fun h h' : SingleTerm ℝ => |h.coupling - h'.coupling| * √(maxNumber m h.phononIndex))
        m.ham.terms m'.ham.terms).sum := by
    refine sum_zip_bound _ _ _ _ _ hs.terms (fun h hh h' _ hsame => ?_)
    obtain ⟨q1, q2, q3, q4⟩ := hsame
    have ej : jumpE h' = jumpE h := by
      refine Equiv.ext (fun n => ?_)
      show jump h' n = jump h n
      unfold jump electronSite bosonSite
      rw [q1, q2, q3, q4]
    have ejn : ∀ n, jump h' n = jump h n := fun n => congrArg (fun f => f n) ej
    have el : ∀ n, ladder h' n = ladder h n := by
      intro n; unfold ladder bosonSite; rw [q1, q2, q3, q4]
    have ee : electronSite h' 0 = electronSite h 0 := by unfold electronSite; rw [q1]
    rw [ej]
    refine wcomp_sub (wT_bound hm h) (wT_bound hm' h') _ (by positivity) (fun n => ?_)
    unfold wT
    rw [ejn, el, ee, hs.lattice]
    by_cases hn : Allowed m ae n ∧ Allowed m ae (jump h n)
    · rw [if_pos hn, if_pos ⟨(hs.allowed _).2 hn.1, (hs.allowed _).2 hn.2⟩, ← sub_mul, ← sub_mul, ← Complex.ofReal_sub]
      have := norm_phase' (k * m.latticeConstant * electronSite h 0)
      push_cast at this
      rw [norm_mul, norm_mul, this, mul_one, Complex.norm_real, Complex.norm_real, Real.norm_eq_abs, Real.norm_eq_abs,
        abs_of_nonneg (ladder_nonneg h n)]
      exact mul_le_mul_of_nonneg_left (ladder_le_max hm (hi h hh) hn.1 hn.2) (abs_nonneg _)
    · rw [if_neg hn, if_neg (fun q => hn ⟨(hs.allowed _).1 q.1, (hs.allowed _).1 q.2⟩), sub_self, norm_zero]
      positivity
  unfold hamOp distance
  set E1 := wcomp (wE m ae) (Equiv.refl _)
  set E2 := wcomp (wE m' ae) (Equiv.refl _)
  set A1 := wcomp (wH m ae k) (shiftE 1)
  set A2 := wcomp (wH m' ae k) (shiftE 1)
  set B1 := wcomp (wH m ae (-k)) (shiftE (-1))
  set B2 := wcomp (wH m' ae (-k)) (shiftE (-1))
  set S1 := (m.ham.terms.map (fun h => wcomp (wT m ae k h) (jumpE h))).sum
  set S2 := (m'.ham.terms.map (fun h => wcomp (wT m' ae k h) (jumpE h))).sum
  have e : E1 + (A1 + B1) + S1 - (E2 + (A2 + B2) + S2) = (E1 - E2) + ((A1 - A2) + (B1 - B2)) + (S1 - S2) := by abel
  rw [e]
  have n1 := norm_add_le ((E1 - E2) + ((A1 - A2) + (B1 - B2))) (S1 - S2)
  have n2 := norm_add_le (E1 - E2) ((A1 - A2) + (B1 - B2))
  have n3 := norm_add_le (A1 - A2) (B1 - B2)
  have a1 := hH k 1
  have a2 := hH (-k) (-1)
  linarith

theorem phase_lipschitz (x y : ℝ) : ‖exp (I * x) - exp (I * y)‖ ≤ |x - y| := by
  have e : exp (I * x) - exp (I * y) = exp (I * y) * (exp (I * ((x - y : ℝ) : ℂ)) - 1) := by
    rw [mul_sub, mul_one, ← Complex.exp_add]
    congr 2
    push_cast; ring
  rw [e, norm_mul, norm_phase, one_mul]
  exact Real.norm_exp_I_mul_ofReal_sub_one_le

/-- changing the momentum -/
theorem hamOp_speed (hm : ListsOk m) (hi : ∀ h ∈ m.ham.terms, h.phononIndex < m.nTypes) :
    ‖hamOp m ae k - hamOp m ae k'‖ ≤ speed m * |k - k'| := by
  have hH : ∀ (k k' : ℝ) (s : ℤ), ‖wcomp (wH m ae k) (shiftE s) - wcomp (wH m ae k') (shiftE s)‖ ≤
      |m.ham.hopping| * (|m.latticeConstant| * |k - k'|) := by
    intro k k' s
    refine wcomp_sub (wH_bound _) (wH_bound _) _ (by positivity) (fun n => ?_)
    unfold wH
    split
    · have h1 := phase_lipschitz (k * m.latticeConstant) (k' * m.latticeConstant)
      push_cast at h1
      rw [← sub_mul, abs_mul, mul_comm |k - k'|] at h1
      have e : -((m.ham.hopping : ℂ) * exp (I * (k * m.latticeConstant))) -
          -((m.ham.hopping : ℂ) * exp (I * (k' * m.latticeConstant))) =
          -((m.ham.hopping : ℂ) * (exp (I * (k * m.latticeConstant)) - exp (I * (k' * m.latticeConstant)))) := by ring
      rw [e, norm_neg, norm_mul, Complex.norm_real, Real.norm_eq_abs]
      exact mul_le_mul_of_nonneg_left h1 (abs_nonneg _)
    · rw [sub_self, norm_zero]; positivity
  have hT : ‖(m.ham.terms.map (fun h => wcomp (wT m ae k h) (jumpE h))).sum -
      (m.ham.terms.map (fun h => wcomp (wT m ae k' h) (jumpE h))).sum‖ ≤
      (List.zipWith (fun h _ : SingleTerm ℝ => |h.coupling| * √(maxNumber m h.phononIndex) *
        |((electronSite h 0 : ℤ) : ℝ)| * (|m.latticeConstant| * |k - k'|)) m.ham.terms m.ham.terms).sum := by
    refine sum_zip_bound (P := fun h h' => h = h') _ _ _ _ _ (List.forall₂_same.2 (fun _ _ => rfl))
      (fun h hh h' _ hsame => ?_)
    subst hsame
    refine wcomp_sub (wT_bound hm h) (wT_bound hm h) _ (by positivity) (fun n => ?_)
    unfold wT
    by_cases hn : Allowed m ae n ∧ Allowed m ae (jump h n)
    · rw [if_pos hn, if_pos hn, ← mul_sub]
      have h1 := phase_lipschitz (-(k * m.latticeConstant * electronSite h 0)) (-(k' * m.latticeConstant * electronSite h 0))
      push_cast at h1
      rw [mul_neg, mul_neg, show -(k * m.latticeConstant * (electronSite h 0 : ℝ)) - -(k' * m.latticeConstant * electronSite h 0) =
        -((electronSite h 0 : ℝ) * (m.latticeConstant * (k - k'))) by ring, abs_neg, abs_mul, abs_mul] at h1
      rw [norm_mul, norm_mul, Complex.norm_real, Complex.norm_real, Real.norm_eq_abs, Real.norm_eq_abs,
        abs_of_nonneg (ladder_nonneg h n), mul_assoc (|h.coupling| * _)]
      refine mul_le_mul (mul_le_mul_of_nonneg_left (ladder_le_max hm (hi h hh) hn.1 hn.2) (abs_nonneg _)) h1
        (norm_nonneg _) (by positivity)
    · rw [if_neg hn, if_neg hn, sub_self, norm_zero]; positivity
  have hz : (List.zipWith (fun h _ : SingleTerm ℝ => |h.coupling| * √(maxNumber m h.phononIndex) *
        |((electronSite h 0 : ℤ) : ℝ)| * (|m.latticeConstant| * |k - k'|)) m.ham.terms m.ham.terms).sum =
      (m.ham.terms.map (fun h => |h.coupling| * √(maxNumber m h.phononIndex) * |((electronSite h 0 : ℤ) : ℝ)|)).sum *
        (|m.latticeConstant| * |k - k'|) := by
    rw [← List.sum_map_mul_right, List.zipWith_self]
  rw [hz] at hT
  unfold hamOp speed
  set E1 := wcomp (wE m ae) (Equiv.refl _)
  set A1 := wcomp (wH m ae k) (shiftE 1)
  set A2 := wcomp (wH m ae k') (shiftE 1)
  set B1 := wcomp (wH m ae (-k)) (shiftE (-1))
  set B2 := wcomp (wH m ae (-k')) (shiftE (-1))
  set S1 := (m.ham.terms.map (fun h => wcomp (wT m ae k h) (jumpE h))).sum
  set S2 := (m.ham.terms.map (fun h => wcomp (wT m ae k' h) (jumpE h))).sum
  have e : E1 + (A1 + B1) + S1 - (E1 + (A2 + B2) + S2) = ((A1 - A2) + (B1 - B2)) + (S1 - S2) := by abel
  rw [e]
  have n1 := norm_add_le ((A1 - A2) + (B1 - B2)) (S1 - S2)
  have n3 := norm_add_le (A1 - A2) (B1 - B2)
  have a1 := hH k k' 1
  have a2 := hH (-k) (-k') (-1)
  rw [show -k - -k' = -(k - k') by ring, abs_neg] at a2
  linarith

/-! ### the distance between assembled models -/

theorem termsOf_zip (ct : String) (hk : Known ct) (g g' f f' : ℝ) (i : ℕ) (F : ℕ → ℝ) :
    (List.zipWith (fun h h' : SingleTerm ℝ => |h.coupling - h'.coupling| * √(F h.phononIndex))
      (termsOf ct g i f) (termsOf ct g' i f')).sum = termCount ct * (|g - g'| * √(F i)) := by
  have e : |-g + g'| = |g - g'| := by rw [show -g + g' = -(g - g') by ring, abs_neg]
  rcases hk with rfl | rfl | rfl | rfl <;> simp [termsOf, termShapes, termCount, e] <;> ring

/-- two modes of the same kind -/
structure SamePart (d d' : Part ℝ) : Prop where
  ctype : d'.ctype = d.ctype
  known : Known d.ctype
  M : d'.M = d.M
  N : d'.N = d.N

theorem partTerms_cons (d : Part ℝ) (ds : List (Part ℝ)) (i : ℕ) :
    partTerms (d :: ds) i = termsOf d.ctype d.g i d.freq ++ partTerms ds (i + 1) := by
  unfold partTerms; rw [List.zipIdx_cons, List.flatMap_cons]

theorem partTerms_zip (F : ℕ → ℝ) : ∀ (ds ds' : List (Part ℝ)) (i : ℕ), List.Forall₂ SamePart ds ds' →
    (∀ j, j < ds.length → F (i + j) = ((ds.map (·.N)).getD j 0 : ℤ)) →
    (List.zipWith (fun h h' : SingleTerm ℝ => |h.coupling - h'.coupling| * √(F h.phononIndex))
      (partTerms ds i) (partTerms ds' i)).sum =
    (List.zipWith (fun d d' : Part ℝ => termCount d.ctype * (|d.g - d'.g| * √(d.N : ℝ))) ds ds').sum
  | [], [], _, _, _ => by simp [partTerms]
  | d :: ds, d' :: ds', i, h, hF => by
    rw [List.forall₂_cons] at h
    rw [partTerms_cons, partTerms_cons, List.zipWith_append (by simp [termsOf, h.1.ctype]), List.sum_append, h.1.ctype,
      termsOf_zip d.ctype h.1.known, partTerms_zip F ds ds' (i + 1) h.2 (fun j hj => by
        have := hF (j + 1) (by simpa using hj)
        rw [show i + 1 + j = i + (j + 1) by ring, this]; simp)]
    have := hF 0 (by simp)
    rw [add_zero] at this
    simp [this]
  | [], _ :: _, _, h, _ => by cases h
  | _ :: _, [], _, h, _ => by cases h

theorem freq_zip : ∀ (ds ds' : List (Part ℝ)), List.Forall₂ SamePart ds ds' →
    ∑ t ∈ Finset.range ds.length, |(ds.map (·.freq)).getD t 0 - (ds'.map (·.freq)).getD t 0| *
      (((ds.map (·.N)).getD t 0 : ℤ) : ℝ) =
    (List.zipWith (fun d d' : Part ℝ => |d.freq - d'.freq| * (d.N : ℝ)) ds ds').sum
  | [], [], _ => by simp
  | d :: ds, d' :: ds', h => by
    rw [List.forall₂_cons] at h
    rw [List.length_cons, Finset.sum_range_succ', List.zipWith_cons_cons, List.sum_cons, ← freq_zip ds ds' h.2, add_comm]
    simp
  | [], _ :: _, h => by cases h
  | _ :: _, [], h => by cases h

theorem blueprint_shape {hopping hopping' lattice T T' : ℝ} {cap : Option Int} {ds ds' : List (Part ℝ)}
    (h : List.Forall₂ SamePart ds ds') :
    SameShape (blueprint hopping lattice T cap ds) (blueprint hopping' lattice T' cap ds') := by
  have e1 : ds'.map (·.M) = ds.map (·.M) := by
    induction h with
    | nil => rfl
    | cons h1 _ ih => simp [h1.M, ih]
  have e2 : ds'.map (·.N) = ds.map (·.N) := by
    clear e1
    induction h with
    | nil => rfl
    | cons h1 _ ih => simp [h1.N, ih]
  refine ⟨h.length_eq.symm, e1, e2, rfl, rfl, ?_⟩
  show List.Forall₂ _ (partTerms ds 0) (partTerms ds' 0)
  generalize 0 = i
  induction h generalizing i with
  | nil => simp [partTerms]
  | cons h1 h2 ih =>
    rename_i d d' ds ds'
    rw [partTerms_cons, partTerms_cons]
    refine List.rel_append ?_ (ih (by simp_all) (by simp_all) (i + 1))
    rw [h1.ctype]
    unfold termsOf
    rw [List.forall₂_map_left_iff, List.forall₂_map_right_iff]
    exact List.forall₂_same.2 (fun _ _ => ⟨rfl, rfl, rfl, rfl⟩)

theorem blueprint_distance {hopping hopping' lattice T T' : ℝ} {cap : Option Int} {ds ds' : List (Part ℝ)}
    (h : List.Forall₂ SamePart ds ds') :
    distance (blueprint hopping lattice T cap ds) (blueprint hopping' lattice T' cap ds') =
      2 * |hopping - hopping'| + (List.zipWith (fun d d' : Part ℝ => |d.freq - d'.freq| * (d.N : ℝ)) ds ds').sum +
        (List.zipWith (fun d d' : Part ℝ => termCount d.ctype * (|d.g - d'.g| * √(d.N : ℝ))) ds ds').sum := by
  unfold distance
  rw [← freq_zip ds ds' h, ← partTerms_zip (maxNumber (blueprint hopping lattice T cap ds)) ds ds' 0 h (fun j _ => by
    rw [zero_add]; rfl)]
  rfl

end GGCE
