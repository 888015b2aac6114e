import Verif.Spec.Floor
import Verif.Proofs.Stability

/-! The Hamiltonian is bounded below, uniformly in the limits. -/

set_option linter.unusedSectionVars false

namespace GGCE
open Spec Complex ComplexConjugate
open scoped InnerProductSpace

section
variable {E : Type} [NormedAddCommGroup E] [InnerProductSpace ℂ E] [CompleteSpace E]

/-- below the energy of a state `u`, `z - H` does not shorten it much -/
theorem norm_sq_below_at {H : E →L[ℂ] E} (hH : IsSelfAdjoint H) {e : ℝ} {u f : E} (he : e * ‖u‖ ^ 2 ≤ (⟪u, H u⟫_ℂ).re)
    {w eta : ℝ} (hw : w ≤ e) (h : ((w : ℂ) + I * eta) • u - H u = f) : ((e - w) ^ 2 + eta ^ 2) * ‖u‖ ^ 2 ≤ ‖f‖ ^ 2 := by
  set x := (w : ℂ) • u - H u with hx
  have hf : f = x + (I * eta) • u := by rw [← h, hx, add_smul]; abel
  have huu : ⟪u, u⟫_ℂ = ((‖u‖ ^ 2 : ℝ) : ℂ) := by rw [inner_self_eq_norm_sq_to_K]; push_cast; rfl
  have hux : ⟪u, x⟫_ℂ = ((w * ‖u‖ ^ 2 - (⟪u, H u⟫_ℂ).re : ℝ) : ℂ) := by
    rw [hx, inner_sub_right, inner_smul_right, huu]
    have := inner_real hH u
    apply Complex.ext <;> simp [this, -inner_self_eq_norm_sq_to_K]
  have hxu : ⟪x, u⟫_ℂ = ⟪u, x⟫_ℂ := by rw [← inner_conj_symm, hux, Complex.conj_ofReal]
  have h1 : ‖f‖ ^ 2 = ‖x‖ ^ 2 + eta ^ 2 * ‖u‖ ^ 2 := by
    rw [hf, @norm_add_sq ℂ, inner_smul_right, hxu, hux, norm_smul, norm_mul, Complex.norm_I, Complex.norm_real, mul_pow,
      one_mul, Real.norm_eq_abs, sq_abs]
    have : RCLike.re (I * (eta : ℂ) * ((w * ‖u‖ ^ 2 - (⟪u, H u⟫_ℂ).re : ℝ) : ℂ)) = 0 := by
      show (I * (eta : ℂ) * ((w * ‖u‖ ^ 2 - (⟪u, H u⟫_ℂ).re : ℝ) : ℂ)).re = 0
      rw [mul_assoc, ← Complex.ofReal_mul, Complex.I_mul_re, Complex.ofReal_im, neg_zero]
    rw [this]; ring
  have h2 : (e - w) * ‖u‖ ^ 2 ≤ ‖u‖ * ‖x‖ := by
    have h3 : ‖⟪u, x⟫_ℂ‖ ≤ ‖u‖ * ‖x‖ := norm_inner_le_norm _ _
    rw [hux, Complex.norm_real, Real.norm_eq_abs] at h3
    have := neg_le_of_abs_le h3
    linarith [neg_abs_le (w * ‖u‖ ^ 2 - (⟪u, H u⟫_ℂ).re)]
  have h3 : (e - w) * ‖u‖ ≤ ‖x‖ := by
    rcases (norm_nonneg u).eq_or_lt with h0 | h0
    · rw [← h0, mul_zero]; exact norm_nonneg _
    · refine le_of_mul_le_mul_left ?_ h0
      linarith [h2, show ‖u‖ * ((e - w) * ‖u‖) = (e - w) * ‖u‖ ^ 2 by ring]
  have h4 : ((e - w) * ‖u‖) ^ 2 ≤ ‖x‖ ^ 2 :=
    pow_le_pow_left₀ (mul_nonneg (by linarith) (norm_nonneg _)) h3 2
  rw [h1]
  nlinarith [h4]

/-- below the spectrum, the resolvent is small -/
theorem norm_sq_below {H : E →L[ℂ] E} (hH : IsSelfAdjoint H) {e : ℝ} (he : ∀ u, e * ‖u‖ ^ 2 ≤ (⟪u, H u⟫_ℂ).re) {w eta : ℝ}
    (hw : w ≤ e) {u f : E} (h : ((w : ℂ) + I * eta) • u - H u = f) : ((e - w) ^ 2 + eta ^ 2) * ‖u‖ ^ 2 ≤ ‖f‖ ^ 2 :=
  norm_sq_below_at hH (he u) hw h

theorem green_im {H : E →L[ℂ] E} (hH : IsSelfAdjoint H) (v : E) {z : ℂ} (hz : z.im ≠ 0) :
    (green H v z).im = -(z.im * ‖resolvent H z v‖ ^ 2) := by
  have r := resolvent_apply (mem_resolventSet_of_im hH hz) v
  set u := resolvent H z v with hu
  have huu : ⟪u, u⟫_ℂ = ((‖u‖ ^ 2 : ℝ) : ℂ) := by rw [inner_self_eq_norm_sq_to_K]; push_cast; rfl
  have h1 : (⟪u, v⟫_ℂ).im = z.im * ‖u‖ ^ 2 := by
    rw [← r, inner_sub_right, inner_smul_right, Complex.sub_im, inner_real hH, sub_zero, huu, Complex.mul_im,
      Complex.ofReal_re, Complex.ofReal_im, mul_zero, zero_add]
  unfold green
  rw [← inner_conj_symm, Complex.conj_im, h1]
end

variable {m : Model ℝ} {ae : ℤ} {k : ℝ} {c : ℤ}

open Classical in
/-- `√n` at one site -/
noncomputable def wD (m : Model ℝ) (ae : ℤ) (t : ℕ) (x : ℤ) (n : Occ) : ℂ :=
  if Allowed m ae n then (√(n t x : ℝ) : ℂ) else 0

open Classical in
noncomputable def wV (m : Model ℝ) (ae : ℤ) (k : ℝ) (h : SingleTerm ℝ) (n : Occ) : ℂ :=
  if Allowed m ae n ∧ Allowed m ae (jump h n) then
    (h.coupling : ℂ) * exp (-(I * (k * m.latticeConstant * electronSite h 0)))
  else 0

theorem wD_bound (hm : ListsOk m) (t : ℕ) (x : ℤ) (n : Occ) : ‖wD m ae t x n‖ ≤ √(numBound m : ℝ) := by
  unfold wD
  split
  · rename_i hn
    rw [Complex.norm_real, Real.norm_eq_abs, abs_of_nonneg (Real.sqrt_nonneg _)]
    refine Real.sqrt_le_sqrt ?_
    exact_mod_cast (hn.le_total _ _).trans (hn.total_le hm _)
  · rw [norm_zero]; exact Real.sqrt_nonneg _

theorem wV_bound (h : SingleTerm ℝ) (n : Occ) : ‖wV m ae k h n‖ ≤ |h.coupling| := by
  unfold wV
  split
  · have := norm_phase' (k * m.latticeConstant * electronSite h 0)
    push_cast at this
    rw [norm_mul, this, mul_one, Complex.norm_real, Real.norm_eq_abs]
  · rw [norm_zero]; exact abs_nonneg _

open Classical in
/-- the number of phonons of type `t` in a state -/
noncomputable def phonons (m : Model ℝ) (ae : ℤ) (t : ℕ) (f : L2 Occ) : ℝ :=
  ∑' n : Occ, (if Allowed m ae n then ((∑ᶠ x, n t x : ℤ) : ℝ) else 0) * ‖f n‖ ^ 2

theorem phonons_summable (hm : ListsOk m) (t : ℕ) (f : L2 Occ) :
    Summable (fun n : Occ => open Classical in
      (if Allowed m ae n then ((∑ᶠ x, n t x : ℤ) : ℝ) else 0) * ‖f n‖ ^ 2) := by
  refine ((L2.summable f).mul_left (numBound m : ℝ)).of_nonneg_of_le (fun n => ?_) (fun n => ?_)
  · split
    · rename_i hn
      have : (0 : ℝ) ≤ ((∑ᶠ x, n t x : ℤ) : ℝ) := by exact_mod_cast hn.total_nonneg t
      positivity
    · simp
  · refine mul_le_mul_of_nonneg_right ?_ (by positivity)
    split
    · rename_i hn
      exact_mod_cast hn.total_le hm t
    · exact_mod_cast numBound_nonneg m

theorem phonons_nonneg (t : ℕ) (f : L2 Occ) : 0 ≤ phonons m ae t f := by
  refine tsum_nonneg (fun n => ?_)
  split
  · rename_i hn
    have : (0 : ℝ) ≤ ((∑ᶠ x, n t x : ℤ) : ℝ) := by exact_mod_cast hn.total_nonneg t
    positivity
  · simp

theorem wD_phonons (hm : ListsOk m) (t : ℕ) (x : ℤ) (f : L2 Occ) :
    ‖wcomp (wD m ae t x) (Equiv.refl _) f‖ ^ 2 ≤ phonons m ae t f := by
  rw [L2.norm_sq]
  refine (L2.summable _).tsum_le_tsum (fun n => ?_) (phonons_summable hm t f)
  rw [wcomp_apply (wD_bound hm t x), norm_mul, mul_pow]
  refine mul_le_mul_of_nonneg_right ?_ (by positivity)
  unfold wD
  split
  · rename_i hn
    have h0 : (0 : ℝ) ≤ (n t x : ℝ) := by exact_mod_cast hn.nonneg t x
    rw [Complex.norm_real, Real.norm_eq_abs, sq_abs, Real.sq_sqrt h0]
    exact_mod_cast hn.le_total t x
  · simp

/-- an annihilation term, by Cauchy and Schwarz -/
theorem term_minus (hm : ListsOk m) {h : SingleTerm ℝ} (hd : h.dag = .minus) (f : L2 Occ) {ε : ℝ} (hε : 0 < ε) :
    -(ε * phonons m ae h.phononIndex f + h.coupling ^ 2 / (4 * ε) * ‖f‖ ^ 2) ≤ (⟪f, wcomp (wT m ae k h) (jumpE h) f⟫_ℂ).re := by
  set D := wcomp (wD m ae h.phononIndex (bosonSite h 0)) (Equiv.refl _) f
  set V := wcomp (wV m ae k h) (jumpE h) f
  have e : ⟪f, wcomp (wT m ae k h) (jumpE h) f⟫_ℂ = ⟪D, V⟫_ℂ := by
    rw [lp.inner_eq_tsum, lp.inner_eq_tsum]
    refine tsum_congr (fun n => ?_)
    rw [wcomp_apply (wT_bound hm h), wcomp_apply (wD_bound hm _ _), wcomp_apply (wV_bound h)]
    simp only [RCLike.inner_apply, map_mul]
    unfold wT wD wV ladder
    rw [hd]
    by_cases hn : Allowed m ae n ∧ Allowed m ae (jump h n)
    · rw [if_pos hn, if_pos hn, if_pos hn.1, Complex.conj_ofReal]
      simp only [Equiv.refl_apply]
      ring
    · rw [if_neg hn, if_neg hn]; simp
  rw [e]
  have h1 : ‖⟪D, V⟫_ℂ‖ ≤ ‖D‖ * ‖V‖ := norm_inner_le_norm _ _
  have h2 := neg_le_of_abs_le ((Complex.abs_re_le_norm _).trans h1)
  have hD : ‖D‖ ^ 2 ≤ phonons m ae h.phononIndex f := wD_phonons hm _ _ f
  have hV : ‖V‖ ≤ |h.coupling| * ‖f‖ :=
    ((wcomp (wV m ae k h) (jumpE h)).le_opNorm f).trans
      (mul_le_mul_of_nonneg_right (wcomp_norm (abs_nonneg _) (wV_bound h) _) (norm_nonneg _))
  have hV2 : ‖V‖ ^ 2 ≤ h.coupling ^ 2 * ‖f‖ ^ 2 := by
    rw [← sq_abs h.coupling, ← mul_pow]; exact pow_le_pow_left₀ (norm_nonneg _) hV 2
  have h3 : ‖D‖ * ‖V‖ ≤ ε * ‖D‖ ^ 2 + ‖V‖ ^ 2 / (4 * ε) := by
    have : 0 ≤ (2 * ε * ‖D‖ - ‖V‖) ^ 2 / (4 * ε) := by positivity
    have e2 : (2 * ε * ‖D‖ - ‖V‖) ^ 2 / (4 * ε) = ε * ‖D‖ ^ 2 + ‖V‖ ^ 2 / (4 * ε) - ‖D‖ * ‖V‖ := by
      field_simp; ring
    linarith
  have h4 : ε * ‖D‖ ^ 2 ≤ ε * phonons m ae h.phononIndex f := mul_le_mul_of_nonneg_left hD hε.le
  have h5 : ‖V‖ ^ 2 / (4 * ε) ≤ h.coupling ^ 2 / (4 * ε) * ‖f‖ ^ 2 := by
    rw [div_mul_eq_mul_div]; exact div_le_div_of_nonneg_right hV2 (by positivity)
  linarith

theorem term_floor (hm : ListsOk m) {h : SingleTerm ℝ} (hp : h.psi.tw % 2 = 0) (f : L2 Occ) {ε : ℝ} (hε : 0 < ε) :
    -(ε * phonons m ae h.phononIndex f + h.coupling ^ 2 / (4 * ε) * ‖f‖ ^ 2) ≤ (⟪f, wcomp (wT m ae k h) (jumpE h) f⟫_ℂ).re := by
  cases hd : h.dag
  · have h1 := term_minus (m := m) (ae := ae) (k := k) hm (h := adjoint h) (by unfold adjoint; simp [hd]) f hε
    have h2 := wcomp_inner (fun n => wT_bound (k := k) hm h n) (fun n => wT_bound (k := k) (ae := ae) hm (adjoint h) n)
      (jumpE h) (jumpE (adjoint h)) (fun n => jump_adjoint hp n) (fun n => wT_adjoint hp n) f f
    rw [← h2, ← inner_conj_symm, Complex.conj_re] at h1
    exact h1
  · exact term_minus hm hd f hε

theorem list_inner_sum (l : List (SingleTerm ℝ)) (A : SingleTerm ℝ → L2 Occ →L[ℂ] L2 Occ) (f : L2 Occ) :
    (⟪f, (l.map A).sum f⟫_ℂ).re = (l.map (fun h => (⟪f, A h f⟫_ℂ).re)).sum := by
  induction l with
  | nil => simp
  | cons a l ih =>
    simp only [List.map_cons, List.sum_cons]
    rw [← ih]
    show (⟪f, A a f + (l.map A).sum f⟫_ℂ).re = _
    rw [inner_add_right, Complex.add_re]

theorem list_sum_le (l : List (SingleTerm ℝ)) {F F' : SingleTerm ℝ → ℝ} (h : ∀ a ∈ l, F a ≤ F' a) :
    (l.map F).sum ≤ (l.map F').sum := List.sum_le_sum h

/-- the terms of each type share the energy of its phonons -/
theorem share_sum (l : List ℕ) (N : ℕ) (hl : ∀ t ∈ l, t < N) (F : ℕ → ℝ) (hF : ∀ t, t < N → 0 ≤ F t) :
    (l.map (fun t => F t / (l.count t : ℝ))).sum ≤ ∑ t ∈ Finset.range N, F t := by
  rw [Finset.sum_list_map_count]
  have h1 : ∑ t ∈ l.toFinset, l.count t • (F t / (l.count t : ℝ)) = ∑ t ∈ l.toFinset, F t := by
    refine Finset.sum_congr rfl (fun t ht => ?_)
    have : 0 < l.count t := List.count_pos_iff.2 (List.mem_toFinset.1 ht)
    have h0 : (l.count t : ℝ) ≠ 0 := by exact_mod_cast this.ne'
    rw [nsmul_eq_mul, mul_div_cancel₀ _ h0]
  rw [h1]
  exact Finset.sum_le_sum_of_subset_of_nonneg
    (fun t ht => Finset.mem_range.2 (hl t (List.mem_toFinset.1 ht))) (fun t ht _ => hF t (Finset.mem_range.1 ht))

theorem energy_inner (hm : ListsOk m) (f : L2 Occ) :
    (⟪f, wcomp (wE m ae) (Equiv.refl _) f⟫_ℂ).re =
      ∑ t ∈ Finset.range m.nTypes, m.ham.freqs.getD t 0 * phonons m ae t f := by
  classical
  have h1 : ⟪f, wcomp (wE m ae) (Equiv.refl _) f⟫_ℂ =
      ((∑' n : Occ, (if Allowed m ae n then occEnergy m n else 0) * ‖f n‖ ^ 2 : ℝ) : ℂ) := by
    rw [lp.inner_eq_tsum, Complex.ofReal_tsum]
    refine tsum_congr (fun n => ?_)
    rw [wcomp_apply (wE_bound hm)]
    simp only [RCLike.inner_apply, Equiv.refl_apply]
    unfold wE
    have e : f n * conj (f n) = ((‖f n‖ ^ 2 : ℝ) : ℂ) := by
      rw [Complex.mul_conj, Complex.normSq_eq_norm_sq]
    split
    · rw [mul_assoc, e, Complex.ofReal_mul]
    · simp
  rw [h1, Complex.ofReal_re]
  unfold phonons
  simp only [← tsum_mul_left]
  rw [← Summable.tsum_finsetSum (fun t _ => (phonons_summable hm t f).mul_left _)]
  refine tsum_congr (fun n => ?_)
  split
  · unfold occEnergy
    rw [Finset.sum_mul]
    exact Finset.sum_congr rfl (fun t _ => by ring)
  · simp

theorem hamOp_floor (hm : ListsOk m) (hs : Props.ShiftsOk m c) (hi : ∀ h ∈ m.ham.terms, h.phononIndex < m.nTypes)
    (hfreq : ∀ t, t < m.nTypes → 0 < m.ham.freqs.getD t 0) (f : L2 Occ) :
    energyFloor m * ‖f‖ ^ 2 ≤ (⟪f, hamOp m ae k f⟫_ℂ).re := by
  have e : ⟪f, hamOp m ae k f⟫_ℂ = ⟪f, wcomp (wE m ae) (Equiv.refl _) f⟫_ℂ +
      (⟪f, wcomp (wH m ae k) (shiftE 1) f⟫_ℂ + ⟪f, wcomp (wH m ae (-k)) (shiftE (-1)) f⟫_ℂ) +
      ⟪f, (m.ham.terms.map (fun h => wcomp (wT m ae k h) (jumpE h))).sum f⟫_ℂ := by
    rw [← inner_add_right, ← inner_add_right, ← inner_add_right]; rfl
  have hH : ∀ (k : ℝ) (s : ℤ), -(|m.ham.hopping| * ‖f‖ ^ 2) ≤ (⟪f, wcomp (wH m ae k) (shiftE s) f⟫_ℂ).re := by
    intro k s
    have h1 : ‖⟪f, wcomp (wH m ae k) (shiftE s) f⟫_ℂ‖ ≤ ‖f‖ * ‖wcomp (wH m ae k) (shiftE s) f‖ := norm_inner_le_norm _ _
    have h2 : ‖wcomp (wH m ae k) (shiftE s) f‖ ≤ |m.ham.hopping| * ‖f‖ :=
      ((wcomp (wH m ae k) (shiftE s)).le_opNorm f).trans
        (mul_le_mul_of_nonneg_right (wcomp_norm (abs_nonneg _) (wH_bound k) _) (norm_nonneg _))
    have h3 := neg_le_of_abs_le ((Complex.abs_re_le_norm _).trans h1)
    have h4 := mul_le_mul_of_nonneg_left h2 (norm_nonneg f)
    nlinarith
  have hT : -(∑ t ∈ Finset.range m.nTypes, m.ham.freqs.getD t 0 * phonons m ae t f) -
      (m.ham.terms.map (fun h => (actCount m h.phononIndex : ℝ) * h.coupling ^ 2 /
        (4 * m.ham.freqs.getD h.phononIndex 0))).sum * ‖f‖ ^ 2 ≤
      (⟪f, (m.ham.terms.map (fun h => wcomp (wT m ae k h) (jumpE h))).sum f⟫_ℂ).re := by
    rw [list_inner_sum]
    set F : ℕ → ℝ := fun t => m.ham.freqs.getD t 0 * phonons m ae t f with hF
    have h1 : (m.ham.terms.map (fun h : SingleTerm ℝ => -(F h.phononIndex / (actCount m h.phononIndex : ℝ) +
        (actCount m h.phononIndex : ℝ) * h.coupling ^ 2 / (4 * m.ham.freqs.getD h.phononIndex 0) * ‖f‖ ^ 2))).sum ≤
        (m.ham.terms.map (fun h => (⟪f, wcomp (wT m ae k h) (jumpE h) f⟫_ℂ).re)).sum := by
      refine list_sum_le _ (fun h hh => ?_)
      have hc : (0 : ℝ) < actCount m h.phononIndex := by
        have : 0 < actCount m h.phononIndex := List.count_pos_iff.2 (List.mem_map_of_mem hh)
        exact_mod_cast this
      have hw := hfreq _ (hi h hh)
      have h2 := term_floor (m := m) (ae := ae) (k := k) hm (hs h hh).1 f (ε := m.ham.freqs.getD h.phononIndex 0 /
        (actCount m h.phononIndex : ℝ)) (div_pos hw hc)
      refine le_trans (le_of_eq ?_) h2
      rw [hF]
      simp only
      congr 2
      · ring
      · congr 1
        field_simp
    refine le_trans ?_ h1
    have h3 := share_sum (m.ham.terms.map (·.phononIndex)) m.nTypes
      (fun t ht => by obtain ⟨h, hh, rfl⟩ := List.mem_map.1 ht; exact hi h hh) F
      (fun t ht => mul_nonneg (hfreq t ht).le (phonons_nonneg t f))
    rw [List.map_map] at h3
    have h4 : ∀ l : List (SingleTerm ℝ), ∀ A B : SingleTerm ℝ → ℝ, (l.map (fun h => -(A h + B h * ‖f‖ ^ 2))).sum =
        -(l.map A).sum - (l.map B).sum * ‖f‖ ^ 2 := by
      intro l A B
      induction l with
      | nil => simp
      | cons a l ih => simp only [List.map_cons, List.sum_cons, ih]; ring
    rw [h4]
    have h5 : (m.ham.terms.map (fun h : SingleTerm ℝ => F h.phononIndex / (actCount m h.phononIndex : ℝ))).sum ≤
      ∑ t ∈ Finset.range m.nTypes, F t := h3
    linarith
  rw [e, Complex.add_re, Complex.add_re, Complex.add_re, energy_inner hm]
  have a1 := hH k 1
  have a2 := hH (-k) (-1)
  unfold energyFloor
  linarith

/-! ### assembled models -/

theorem termsOf_length {ct : String} (hk : Known ct) (g f : ℝ) (i : ℕ) : ((termsOf ct g i f).length : ℝ) = termCount ct := by
  rcases hk with rfl | rfl | rfl | rfl <;> simp [termsOf, termShapes, termCount]

theorem termsOf_index {ct : String} {g f : ℝ} {i : ℕ} {h : SingleTerm ℝ} (hh : h ∈ termsOf ct g i f) : h.phononIndex = i := by
  simp only [termsOf, List.mem_map] at hh
  obtain ⟨_, _, rfl⟩ := hh; rfl

theorem partTerms_index {h : SingleTerm ℝ} : ∀ (ds : List (Part ℝ)) (i : ℕ), h ∈ partTerms ds i → i ≤ h.phononIndex
  | [], _, hh => by simp [partTerms] at hh
  | d :: ds, i, hh => by
    rw [partTerms_cons, List.mem_append] at hh
    rcases hh with hh | hh
    · rw [termsOf_index hh]
    · have := partTerms_index ds (i + 1) hh; omega

theorem partTerms_count : ∀ (ds : List (Part ℝ)) (i j : ℕ) (hj : j < ds.length), (∀ d ∈ ds, Known d.ctype) →
    ((((partTerms ds i).map (·.phononIndex)).count (i + j) : ℕ) : ℝ) = termCount (ds[j].ctype)
  | [], _, _, hj, _ => absurd hj (by simp)
  | d :: ds, i, j, hj, hk => by
    rw [partTerms_cons, List.map_append, List.count_append]
    have e1 : (termsOf d.ctype d.g i d.freq).map (·.phononIndex) = List.replicate (termsOf d.ctype d.g i d.freq).length i :=
      List.eq_replicate_iff.2 ⟨by simp, fun t ht => by
        obtain ⟨h, hh, rfl⟩ := List.mem_map.1 ht; exact termsOf_index hh⟩
    rw [e1, List.count_replicate]
    cases j with
    | zero =>
      have : ((partTerms ds (i + 1)).map (·.phononIndex)).count (i + 0) = 0 := by
        rw [List.count_eq_zero]
        intro hc
        obtain ⟨h, hh, e⟩ := List.mem_map.1 hc
        have := partTerms_index ds (i + 1) hh
        omega
      rw [this]
      simp [termsOf_length (hk d (by simp))]
    | succ j =>
      have := partTerms_count ds (i + 1) j (by simpa using hj) (fun d hd => hk d (List.mem_cons_of_mem _ hd))
      rw [show i + (j + 1) = i + 1 + j by ring, if_neg (by simp; omega), zero_add, this]
      rfl

theorem termsOf_square {ct : String} (hk : Known ct) (g f : ℝ) (i : ℕ) (C W : ℕ → ℝ) :
    ((termsOf ct g i f).map (fun h => C h.phononIndex * h.coupling ^ 2 / (4 * W h.phononIndex))).sum =
      termCount ct * (C i * g ^ 2 / (4 * W i)) := by
  rcases hk with rfl | rfl | rfl | rfl <;> simp [termsOf, termShapes, termCount] <;> ring

theorem partTerms_square (C W : ℕ → ℝ) : ∀ (ds : List (Part ℝ)) (i : ℕ), (∀ d ∈ ds, Known d.ctype) →
    (∀ j (hj : j < ds.length), C (i + j) = termCount ds[j].ctype ∧ W (i + j) = ds[j].freq) →
    ((partTerms ds i).map (fun h => C h.phononIndex * h.coupling ^ 2 / (4 * W h.phononIndex))).sum =
      (ds.map (fun d => termCount d.ctype ^ 2 / 4 * d.g ^ 2 / d.freq)).sum
  | [], _, _, _ => by simp [partTerms]
  | d :: ds, i, hk, h => by
    rw [partTerms_cons, List.map_append, List.sum_append, termsOf_square (hk d (by simp)),
      partTerms_square C W ds (i + 1) (fun d hd => hk d (List.mem_cons_of_mem _ hd)) (fun j hj => by
        have := h (j + 1) (by simpa using hj)
        rw [show i + (j + 1) = i + 1 + j by ring] at this
        exact this)]
    obtain ⟨e1, e2⟩ := h 0 (by simp)
    rw [add_zero] at e1 e2
    rw [e1, e2, List.map_cons, List.sum_cons]
    simp only [List.getElem_cons_zero]
    congr 1
    by_cases hz : d.freq = 0
    · simp [hz]
    · field_simp

theorem blueprint_floor {hopping lattice T : ℝ} {cap : Option Int} {ds : List (Part ℝ)} (hk : ∀ d ∈ ds, Known d.ctype) :
    energyFloor (blueprint hopping lattice T cap ds) =
      -(2 * |hopping|) - (ds.map (fun d => termCount d.ctype ^ 2 / 4 * d.g ^ 2 / d.freq)).sum := by
  unfold energyFloor
  rw [← partTerms_square (fun t => (actCount (blueprint hopping lattice T cap ds) t : ℝ)) (fun t => (ds.map (·.freq)).getD t 0)
    ds 0 hk (fun j hj => ⟨by
      simp only [zero_add, actCount]
      have := partTerms_count ds 0 j hj hk
      rw [zero_add] at this
      exact this, by simp [List.getD_eq_getElem?_getD, hj]⟩)]
  rfl

end GGCE
