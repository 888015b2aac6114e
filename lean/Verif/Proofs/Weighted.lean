import Mathlib.Analysis.InnerProductSpace.l2Space
import Mathlib.Analysis.InnerProductSpace.Adjoint

/-! Weighted permutations of square-summable families: the building blocks of a lattice Hamiltonian. -/

namespace GGCE
open ComplexConjugate
open scoped lp ENNReal InnerProductSpace

variable {ι : Type}

/-- square-summable families of complex numbers -/
noncomputable abbrev L2 (ι : Type) : Type := ↥(lp (fun _ : ι => ℂ) 2)

theorem two_pos' : 0 < (2 : ℝ≥0∞).toReal := by norm_num

theorem memL2_iff {f : ι → ℂ} : Memℓp f 2 ↔ Summable (fun i => ‖f i‖ ^ 2) := by
  rw [memℓp_gen_iff two_pos']
  norm_num

theorem L2.summable (f : L2 ι) : Summable (fun i => ‖f i‖ ^ 2) := memL2_iff.1 (lp.memℓp f)

theorem L2.norm_sq (f : L2 ι) : ‖f‖ ^ 2 = ∑' i, ‖f i‖ ^ 2 := by
  have := lp.norm_rpow_eq_tsum two_pos' f
  norm_num at this
  exact this

/-- `f ↦ w · (f ∘ τ)` -/
noncomputable def wcompLin (w : ι → ℂ) (τ : ι ≃ ι) (C : ℝ) (hw : ∀ i, ‖w i‖ ≤ C) : L2 ι →ₗ[ℂ] L2 ι where
  toFun f := ⟨fun i => w i * f (τ i), memL2_iff.2 (by
    have h := (τ.summable_iff.2 (L2.summable f)).mul_left (C ^ 2)
    refine h.of_nonneg_of_le (fun i => by positivity) (fun i => ?_)
    rw [norm_mul, mul_pow]
    exact mul_le_mul_of_nonneg_right (pow_le_pow_left₀ (norm_nonneg _) (hw i) 2) (by positivity))⟩
  map_add' f g := by
    ext i
    show w i * (f (τ i) + g (τ i)) = w i * f (τ i) + w i * g (τ i)
    ring
  map_smul' z f := by
    ext i
    show w i * (z * f (τ i)) = z * (w i * f (τ i))
    ring

theorem wcompLin_apply (w : ι → ℂ) (τ : ι ≃ ι) (C : ℝ) (hw : ∀ i, ‖w i‖ ≤ C) (f : L2 ι) (i : ι) :
    wcompLin w τ C hw f i = w i * f (τ i) := rfl

theorem wcompLin_norm (w : ι → ℂ) (τ : ι ≃ ι) (C : ℝ) (hC : 0 ≤ C) (hw : ∀ i, ‖w i‖ ≤ C) (f : L2 ι) :
    ‖wcompLin w τ C hw f‖ ≤ C * ‖f‖ := by
  refine le_of_sq_le_sq ?_ (by positivity)
  rw [mul_pow, L2.norm_sq, L2.norm_sq, ← τ.tsum_eq (fun i => ‖f i‖ ^ 2), ← tsum_mul_left]
  refine (L2.summable _).tsum_le_tsum (fun i => ?_) ((τ.summable_iff.2 (L2.summable f)).mul_left _)
  rw [wcompLin_apply, norm_mul, mul_pow]
  exact mul_le_mul_of_nonneg_right (pow_le_pow_left₀ (norm_nonneg _) (hw i) 2) (by positivity)
where
  le_of_sq_le_sq {a b : ℝ} (h : a ^ 2 ≤ b ^ 2) (hb : 0 ≤ b) : a ≤ b := by nlinarith [abs_le_of_sq_le_sq h hb, le_abs_self a]

open Classical in
/-- the weighted permutation as a bounded operator (zero if the weights are not bounded) -/
noncomputable def wcomp (w : ι → ℂ) (τ : ι ≃ ι) : L2 ι →L[ℂ] L2 ι :=
  if h : ∃ C, ∀ i, ‖w i‖ ≤ C then
    (wcompLin w τ (max h.choose 0) (fun i => (h.choose_spec i).trans (le_max_left _ _))).mkContinuous
      (max h.choose 0) (wcompLin_norm w τ _ (le_max_right _ _) _)
  else 0

theorem wcomp_apply {w : ι → ℂ} {C : ℝ} (hw : ∀ i, ‖w i‖ ≤ C) (τ : ι ≃ ι) (f : L2 ι) (i : ι) :
    wcomp w τ f i = w i * f (τ i) := by
  have h : ∃ C, ∀ i, ‖w i‖ ≤ C := ⟨C, hw⟩
  unfold wcomp
  rw [dif_pos h]
  rfl

theorem wcomp_norm {w : ι → ℂ} {C : ℝ} (hC : 0 ≤ C) (hw : ∀ i, ‖w i‖ ≤ C) (τ : ι ≃ ι) : ‖wcomp w τ‖ ≤ C := by
  refine ContinuousLinearMap.opNorm_le_bound _ hC (fun f => ?_)
  have : wcomp w τ f = wcompLin w τ C hw f := by
    ext i
    rw [wcomp_apply hw, wcompLin_apply]
  rw [this]
  exact wcompLin_norm w τ C hC hw f

theorem wcomp_inner {w w' : ι → ℂ} {C : ℝ} (hw : ∀ i, ‖w i‖ ≤ C) (hw' : ∀ i, ‖w' i‖ ≤ C) (τ τ' : ι ≃ ι)
    (h1 : ∀ i, τ' (τ i) = i) (h2 : ∀ i, w' (τ i) = conj (w i)) (f g : L2 ι) :
    ⟪wcomp w τ f, g⟫_ℂ = ⟪f, wcomp w' τ' g⟫_ℂ := by
  rw [lp.inner_eq_tsum, lp.inner_eq_tsum, ← τ.tsum_eq (fun i => ⟪f i, wcomp w' τ' g i⟫_ℂ)]
  refine tsum_congr (fun i => ?_)
  rw [wcomp_apply hw, wcomp_apply hw', h1, h2]
  simp only [RCLike.inner_apply, map_mul]
  ring

theorem wcomp_adjoint {w w' : ι → ℂ} {C : ℝ} (hw : ∀ i, ‖w i‖ ≤ C) (hw' : ∀ i, ‖w' i‖ ≤ C) (τ τ' : ι ≃ ι)
    (h1 : ∀ i, τ' (τ i) = i) (h2 : ∀ i, w' (τ i) = conj (w i)) : star (wcomp w τ) = wcomp w' τ' := by
  rw [ContinuousLinearMap.star_eq_adjoint]
  symm
  rw [ContinuousLinearMap.eq_adjoint_iff]
  intro f g
  rw [← inner_conj_symm, ← inner_conj_symm f, wcomp_inner hw hw' τ τ' h1 h2]

end GGCE
