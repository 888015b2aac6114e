import Verif.Spec.Window
import Verif.Proofs.Floor
import Verif.Proofs.Residual
import Verif.Proofs.Broadening

/-! The Hamiltonian lies between two energies, and the weight of the spectral function beyond them. -/

set_option linter.unusedSectionVars false

namespace GGCE
open Spec Complex ComplexConjugate MeasureTheory Filter Topology
open scoped InnerProductSpace

section
variable {E : Type} [NormedAddCommGroup E] [InnerProductSpace ℂ E] [CompleteSpace E]

/-- above the spectrum, the resolvent is small -/
theorem norm_sq_above {H : E →L[ℂ] E} (hH : IsSelfAdjoint H) {e : ℝ} (he : ∀ u, (⟪u, H u⟫_ℂ).re ≤ e * ‖u‖ ^ 2) {w eta : ℝ}
    (hw : e ≤ w) {u f : E} (h : ((w : ℂ) + I * eta) • u - H u = f) : ((w - e) ^ 2 + eta ^ 2) * ‖u‖ ^ 2 ≤ ‖f‖ ^ 2 := by
  have h1 := norm_sq_below_at (H := -H) hH.neg (e := -e) (u := u) (f := -f) (by
    show _ ≤ (⟪u, -(H u)⟫_ℂ).re
    rw [inner_neg_right, Complex.neg_re]
    have := he u
    linarith) (w := -w) (eta := -eta) (by linarith) (by
      show _ - -(H u) = _
      rw [← h]
      push_cast
      rw [show (-(w : ℂ) + I * -(eta : ℂ)) = -((w : ℂ) + I * eta) by ring, neg_smul]
      abel)
  rw [norm_neg] at h1
  nlinarith [h1]

theorem energyAt_imag (w eta : ℝ) : (energyAt w eta).im = eta := by simp [energyAt]

theorem green_small {H : E →L[ℂ] E} (hH : IsSelfAdjoint H) {v : E} (hv : ‖v‖ = 1) {w eta d : ℝ} (heta : 0 < eta)
    (h : ∀ u : E, ((w : ℂ) + I * eta) • u - H u = v → (d ^ 2 + eta ^ 2) * ‖u‖ ^ 2 ≤ ‖v‖ ^ 2) :
    ‖green H v (energyAt w eta)‖ ≤ 1 / √(d ^ 2 + eta ^ 2) ∧
      -(green H v (energyAt w eta)).im / Real.pi ≤ 1 / Real.pi * (eta / (d ^ 2 + eta ^ 2)) := by
  have hz : (energyAt w eta).im ≠ 0 := by rw [energyAt_imag]; exact heta.ne'
  have hn := h _ (resolvent_apply (mem_resolventSet_of_im hH hz) v)
  rw [hv, one_pow] at hn
  change (d ^ 2 + eta ^ 2) * ‖resolvent H (energyAt w eta) v‖ ^ 2 ≤ 1 at hn
  set u := resolvent H (energyAt w eta) v with hu
  set Q := d ^ 2 + eta ^ 2 with hQ
  have hQ0 : 0 < Q := by positivity
  have hu2 : ‖u‖ ^ 2 ≤ 1 / Q := by rw [le_div_iff₀ hQ0]; linarith
  constructor
  · have h4 : ‖green H v (energyAt w eta)‖ ≤ ‖u‖ := by
      unfold green
      refine (norm_inner_le_norm _ _).trans ?_
      rw [hv, one_mul]
    refine h4.trans ?_
    rw [← Real.sqrt_sq (norm_nonneg u), one_div, ← Real.sqrt_inv, ← one_div]
    exact Real.sqrt_le_sqrt hu2
  · have hpi := Real.pi_pos
    rw [green_im hH v hz, energyAt_imag, neg_neg, ← hu, div_mul_div_comm, one_mul, div_le_div_iff₀ hpi (by positivity)]
    calc eta * ‖u‖ ^ 2 * (Real.pi * Q) = (eta * Real.pi) * (Q * ‖u‖ ^ 2) := by ring
      _ ≤ (eta * Real.pi) * 1 := mul_le_mul_of_nonneg_left hn (by positivity)
      _ = eta * Real.pi := mul_one _
end

/-- the tail of a Lorentzian -/
theorem lorentz_tail {delta L : ℝ} (hd : 0 < delta) (hL : 0 < L) (w : ℝ) :
    ∫ x in Set.Ioi (w + L), delta / ((x - w) ^ 2 + delta ^ 2) = Real.arctan (delta / L) := by
  have h1 : ∀ x ∈ Set.Ici (w + L), HasDerivAt (fun x => Real.arctan ((x - w) / delta)) (delta / ((x - w) ^ 2 + delta ^ 2)) x := by
    intro x _
    have := (((hasDerivAt_id x).sub_const w).div_const delta).arctan
    refine this.congr_deriv ?_
    simp only [id]
    field_simp
    ring
  have h2 : Tendsto (fun x => Real.arctan ((x - w) / delta)) atTop (𝓝 (Real.pi / 2)) := by
    refine (tendsto_nhds_of_tendsto_nhdsWithin Real.tendsto_arctan_atTop).comp ?_
    exact (tendsto_atTop_add_const_right _ (-w) tendsto_id).atTop_div_const hd
  rw [integral_Ioi_of_hasDerivAt_of_tendsto' h1 (lorentz_integrable hd w).integrableOn h2]
  rw [show (w + L - w) / delta = (delta / L)⁻¹ by rw [inv_div]; ring, Real.arctan_inv_of_pos (by positivity)]
  ring

theorem lorentz_tail' {delta L : ℝ} (hd : 0 < delta) (hL : 0 < L) (w : ℝ) :
    ∫ x in Set.Iic (w - L), delta / ((x - w) ^ 2 + delta ^ 2) = Real.arctan (delta / L) := by
  have := lorentz_tail hd hL (-w)
  rw [← this, show -w + L = -(w - L) by ring, ← integral_comp_neg_Iic]
  refine setIntegral_congr_fun measurableSet_Iic (fun x _ => ?_)
  congr 2
  ring

/-- a normalised function with Lorentzian tails has almost all its weight between them -/
theorem weight_between {A : ℝ → ℝ} (hi : Integrable A) (h1 : ∫ x, A x = 1) (h0 : ∀ x, 0 ≤ A x) {e e' eta L : ℝ}
    (heta : 0 < eta) (hL : 0 < L)
    (hb : ∀ x, x ≤ e → A x ≤ 1 / Real.pi * (eta / ((x - e) ^ 2 + eta ^ 2)))
    (ht : ∀ x, e' ≤ x → A x ≤ 1 / Real.pi * (eta / ((x - e') ^ 2 + eta ^ 2))) :
    1 - 2 / Real.pi * Real.arctan (eta / L) ≤ ∫ x in (e - L)..(e' + L), A x ∧ ∫ x in (e - L)..(e' + L), A x ≤ 1 := by
  have hpi := Real.pi_pos
  have a1 : ∫ x in Set.Iic (e - L), A x ≤ 1 / Real.pi * Real.arctan (eta / L) := by
    rw [← lorentz_tail' heta hL e, ← integral_const_mul]
    exact setIntegral_mono_on hi.integrableOn ((lorentz_integrable heta e).const_mul _).integrableOn measurableSet_Iic
      (fun x hx => hb x (by have : x ≤ e - L := hx; linarith))
  have a2 : ∫ x in Set.Ioi (e' + L), A x ≤ 1 / Real.pi * Real.arctan (eta / L) := by
    rw [← lorentz_tail heta hL e', ← integral_const_mul]
    exact setIntegral_mono_on hi.integrableOn ((lorentz_integrable heta e').const_mul _).integrableOn measurableSet_Ioi
      (fun x hx => ht x (by have : e' + L < x := hx; linarith))
  have a3 := intervalIntegral.integral_Iic_sub_Iic (f := A) (a := e - L) (b := e' + L) hi.integrableOn hi.integrableOn
  have a4 := intervalIntegral.integral_Iic_add_Ioi (f := A) (b := e' + L) hi.integrableOn hi.integrableOn
  rw [h1] at a4
  rw [← a3]
  have : 2 / Real.pi * Real.arctan (eta / L) = 2 * (1 / Real.pi * Real.arctan (eta / L)) := by ring
  have b1 : 0 ≤ ∫ x in Set.Iic (e - L), A x := setIntegral_nonneg measurableSet_Iic (fun x _ => h0 x)
  have b2 : 0 ≤ ∫ x in Set.Ioi (e' + L), A x := setIntegral_nonneg measurableSet_Ioi (fun x _ => h0 x)
  constructor <;> linarith

variable {m : Model ℝ} {ae : ℤ} {k : ℝ} {c : ℤ}

theorem phonons_le (hm : ListsOk m) (hz : Allowed m ae 0) {t : ℕ} (ht : t < m.nTypes) (f : L2 Occ) :
    phonons m ae t f ≤ maxNumber m t * ‖f‖ ^ 2 := by
  classical
  rw [L2.norm_sq, ← tsum_mul_left]
  refine (phonons_summable hm t f).tsum_le_tsum (fun n => ?_) ((L2.summable f).mul_left _)
  refine mul_le_mul_of_nonneg_right ?_ (by positivity)
  split
  · rename_i hn
    exact hn.total_le_max hm ht
  · exact maxNumber_nonneg hm hz ht

theorem hamOp_inner (f : L2 Occ) : ⟪f, hamOp m ae k f⟫_ℂ = ⟪f, wcomp (wE m ae) (Equiv.refl _) f⟫_ℂ +
      (⟪f, wcomp (wH m ae k) (shiftE 1) f⟫_ℂ + ⟪f, wcomp (wH m ae (-k)) (shiftE (-1)) f⟫_ℂ) +
      ⟪f, intOp m ae k f⟫_ℂ := by
  rw [← inner_add_right, ← inner_add_right, ← inner_add_right]; rfl

/-- the Hamiltonian lies between two energies -/
theorem hamOp_window (hm : ListsOk m) (hz : Allowed m ae 0) (hi : ∀ h ∈ m.ham.terms, h.phononIndex < m.nTypes)
    (f : L2 Occ) : bandBottom m * ‖f‖ ^ 2 ≤ (⟪f, hamOp m ae k f⟫_ℂ).re ∧
      (⟪f, hamOp m ae k f⟫_ℂ).re ≤ bandTop m * ‖f‖ ^ 2 := by
  have hop : ∀ (A : L2 Occ →L[ℂ] L2 Occ) (D : ℝ), ‖A‖ ≤ D → |(⟪f, A f⟫_ℂ).re| ≤ D * ‖f‖ ^ 2 := by
    intro A D hA
    refine (Complex.abs_re_le_norm _).trans ((norm_inner_le_norm _ _).trans ?_)
    have h2 := (A.le_opNorm f).trans (mul_le_mul_of_nonneg_right hA (norm_nonneg f))
    nlinarith [mul_le_mul_of_nonneg_left h2 (norm_nonneg f)]
  have a1 := abs_le.1 (hop (wcomp (wH m ae k) (shiftE 1)) _ (wcomp_norm (abs_nonneg _) (wH_bound k) _))
  have a2 := abs_le.1 (hop (wcomp (wH m ae (-k)) (shiftE (-1))) _ (wcomp_norm (abs_nonneg _) (wH_bound (-k)) _))
  have a3 := abs_le.1 (hop (intOp m ae k) _ (intOp_norm (k := k) hm hi))
  rw [hamOp_inner, Complex.add_re, Complex.add_re, Complex.add_re, energy_inner hm]
  have b1 : (∑ t ∈ Finset.range m.nTypes, min 0 (m.ham.freqs.getD t 0) * maxNumber m t) * ‖f‖ ^ 2 ≤
      ∑ t ∈ Finset.range m.nTypes, m.ham.freqs.getD t 0 * phonons m ae t f := by
    rw [Finset.sum_mul]
    refine Finset.sum_le_sum (fun t ht => ?_)
    have p1 := phonons_le hm hz (Finset.mem_range.1 ht) f
    have p0 := phonons_nonneg (m := m) (ae := ae) t f
    have q1 := min_le_left 0 (m.ham.freqs.getD t 0)
    have q2 := min_le_right 0 (m.ham.freqs.getD t 0)
    calc min 0 (m.ham.freqs.getD t 0) * maxNumber m t * ‖f‖ ^ 2
        = min 0 (m.ham.freqs.getD t 0) * (maxNumber m t * ‖f‖ ^ 2) := by ring
      _ ≤ min 0 (m.ham.freqs.getD t 0) * phonons m ae t f := mul_le_mul_of_nonpos_left p1 q1
      _ ≤ _ := mul_le_mul_of_nonneg_right q2 p0
  have b2 : ∑ t ∈ Finset.range m.nTypes, m.ham.freqs.getD t 0 * phonons m ae t f ≤
      (∑ t ∈ Finset.range m.nTypes, max 0 (m.ham.freqs.getD t 0) * maxNumber m t) * ‖f‖ ^ 2 := by
    rw [Finset.sum_mul]
    refine Finset.sum_le_sum (fun t ht => ?_)
    have p1 := phonons_le hm hz (Finset.mem_range.1 ht) f
    have p0 := phonons_nonneg (m := m) (ae := ae) t f
    have q1 := le_max_left 0 (m.ham.freqs.getD t 0)
    have q2 := le_max_right 0 (m.ham.freqs.getD t 0)
    calc m.ham.freqs.getD t 0 * phonons m ae t f
        ≤ max 0 (m.ham.freqs.getD t 0) * phonons m ae t f := mul_le_mul_of_nonneg_right q2 p0
      _ ≤ max 0 (m.ham.freqs.getD t 0) * (maxNumber m t * ‖f‖ ^ 2) := mul_le_mul_of_nonneg_left p1 q1
      _ = _ := by ring
  unfold bandBottom bandTop
  constructor <;> nlinarith [a1.1, a1.2, a2.1, a2.2, a3.1, a3.2]

end GGCE
