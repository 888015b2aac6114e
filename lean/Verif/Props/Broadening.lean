import Mathlib.Analysis.Complex.CauchyIntegral
import Mathlib.Analysis.Analytic.Uniqueness
import Mathlib.Analysis.Complex.Convex
import Verif.Props.Operator
import Verif.Proofs.Broadening

/-!
Properties C81 and C82: what the broadening does, and that the spectral function at one broadening determines the
Green's function at all of them.
-/

set_option linter.unusedSectionVars false

namespace GGCE.Props
open Spec Arr Complex ComplexConjugate Filter Topology MeasureTheory

/-- **C81**. Raising the broadening from `eta` to `eta + delta` replaces the Green's function by its average over the
frequency, weighted with a Lorentzian of half width `delta`. -/
theorem C81_average (σ : SetOrder) (m : Model ℝ) (ae : Int) (hm : WellFormed m ae) (b : Built ℝ)
    (hb : buildSystem σ m = .ok b) (hp : Physical m) (k w eta delta : ℝ) (heta : 0 < eta) (hd : 0 < delta) (G : ℝ → ℂ)
    (hG : ∀ x, Returned m b ⟨k, x, eta⟩ (G x)) (G' : ℂ) (hG' : Returned m b ⟨k, w, eta + delta⟩ G') :
    Integrable (fun x : ℝ => ((1 / Real.pi * (delta / ((x - w) ^ 2 + delta ^ 2)) : ℝ) : ℂ) * G x) ∧
      ∫ x : ℝ, ((1 / Real.pi * (delta / ((x - w) ^ 2 + delta ^ 2)) : ℝ) : ℂ) * G x = G' := by
  obtain ⟨H, h1, h2, h3⟩ := C56_returned σ m ae hm b hb hp k
  have e : G = fun w : ℝ => green H bare (w + eta * I) := by
    funext w
    rw [h3 w eta heta _ (hG w), energyAt_eq]
  have e' : G' = green H bare (w + (eta + delta : ℝ) * I) := by
    rw [h3 w (eta + delta) (by positivity) _ hG', energyAt_eq]
  subst e
  obtain ⟨h4, h5⟩ := green_lorentz h1 norm_bare heta hd w
  have hpi : (Real.pi : ℂ) ≠ 0 := by exact_mod_cast Real.pi_ne_zero
  simp only [Complex.ofReal_mul, mul_assoc] at h4 h5 ⊢
  refine ⟨h4.const_mul _, ?_⟩
  rw [integral_const_mul, h5, e']
  push_cast
  field_simp

/-- C81 for the spectral function `A = -Im G / π`: what is computed with a larger broadening is the result for the
smaller one, smeared out. -/
theorem C81_spectral (σ : SetOrder) (m : Model ℝ) (ae : Int) (hm : WellFormed m ae) (b : Built ℝ)
    (hb : buildSystem σ m = .ok b) (hp : Physical m) (k w eta delta : ℝ) (heta : 0 < eta) (hd : 0 < delta) (G : ℝ → ℂ)
    (hG : ∀ x, Returned m b ⟨k, x, eta⟩ (G x)) (G' : ℂ) (hG' : Returned m b ⟨k, w, eta + delta⟩ G') :
    ∫ x : ℝ, 1 / Real.pi * (delta / ((x - w) ^ 2 + delta ^ 2)) * (-(G x).im / Real.pi) = -G'.im / Real.pi := by
  obtain ⟨h1, h2⟩ := C81_average σ m ae hm b hb hp k w eta delta heta hd G hG G' hG'
  have h3 := integral_im h1
  rw [h2] at h3
  have h4 : ∫ x : ℝ, 1 / Real.pi * (delta / ((x - w) ^ 2 + delta ^ 2)) * (G x).im = G'.im := by
    rw [← show RCLike.im G' = G'.im from rfl, ← h3]
    congr 1
    funext x
    exact (Complex.im_ofReal_mul _ _).symm
  rw [← h4, ← integral_neg, ← integral_div]
  congr 1
  funext x
  ring

/-- the Lorentzian weights are positive and sum to one -/
theorem lorentz_bound {f : ℝ → ℝ} {B w delta : ℝ} (hd : 0 < delta)
    (hi : Integrable (fun x : ℝ => 1 / Real.pi * (delta / ((x - w) ^ 2 + delta ^ 2)) * f x)) (hf : ∀ x, f x ≤ B) :
    ∫ x : ℝ, 1 / Real.pi * (delta / ((x - w) ^ 2 + delta ^ 2)) * f x ≤ B := by
  have hw := ((lorentz_integrable hd w).const_mul (1 / Real.pi)).mul_const B
  have hpi := Real.pi_pos
  refine (integral_mono hi hw (fun x => ?_)).trans (le_of_eq ?_)
  · exact mul_le_mul_of_nonneg_left (hf x) (by positivity)
  · rw [integral_mul_const, integral_const_mul, lorentz_integral hd]
    field_simp

/-- C81, peaks. If no value of the spectral function at broadening `eta` is above `B`, then none is at a larger
broadening; and if none is below `B'`, then none is at a larger broadening. So peaks get lower and gaps get filled. -/
theorem C81_peaks (σ : SetOrder) (m : Model ℝ) (ae : Int) (hm : WellFormed m ae) (b : Built ℝ)
    (hb : buildSystem σ m = .ok b) (hp : Physical m) (k w eta eta' : ℝ) (heta : 0 < eta) (hd : eta ≤ eta') (G : ℝ → ℂ)
    (hG : ∀ x, Returned m b ⟨k, x, eta⟩ (G x)) (G' : ℂ) (hG' : Returned m b ⟨k, w, eta'⟩ G') (B B' : ℝ)
    (hB : ∀ x, -(G x).im / Real.pi ≤ B) (hB' : ∀ x, B' ≤ -(G x).im / Real.pi) :
    B' ≤ -G'.im / Real.pi ∧ -G'.im / Real.pi ≤ B := by
  rcases hd.eq_or_lt with rfl | hd
  · obtain ⟨H, -, -, h3⟩ := C56_returned σ m ae hm b hb hp k
    rw [show G' = G w by rw [h3 w eta heta _ (hG w), h3 w eta heta _ hG']]
    exact ⟨hB' w, hB w⟩
  obtain ⟨delta, hdelta, rfl⟩ : ∃ delta, 0 < delta ∧ eta' = eta + delta := ⟨eta' - eta, by linarith, by ring⟩
  have h := C81_spectral σ m ae hm b hb hp k w eta delta heta hdelta G hG G' hG'
  have hi : Integrable (fun x : ℝ => 1 / Real.pi * (delta / ((x - w) ^ 2 + delta ^ 2)) * (-(G x).im / Real.pi)) := by
    have := ((C81_average σ m ae hm b hb hp k w eta delta heta hdelta G hG G' hG').1.im).const_mul (-(1 / Real.pi))
    refine this.congr (Eventually.of_forall (fun x => ?_))
    simp only
    rw [show RCLike.im (((1 / Real.pi * (delta / ((x - w) ^ 2 + delta ^ 2)) : ℝ) : ℂ) * G x) =
      (1 / Real.pi * (delta / ((x - w) ^ 2 + delta ^ 2))) * (G x).im from Complex.im_ofReal_mul _ _]
    ring
  refine ⟨?_, h ▸ lorentz_bound hdelta hi hB⟩
  have h2 := lorentz_bound (w := w) hdelta (f := fun x => -(-(G x).im / Real.pi)) (B := -B')
    (by simp only [mul_neg]; exact hi.neg) (fun x => neg_le_neg (hB' x))
  simp only [mul_neg] at h2
  rw [integral_neg, h] at h2
  linarith

/-! ### C82 -/

/-- **C82**, the spectral representation. With `A(x) = -Im G(k, x, eta)/π` computed at broadening `eta`,
`G(k, w, eta + delta) = ∫ dx A(x) / (w - x + i delta)`: real and imaginary part of the returned numbers belong
together as in the Kramers–Kronig relation. -/
theorem C82_representation (σ : SetOrder) (m : Model ℝ) (ae : Int) (hm : WellFormed m ae) (b : Built ℝ)
    (hb : buildSystem σ m = .ok b) (hp : Physical m) (k w eta delta : ℝ) (heta : 0 < eta) (hd : 0 < delta) (G : ℝ → ℂ)
    (hG : ∀ x, Returned m b ⟨k, x, eta⟩ (G x)) (G' : ℂ) (hG' : Returned m b ⟨k, w, eta + delta⟩ G') :
    Integrable (fun x : ℝ => ((-(G x).im / Real.pi : ℝ) : ℂ) / ((w - x : ℂ) + delta * I)) ∧
      ∫ x : ℝ, ((-(G x).im / Real.pi : ℝ) : ℂ) / ((w - x : ℂ) + delta * I) = G' := by
  obtain ⟨H, h1, h2, h3⟩ := C56_returned σ m ae hm b hb hp k
  have e : G = fun w : ℝ => green H bare (w + eta * I) := by
    funext w
    rw [h3 w eta heta _ (hG w), energyAt_eq]
  have e' : G' = green H bare (w + (eta + delta : ℝ) * I) := by
    rw [h3 w (eta + delta) (by positivity) _ hG', energyAt_eq]
  subst e
  obtain ⟨h4, h5⟩ := green_spectral h1 norm_bare heta hd w
  have hpi : (Real.pi : ℂ) ≠ 0 := by exact_mod_cast Real.pi_ne_zero
  have e : ∀ x : ℝ, ((-(green H bare (x + eta * I)).im / Real.pi : ℝ) : ℂ) / ((w - x : ℂ) + delta * I) =
      1 / Real.pi * (((green H bare (x + eta * I)).im : ℂ) / ((x - w : ℂ) - delta * I)) := by
    intro x
    rw [show (w - x : ℂ) + delta * I = -((x - w : ℂ) - delta * I) by ring]
    push_cast
    rw [div_neg, neg_div, neg_div, neg_neg]
    ring
  simp only [e]
  refine ⟨h4.const_mul _, ?_⟩
  rw [integral_const_mul, h5, e']
  field_simp

/-- **C82**. The spectral function on the whole axis at a single broadening determines everything: two models,
whatever their couplings and limits, with the same spectral function at momentum `k` resp. `k'` and broadening `eta`
have the same Green's function there at all frequencies and all broadenings. -/
theorem C82_determined (σ σ' : SetOrder) (m m' : Model ℝ) (ae ae' : Int) (hm : WellFormed m ae) (hm' : WellFormed m' ae')
    (b b' : Built ℝ) (hb : buildSystem σ m = .ok b) (hb' : buildSystem σ' m' = .ok b') (hp : Physical m)
    (hp' : Physical m') (k k' eta : ℝ) (heta : 0 < eta) (F F' : ℝ → ℂ)
    (hF : ∀ x, Returned m b ⟨k, x, eta⟩ (F x)) (hF' : ∀ x, Returned m' b' ⟨k', x, eta⟩ (F' x))
    (hsame : ∀ x, -(F x).im / Real.pi = -(F' x).im / Real.pi)
    (w eta' : ℝ) (heta' : 0 < eta') (G G' : ℂ) (hG : Returned m b ⟨k, w, eta'⟩ G)
    (hG' : Returned m' b' ⟨k', w, eta'⟩ G') : G = G' := by
  obtain ⟨H, h1, h2, h3⟩ := C56_returned σ m ae hm b hb hp k
  obtain ⟨H', h1', h2', h3'⟩ := C56_returned σ' m' ae' hm' b' hb' hp' k'
  rw [h3 w eta' heta' G hG, h3' w eta' heta' G' hG']
  have hU : IsOpen {z : ℂ | 0 < z.im} := isOpen_lt continuous_const Complex.continuous_im
  have hconv : IsPreconnected {z : ℂ | 0 < z.im} := (convex_halfSpace_im_gt 0).isPreconnected
  have hA : AnalyticOnNhd ℂ (green H bare) {z : ℂ | 0 < z.im} := DifferentiableOn.analyticOnNhd (fun z hz =>
    (green_differentiable h1 _ (ne_of_gt hz)).differentiableWithinAt) hU
  have hA' : AnalyticOnNhd ℂ (green H' bare) {z : ℂ | 0 < z.im} := DifferentiableOn.analyticOnNhd (fun z hz =>
    (green_differentiable h1' _ (ne_of_gt hz)).differentiableWithinAt) hU
  have heq : ∀ z : ℂ, eta < z.im → green H bare z = green H' bare z := by
    intro z hz
    have a1 := (green_spectral h1 norm_bare heta (sub_pos.2 hz) z.re).2
    have a2 := (green_spectral h1' norm_bare heta (sub_pos.2 hz) z.re).2
    have e : ∀ x : ℝ, (green H bare (x + eta * I)).im = (green H' bare (x + eta * I)).im := by
      intro x
      have := hsame x
      rw [h3 x eta heta _ (hF x), h3' x eta heta _ (hF' x), energyAt_eq] at this
      have hpi := Real.pi_ne_zero
      field_simp at this
      exact neg_injective this
    simp only [e] at a1
    rw [a1, add_sub_cancel, Complex.re_add_im] at a2
    exact mul_left_cancel₀ (by exact_mod_cast Real.pi_ne_zero) a2
  have hnhd : green H bare =ᶠ[𝓝 ((eta + 1 : ℝ) * I)] green H' bare := by
    have : {z : ℂ | eta < z.im} ∈ 𝓝 (((eta + 1 : ℝ) : ℂ) * I) :=
      (isOpen_lt continuous_const Complex.continuous_im).mem_nhds (by simp)
    filter_upwards [this] with z hz
    exact heq z hz
  have hmem : ((eta + 1 : ℝ) : ℂ) * I ∈ {z : ℂ | 0 < z.im} := by
    show 0 < (((eta + 1 : ℝ) : ℂ) * I).im
    simp only [Complex.mul_im, Complex.ofReal_re, Complex.I_im, Complex.ofReal_im, Complex.I_re]
    linarith
  exact hA.eqOn_of_preconnected_of_eventuallyEq hA' hconv hmem hnhd
    (show 0 < (energyAt w eta').im by rw [energyAt_im]; exact heta')

/-- The hypotheses of C81 and C82 are met by a Holstein–Peierls model: the result at broadening 2 is the result at
broadening 1, averaged. -/
example (σ : SetOrder) (k w : ℝ) :
    ∃ (m : Model ℝ) (b : Built ℝ) (G G' : ℝ → ℂ), (Model.fromParameters (1 : ℝ) 1 0 none 1).adds realPrims exCalls = .ok m ∧
      buildSystem σ m = .ok b ∧ (∀ x, Returned m b ⟨k, x, 1⟩ (G x)) ∧ (∀ x, Returned m b ⟨k, x, 2⟩ (G' x)) ∧
      ∫ x : ℝ, 1 / Real.pi * (1 / ((x - w) ^ 2 + 1)) * (-(G x).im / Real.pi) = -(G' w).im / Real.pi := by
  obtain ⟨h1, h2, h3⟩ := exCalls_clean
  obtain ⟨m, b, k1, ⟨ae, k2⟩, k3⟩ := C16_assembled σ realPrims C42_names 1 1 0 none (by simp) exCalls
    (by simp [exCalls]) h1 h2 (Or.inr h3)
  have hp := physical_assembled k1 (Or.inr h3) (Or.inr ⟨one_pos, rfl⟩)
  obtain ⟨H, -, -, k4⟩ := C56_operator σ m ae k2 b k3 hp k
  have g1 : ∀ x, Returned m b ⟨k, x, 1⟩ _ := fun x => Or.inr (k4 x 1 one_pos).2.2
  have g2 : ∀ x, Returned m b ⟨k, x, 2⟩ _ := fun x => Or.inr (k4 x 2 two_pos).2.2
  refine ⟨m, b, _, _, k1, k3, g1, g2, ?_⟩
  have := C81_spectral σ m ae k2 b k3 hp k w 1 1 one_pos one_pos _ g1 _ (by rw [one_add_one_eq_two]; exact g2 w)
  rw [← this]
  simp only [one_pow]

end GGCE.Props
