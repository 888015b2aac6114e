import Verif.Props.Operator
import Verif.Props.SecondOrder
import Verif.Props.Fits
import Verif.Proofs.Peak
import Verif.Spec.Peak

/-!
Property C104: peaks that stay sharp as the broadening is removed. Their weight is the overlap of the bare
electron with the states of that energy, and it is what the peak-fitting helper finds.
-/

set_option linter.unusedSectionVars false

namespace GGCE.Props
open Spec Arr Complex Filter Topology
open scoped InnerProductSpace

theorem eigenState_iff {m : Model ℝ} {ae : ℤ} {k : ℝ} {H : States →L[ℂ] States}
    (h : ∀ f n, H f n = frame m ae k f n) {E : ℝ} {ψ : States} :
    EigenState m ae k E ψ ↔ ψ ∈ eigenKer H E := by
  rw [mem_eigenKer]
  constructor
  · intro h1
    apply lp.ext
    funext n
    rw [h, h1 n]
    rfl
  · intro h1 n
    rw [← h, h1]
    rfl

theorem peakWeight_projection {m : Model ℝ} {ae : ℤ} {k : ℝ} {H : States →L[ℂ] States}
    (h : ∀ f n, H f n = frame m ae k f n) (E : ℝ) :
    PeakWeight m ae k E (‖(eigenKer H E).starProjection bare‖ ^ 2) := by
  set p := (eigenKer H E).starProjection bare with hp
  have hpm : p ∈ eigenKer H E := Submodule.starProjection_apply_mem _ _
  have hq : bare - p ∈ (eigenKer H E)ᗮ := Submodule.sub_starProjection_mem_orthogonal _
  have hov : ∀ ψ ∈ eigenKer H E, ψ 0 = ⟪p, ψ⟫_ℂ := by
    intro ψ hψ
    have h0 : ⟪bare - p, ψ⟫_ℂ = 0 := (Submodule.mem_orthogonal' _ _).1 hq ψ hψ
    rw [inner_sub_left, sub_eq_zero] at h0
    rw [← h0, inner_bare]
  refine ⟨by positivity, fun ψ hψ => ?_, ?_⟩
  · rw [hov ψ ((eigenState_iff h).1 hψ), ← mul_pow]
    exact pow_le_pow_left₀ (norm_nonneg _) (norm_inner_le_norm _ _) 2
  · by_cases h0 : p = 0
    · left; rw [h0]; simp
    · right
      have hn : ‖p‖ ≠ 0 := norm_ne_zero_iff.2 h0
      refine ⟨((‖p‖⁻¹ : ℝ) : ℂ) • p, ?_, (eigenState_iff h).2 (Submodule.smul_mem _ _ hpm), ?_⟩
      · rw [norm_smul, Complex.norm_real, norm_inv, norm_norm, inv_mul_cancel₀ hn]
      · have : (((‖p‖⁻¹ : ℝ) : ℂ) • p) 0 = ((‖p‖⁻¹ : ℝ) : ℂ) * p 0 := rfl
        rw [this, hov p hpm, norm_mul, inner_self_eq_norm_sq_to_K, Complex.norm_real]
        simp only [norm_inv, norm_norm, norm_pow, Complex.coe_algebraMap, Complex.norm_real]
        field_simp

/-- the weight is determined -/
theorem peakWeight_unique {m : Model ℝ} {ae : ℤ} {k E Z Z' : ℝ} (h : PeakWeight m ae k E Z)
    (h' : PeakWeight m ae k E Z') : Z = Z' := by
  have key : ∀ {Z Z' : ℝ}, PeakWeight m ae k E Z → PeakWeight m ae k E Z' → Z ≤ Z' := by
    intro Z Z' h h'
    rcases h.attained with e | ⟨ψ, h1, h2, h3⟩
    · rw [e]; exact h'.nonneg
    · have := h'.bound ψ h2
      rw [h1, h3] at this
      simpa using this
  exact le_antisymm (key h h') (key h' h)

/-- C104, for a well-formed model: at every momentum and every energy `E` the bare electron has a weight `Z` in
the states of that energy, between 0 and 1; `-eta Im G(k, E + i eta)` decreases to `Z` as the broadening is removed. -/
theorem C104_weight (σ : SetOrder) (m : Model ℝ) (ae : Int) (hm : WellFormed m ae) (b : Built ℝ)
    (hb : buildSystem σ m = .ok b) (hp : Physical m) (k E : ℝ) :
    ∃ Z, PeakWeight m ae k E Z ∧ Z ≤ 1 ∧ ∀ G : ℝ → ℂ, (∀ eta, 0 < eta → Returned m b ⟨k, E, eta⟩ (G eta)) →
      Tendsto (fun eta : ℝ => eta * (Real.pi * (-(G eta).im / Real.pi))) (𝓝[>] 0) (𝓝 Z) ∧
      MonotoneOn (fun eta : ℝ => eta * (Real.pi * (-(G eta).im / Real.pi))) (Set.Ioi 0) ∧
      ∀ eta, 0 < eta → Z ≤ eta * (Real.pi * (-(G eta).im / Real.pi)) := by
  obtain ⟨H, h1, h2, h3⟩ := C56_returned σ m ae hm b hb hp k
  refine ⟨_, peakWeight_projection h2 E, ?_, fun G hG => ?_⟩
  · have := (eigenKer H E).norm_starProjection_apply_le bare
    rw [norm_bare] at this
    exact pow_le_one₀ (norm_nonneg _) this
  · have hpi := Real.pi_ne_zero
    have he : ∀ eta : ℝ, 0 < eta → eta * (Real.pi * (-(G eta).im / Real.pi)) =
        -(eta * (green H bare ((E : ℂ) + eta * I)).im) := by
      intro eta heta
      rw [h3 E eta heta _ (hG eta heta), energyAt_eq]
      field_simp
    have hlim : Tendsto (fun eta : ℝ => eta * (Real.pi * (-(G eta).im / Real.pi))) (𝓝[>] 0)
        (𝓝 (‖(eigenKer H E).starProjection bare‖ ^ 2)) := by
      have h4 := (Complex.continuous_im.tendsto _).comp (green_near h1 E bare (ζ := I) (by simp))
      have h5 := h4.neg
      have e : -(I⁻¹ * ((‖(eigenKer H E).starProjection bare‖ ^ 2 : ℝ) : ℂ)).im =
          ‖(eigenKer H E).starProjection bare‖ ^ 2 := by
        rw [Complex.inv_I, Complex.im_mul_ofReal]; simp
      rw [e] at h5
      refine h5.congr' ?_
      filter_upwards [self_mem_nhdsWithin] with eta heta
      rw [he eta heta]
      simp only [Function.comp, Complex.im_ofReal_mul]
    have hmono : MonotoneOn (fun eta : ℝ => eta * (Real.pi * (-(G eta).im / Real.pi))) (Set.Ioi 0) := by
      intro x hx y hy hxy
      simp only
      rw [he x hx, he y hy]
      exact green_im_mono h1 E norm_bare hx hy hxy
    refine ⟨hlim, hmono, fun eta heta => ?_⟩
    refine le_of_tendsto hlim ?_
    filter_upwards [self_mem_nhdsWithin, Ioo_mem_nhdsGT heta] with x hx hx'
    exact hmono hx heta hx'.2.le

/-- the limits that the fitting helper sees -/
theorem near_limit {m : Model ℝ} {b : Built ℝ} {k E : ℝ} {H : States →L[ℂ] States} (h1 : IsSelfAdjoint H)
    (h3 : ∀ w eta : ℝ, 0 < eta → ∀ G, Returned m b ⟨k, w, eta⟩ G → G = green H bare (energyAt w eta))
    {s c : ℝ} (hc : 0 < c) {G : ℝ → ℂ} (hG : ∀ eta, 0 < eta → Returned m b ⟨k, E + s * eta, c * eta⟩ (G eta)) :
    Tendsto (fun eta : ℝ => eta * (-(G eta).im / Real.pi)) (𝓝[>] 0)
      (𝓝 (‖(eigenKer H E).starProjection bare‖ ^ 2 / Real.pi * (c / (s ^ 2 + c ^ 2)))) := by
  have hpi := Real.pi_ne_zero
  have h4 := (Complex.continuous_im.tendsto _).comp
    (green_near h1 E bare (ζ := (s : ℂ) + c * I) (by simpa using hc))
  have h5 := h4.neg.div_const Real.pi
  have e : -((((s : ℂ) + c * I)⁻¹ * ((‖(eigenKer H E).starProjection bare‖ ^ 2 : ℝ) : ℂ)).im) / Real.pi =
      ‖(eigenKer H E).starProjection bare‖ ^ 2 / Real.pi * (c / (s ^ 2 + c ^ 2)) := by
    rw [Complex.im_mul_ofReal, Complex.inv_im, Complex.normSq_apply]
    simp only [add_im, ofReal_im, mul_im, ofReal_re, I_re, I_im, mul_one, mul_zero, add_zero, zero_add, add_re, mul_re,
      sub_zero]
    ring
  rw [e] at h5
  refine h5.congr' ?_
  filter_upwards [self_mem_nhdsWithin] with eta heta
  have heta : 0 < eta := heta
  rw [h3 _ _ (by positivity) _ (hG eta heta), energyAt_eq]
  simp only [Function.comp, Complex.im_ofReal_mul]
  have : (((E + s * eta : ℝ) : ℂ) + ((c * eta : ℝ) : ℂ) * I) = (E : ℂ) + eta * ((s : ℂ) + c * I) := by push_cast; ring
  rw [this]
  ring

/-- the helper on two values of a sharp peak -/
theorem extract_limit {s c Z E : ℝ} (hs : s ≠ 0) (hc : 0 < c) (hc1 : c ≠ 1) (hZ : 0 < Z) {A A' : ℝ → ℝ}
    (hA : Tendsto (fun eta : ℝ => eta * A eta) (𝓝[>] 0) (𝓝 (Z / Real.pi * (1 / (s ^ 2 + 1 ^ 2)))))
    (hA' : Tendsto (fun eta : ℝ => eta * A' eta) (𝓝[>] 0) (𝓝 (Z / Real.pi * (c / (s ^ 2 + c ^ 2))))) :
    ∃ loc area : ℝ → ℝ,
      (∀ᶠ eta in 𝓝[>] (0 : ℝ), peakLocationAndWeight (E + s * eta) (A eta) (A' eta) eta (c * eta) =
        some (loc eta, area eta)) ∧
      Tendsto (fun eta => (loc eta - E) / eta) (𝓝[>] 0) (𝓝 (s - |s|)) ∧ Tendsto area (𝓝[>] 0) (𝓝 Z) := by
  have hpi := Real.pi_pos
  set a := Z / Real.pi * (1 / (s ^ 2 + 1 ^ 2)) with ha
  set a' := Z / Real.pi * (c / (s ^ 2 + c ^ 2)) with ha'
  have hs2 : 0 < s ^ 2 := by positivity
  -- the limits of the two factors
  set D1 : ℝ → ℝ := fun eta => eta * A' eta - c * (eta * A eta) with hD1
  set D2 : ℝ → ℝ := fun eta => eta * A eta - c * (eta * A' eta) with hD2
  have l1 : Tendsto D1 (𝓝[>] 0) (𝓝 (a' - c * a)) := hA'.sub (hA.const_mul c)
  have l2 : Tendsto D2 (𝓝[>] 0) (𝓝 (a - c * a')) := hA.sub (hA'.const_mul c)
  set B := Z / Real.pi / ((s ^ 2 + 1) * (s ^ 2 + c ^ 2)) * (1 - c ^ 2) with hB
  have hB0 : B ≠ 0 := by
    have : (1 - c ^ 2) ≠ 0 := by
      intro h
      apply hc1
      nlinarith
    have h2 : Z / Real.pi / ((s ^ 2 + 1) * (s ^ 2 + c ^ 2)) ≠ 0 := by positivity
    exact mul_ne_zero h2 this
  have v1 : a' - c * a = B * c := by
    rw [ha, ha', hB]; field_simp; ring
  have v2 : a - c * a' = B * s ^ 2 := by
    rw [ha, ha', hB]; field_simp; ring
  clear_value B
  have v12 : (a' - c * a) * (a - c * a') = (Real.sqrt c * (|B| * |s|)) ^ 2 := by
    rw [v1, v2, mul_pow, mul_pow, Real.sq_sqrt hc.le, sq_abs, sq_abs]; ring
  have hpos : 0 < (a' - c * a) * (a - c * a') := by
    rw [v12]
    have := abs_pos.2 hB0
    have := abs_pos.2 hs
    positivity
  have l12 : Tendsto (fun eta => D1 eta * D2 eta) (𝓝[>] 0) (𝓝 ((a' - c * a) * (a - c * a'))) := l1.mul l2
  set q : ℝ → ℝ := fun eta => Real.sqrt c * D2 eta / Real.sqrt (D1 eta * D2 eta) with hq
  have lq : Tendsto (fun eta => |q eta|) (𝓝[>] 0) (𝓝 |s|) := by
    have h1 : Tendsto q (𝓝[>] 0) (𝓝 (Real.sqrt c * (a - c * a') / Real.sqrt ((a' - c * a) * (a - c * a')))) :=
      (l2.const_mul _).div ((Real.continuous_sqrt.tendsto _).comp l12) (Real.sqrt_pos.2 hpos).ne'
    have h2 := h1.abs
    have e : |Real.sqrt c * (a - c * a') / Real.sqrt ((a' - c * a) * (a - c * a'))| = |s| := by
      rw [v12, Real.sqrt_sq (by positivity), v2, abs_div, abs_mul, abs_mul, abs_mul, abs_mul, abs_abs, abs_abs,
        abs_of_pos hs2, ← sq_abs s]
      have h3 : |Real.sqrt c| ≠ 0 := abs_ne_zero.2 (Real.sqrt_pos.2 hc).ne'
      have h4 := abs_ne_zero.2 hB0
      have h5 := abs_ne_zero.2 hs
      field_simp
    rwa [e] at h2
  refine ⟨fun eta => E + s * eta - eta * |q eta|, fun eta => Real.pi * (eta * A eta) * (|q eta| ^ 2 + 1), ?_, ?_, ?_⟩
  · filter_upwards [self_mem_nhdsWithin, l12.eventually (lt_mem_nhds hpos)] with eta heta hd
    have heta : 0 < eta := heta
    have e1 : sqrtN (eta * (c * eta)) = some (eta * Real.sqrt c) := by
      unfold sqrtN
      rw [if_neg (not_lt.2 (by positivity))]
      congr 1
      rw [show eta * (c * eta) = eta ^ 2 * c by ring, Real.sqrt_mul (by positivity), Real.sqrt_sq heta.le]
    have e2 : (A' eta * eta - A eta * (c * eta)) * (A eta * eta - A' eta * (c * eta)) = D1 eta * D2 eta := by
      simp only [hD1, hD2]; ring
    have e3 : sqrtN (D1 eta * D2 eta) = some (Real.sqrt (D1 eta * D2 eta)) := by
      unfold sqrtN; rw [if_neg (not_lt.2 hd.le)]
    have hsq : Real.sqrt (D1 eta * D2 eta) ≠ 0 := (Real.sqrt_pos.2 hd).ne'
    have e4 : divN (eta * Real.sqrt c * (A eta * eta - A' eta * (c * eta))) (Real.sqrt (D1 eta * D2 eta)) =
        some (eta * q eta) := by
      unfold divN
      rw [if_neg hsq]
      congr 1
      simp only [hq, hD2]
      ring
    unfold peakLocationAndWeight
    simp only [e1, e2, e3, Bind.bind, Option.bind, e4, Pure.pure]
    unfold divN
    rw [if_neg heta.ne']
    simp only [Option.some.injEq, Prod.mk.injEq]
    rw [abs_mul, abs_of_pos heta]
    refine ⟨rfl, ?_⟩
    field_simp
    ring
  · have : Tendsto (fun eta : ℝ => s - |q eta|) (𝓝[>] 0) (𝓝 (s - |s|)) := tendsto_const_nhds.sub lq
    refine this.congr' ?_
    filter_upwards [self_mem_nhdsWithin] with eta heta
    have heta : 0 < eta := heta
    field_simp
    ring
  · have := (hA.const_mul Real.pi).mul ((lq.pow 2).add_const 1)
    have e : Real.pi * a * (|s| ^ 2 + 1) = Z := by
      rw [ha, sq_abs]; field_simp
    rwa [e] at this

/-- C104, for a well-formed model: `peak_location_and_weight` on the spectral function at one frequency, a fixed
number `s` of broadenings above a state of energy `E` with weight `Z > 0`, and two broadenings of a fixed ratio `c`
gives, as the broadening is removed, the energy `E` to within a vanishing fraction of the broadening and the
weight `Z`. At a frequency below the state (`s < 0`) it gives `E + 2 s eta`. -/
theorem C104_extraction (σ : SetOrder) (m : Model ℝ) (ae : Int) (hm : WellFormed m ae) (b : Built ℝ)
    (hb : buildSystem σ m = .ok b) (hp : Physical m) (k E Z s c : ℝ) (hw : PeakWeight m ae k E Z) (hZ : 0 < Z)
    (hs : s ≠ 0) (hc : 0 < c) (hc1 : c ≠ 1) (G G' : ℝ → ℂ)
    (hG : ∀ eta, 0 < eta → Returned m b ⟨k, E + s * eta, eta⟩ (G eta))
    (hG' : ∀ eta, 0 < eta → Returned m b ⟨k, E + s * eta, c * eta⟩ (G' eta)) :
    ∃ loc area : ℝ → ℝ,
      (∀ᶠ eta in 𝓝[>] (0 : ℝ), peakLocationAndWeight (E + s * eta) (-(G eta).im / Real.pi) (-(G' eta).im / Real.pi)
        eta (c * eta) = some (loc eta, area eta)) ∧
      Tendsto (fun eta => (loc eta - E) / eta) (𝓝[>] 0) (𝓝 (s - |s|)) ∧ Tendsto area (𝓝[>] 0) (𝓝 Z) := by
  obtain ⟨H, h1, h2, h3⟩ := C56_returned σ m ae hm b hb hp k
  have hZe := peakWeight_unique hw (peakWeight_projection h2 E)
  have l1 := near_limit (E := E) (s := s) (c := 1) h1 h3 one_pos (G := G) (by simpa using hG)
  have l2 := near_limit (E := E) (s := s) (c := c) h1 h3 hc (G := G') hG'
  rw [← hZe] at l1 l2
  exact extract_limit hs hc hc1 hZ l1 l2

/-- C104, from the user's side. -/
theorem C104_assembled (σ : SetOrder) (hopping lattice T : ℝ)
    (hl : hopping = 0 ∨ (0 < hopping ∧ lattice = 1)) (cap : Option Int) (hcap : ∀ c, cap = some c → 1 ≤ c)
    (as : List (AddArgs ℝ)) (hne : as ≠ []) (hc : Clean realPrims hopping T as)
    (hf : ((modes T as).map (·.freq)).Nodup)
    (hb : (∀ a ∈ as, a.ctype = "BondPeierls") ∨ (∀ a ∈ as, a.ctype ≠ "BondPeierls")) :
    ∃ m b ae, (Model.fromParameters hopping lattice T cap 1).adds realPrims as = .ok m ∧
      m.absExtent = some ae ∧ buildSystem σ m = .ok b ∧ ∀ k E : ℝ, ∃ Z, PeakWeight m ae k E Z ∧ Z ≤ 1 ∧
        (∀ G : ℝ → ℂ, (∀ eta, 0 < eta → Returned m b ⟨k, E, eta⟩ (G eta)) →
          Tendsto (fun eta : ℝ => eta * (Real.pi * (-(G eta).im / Real.pi))) (𝓝[>] 0) (𝓝 Z) ∧
          ∀ eta, 0 < eta → Z ≤ eta * (Real.pi * (-(G eta).im / Real.pi))) ∧
        ∀ s c : ℝ, 0 < Z → 0 < s → 0 < c → c ≠ 1 → ∀ G G' : ℝ → ℂ,
          (∀ eta, 0 < eta → Returned m b ⟨k, E + s * eta, eta⟩ (G eta)) →
          (∀ eta, 0 < eta → Returned m b ⟨k, E + s * eta, c * eta⟩ (G' eta)) →
          ∃ loc area : ℝ → ℝ, (∀ᶠ eta in 𝓝[>] (0 : ℝ), peakLocationAndWeight (E + s * eta) (-(G eta).im / Real.pi)
              (-(G' eta).im / Real.pi) eta (c * eta) = some (loc eta, area eta)) ∧
            Tendsto (fun eta => (loc eta - E) / eta) (𝓝[>] 0) (𝓝 0) ∧ Tendsto area (𝓝[>] 0) (𝓝 Z) := by
  obtain ⟨m, b, h1, ⟨ae, h2⟩, h3⟩ := C16_assembled σ realPrims C42_names hopping lattice T cap hcap as hne hc hf hb
  have hp := physical_assembled h1 hb hl
  refine ⟨m, b, ae, h1, h2.absExtent, h3, fun k E => ?_⟩
  obtain ⟨Z, z1, z2, z3⟩ := C104_weight σ m ae h2 b h3 hp k E
  refine ⟨Z, z1, z2, fun G hG => ⟨(z3 G hG).1, (z3 G hG).2.2⟩, fun s c hZ hs hc hc1 G G' hG hG' => ?_⟩
  have := C104_extraction σ m ae h2 b h3 hp k E Z s c z1 hZ hs.ne' hc hc1 G G' hG hG'
  rwa [abs_of_pos hs, sub_self] at this

/-! ### a concrete case -/

/-- A model without hopping, one phonon of frequency 3, coupling 2: its lower state has energy -1 and weight 4/5,
which `C104_extraction` then finds. -/
theorem exPeak (σ : SetOrder) : ∃ m b ae, (Model.fromParameters (0 : ℝ) 1 0 none 1).adds realPrims
      [{ ctype := "Holstein", freq := 3, M := 1, N := 1, g := some 2 }] = .ok m ∧ WellFormed m ae ∧
    Physical m ∧ buildSystem σ m = .ok b ∧ PeakWeight m ae 0 (-1) (4 / 5) := by
  obtain ⟨m, b, h1, h3, h4⟩ := C72_second_order σ 0 1 (Or.inl rfl) none (by simp) "Holstein" (by simp) 3 2 1 le_rfl
  obtain ⟨b', k1, k2, k3⟩ := one_call σ 0 1 none (by simp) "Holstein" (by simp) 3 2 1 1 le_rfl le_rfl
  have hb := (clean_one (hopping := (0 : ℝ)) (Omega := 3) (g := 2) (ct := "Holstein") (by simp) (le_refl (1 : ℤ))
    (le_refl (1 : ℤ))).2.2
  rw [k1] at h1
  cases h1
  rw [k3] at h3
  cases h3
  have hp := physical_assembled k1 hb (Or.inl rfl)
  refine ⟨_, b, _, k1, k2, hp, k3, ?_⟩
  obtain ⟨Z, z1, -, z3⟩ := C104_weight σ _ _ k2 b k3 hp 0 (-1)
  set G : ℝ → ℂ := fun eta => secondOrder "Holstein" 2 0 3 (0 * 1) ((-1 : ℝ) + eta * I) with hG
  obtain ⟨l, -⟩ := z3 G (fun eta heta => Or.inr (h4 0 (-1) eta heta).2)
  have hval : ∀ eta : ℝ, 0 < eta → eta * (Real.pi * (-(G eta).im / Real.pi)) = (eta ^ 2 + 20) / (eta ^ 2 + 25) := by
    intro eta heta
    have hpi : (Real.pi : ℂ) ≠ 0 := by exact_mod_cast Real.pi_ne_zero
    have hG1 : G eta = 1 / ((-1 + eta * I) - 4 / (-4 + eta * I)) := by
      simp only [hG, secondOrder, secondOrderSelf, vertex]
      simp
      have : (-1 + (eta : ℂ) * I - 3) = -4 + eta * I := by ring
      rw [this]
      field_simp
      norm_num
    have h0 : (-4 + (eta : ℂ) * I) ≠ 0 := by
      intro h; have := congrArg Complex.re h; simp at this
    have h5 : (-5 + (eta : ℂ) * I) ≠ 0 := by
      intro h; have := congrArg Complex.re h; simp at this
    have hI : (eta : ℂ) ≠ 0 := by exact_mod_cast heta.ne'
    have h25 : ((eta : ℂ) ^ 2 + 25) ≠ 0 := by
      have : (eta ^ 2 + 25 : ℝ) ≠ 0 := by positivity
      exact_mod_cast this
    have hG2 : (eta : ℂ) * G eta = ((-eta / (eta ^ 2 + 25) : ℝ) : ℂ) - ((eta ^ 2 + 20) / (eta ^ 2 + 25) : ℝ) * I := by
      have e : (-1 + (eta : ℂ) * I) - 4 / (-4 + eta * I) = eta * I * (-5 + eta * I) / (-4 + eta * I) := by
        field_simp
        ring
      rw [hG1, e]
      push_cast
      field_simp
      ring_nf
      simp only [show I ^ 3 = -I by rw [pow_succ, I_sq]; ring, I_sq]
      ring
    have := congrArg Complex.im hG2
    rw [Complex.im_ofReal_mul] at this
    simp only [Complex.sub_im, Complex.ofReal_im, Complex.im_ofReal_mul, Complex.I_im] at this
    have hpi := Real.pi_ne_zero
    have e2 : eta * (Real.pi * (-(G eta).im / Real.pi)) = -(eta * (G eta).im) := by field_simp
    rw [e2, this]
    ring
  have l2 : Tendsto (fun eta : ℝ => (eta ^ 2 + 20) / (eta ^ 2 + 25)) (𝓝[>] 0) (𝓝 (4 / 5)) := by
    have : ContinuousAt (fun eta : ℝ => (eta ^ 2 + 20) / (eta ^ 2 + 25)) 0 := by
      refine ContinuousAt.div (by fun_prop) (by fun_prop) (by norm_num)
    have h := this.tendsto.mono_left (nhdsWithin_le_nhds (s := Set.Ioi 0))
    norm_num at h
    exact h
  have l3 := tendsto_nhds_unique (l2.congr' (by
    filter_upwards [self_mem_nhdsWithin] with eta heta
    exact (hval eta heta).symm)) l
  rw [l3]
  exact z1

/-- The hypotheses of the extraction are met: half a broadening above the state, and twice the broadening. -/
example (σ : SetOrder) : ∃ m b, (Model.fromParameters (0 : ℝ) 1 0 none 1).adds realPrims
      [{ ctype := "Holstein", freq := 3, M := 1, N := 1, g := some 2 }] = .ok m ∧ buildSystem σ m = .ok b ∧
    ∀ G G' : ℝ → ℂ, (∀ eta, 0 < eta → Returned m b ⟨0, -1 + 1 / 2 * eta, eta⟩ (G eta)) →
      (∀ eta, 0 < eta → Returned m b ⟨0, -1 + 1 / 2 * eta, 2 * eta⟩ (G' eta)) →
      ∃ loc area : ℝ → ℝ, (∀ᶠ eta in 𝓝[>] (0 : ℝ), peakLocationAndWeight (-1 + 1 / 2 * eta) (-(G eta).im / Real.pi)
          (-(G' eta).im / Real.pi) eta (2 * eta) = some (loc eta, area eta)) ∧
        Tendsto (fun eta => (loc eta - -1) / eta) (𝓝[>] 0) (𝓝 (1 / 2 - |1 / 2|)) ∧
        Tendsto area (𝓝[>] 0) (𝓝 (4 / 5)) := by
  obtain ⟨m, b, ae, h1, h2, h3, h4, h5⟩ := exPeak σ
  exact ⟨m, b, h1, h4, fun G G' hG hG' => C104_extraction σ m ae h2 b h4 h3 0 (-1) (4 / 5) (1 / 2) 2 h5 (by norm_num)
    (by norm_num) (by norm_num) (by norm_num) G G' hG hG'⟩

end GGCE.Props
