import Verif.Spec.SelfEnergy
import Verif.Proofs.SelfEnergy
import Verif.Props.Sumrules

/-!
Property C90: the self-energy behind the returned numbers.
-/

set_option linter.unusedSectionVars false

namespace GGCE.Props
open Spec Arr Complex
open scoped InnerProductSpace

theorem impliedSelf_green {H : States →L[ℂ] States} {ε w eta : ℝ} :
    impliedSelf ε w eta (green H bare (energyAt w eta)) = energyAt w eta - ε - 1 / green H bare (energyAt w eta) := rfl

/-- C90, for well-formed models: the returned number is not zero, and the self-energy it implies has no positive imaginary
part. -/
theorem C90_causal (σ : SetOrder) (m : Model ℝ) (ae : Int) (hm : WellFormed m ae) (b : Built ℝ)
    (hb : buildSystem σ m = .ok b) (hp : Physical m) (k w eta : ℝ) (heta : 0 < eta) (G : ℂ)
    (hG : Returned m b ⟨k, w, eta⟩ G) :
    G ≠ 0 ∧ (impliedSelf (-(2 * m.ham.hopping * Real.cos (k * m.latticeConstant))) w eta G).im ≤ 0 := by
  obtain ⟨H, h1, h2, h3⟩ := C56_returned σ m ae hm b hb hp k
  have hz : 0 < (energyAt w eta).im := by rw [energyAt_im]; exact heta
  obtain ⟨q1, q2, -⟩ := self_energy h1 norm_bare (mean_energy hm.toShaped h2) hz
  rw [h3 w eta heta G hG]
  exact ⟨q1, q2⟩

/-- the length of `H` on the bare state, whatever the limits -/
theorem norm_sq_bare {m : Model ℝ} {ae : ℤ} {k : ℝ} (hm : WellFormed m ae) (hp : Physical m) {H : States →L[ℂ] States}
    (h2 : ∀ f n, H f n = frame m ae k f n) : ‖H bare‖ ^ 2 ≤ (moment m k 2).re := by
  obtain ⟨c, hsh⟩ := hp.shifts
  have hQ := hops_ok (k := k) hsh hp.adj
  have hsub := hops_sub (k := k) hm.toListsOk (allowed_zero hm.toShaped)
  have hop : H = (hops m k).op (Allowed m ae) := by
    ext f n
    rw [h2, Hops.op_apply hQ hsub, hops_act_allowed]
  have h := Hops.pow_norm hQ hsub (v := bare) (bare_iter m k) inner_bare (J := 0) (fun n hn => by
    have : n = 0 := hn
    rw [this]; exact allowed_zero hm.toShaped)
  rw [← hop, iter_powers, zero_add, pow_one] at h
  exact h

/-- **C90**, from the user's side: the self-energy has no positive imaginary part and is at most the variance of the
spectral function over `eta`, whatever the limits; and so the returned number differs from the free propagator by at most
that times the product of the two. -/
theorem C90_assembled (σ : SetOrder) (hopping lattice T : ℝ)
    (hl : hopping = 0 ∨ (0 < hopping ∧ lattice = 1)) (cap : Option Int) (hcap : ∀ c, cap = some c → 1 ≤ c)
    (as : List (AddArgs ℝ)) (hne : as ≠ []) (hc : Clean realPrims hopping T as)
    (hf : ((modes T as).map (·.freq)).Nodup)
    (hb : (∀ a ∈ as, a.ctype = "BondPeierls") ∨ (∀ a ∈ as, a.ctype ≠ "BondPeierls"))
    (hpos : 0 < T → ∀ a ∈ as, 0 < a.freq) :
    ∃ m b, (Model.fromParameters hopping lattice T cap 1).adds realPrims as = .ok m ∧ buildSystem σ m = .ok b ∧
      ∀ k w eta ε V : ℝ, 0 < eta → ε = -(2 * hopping * Real.cos (k * lattice)) → V = variance hopping T (k * lattice) as →
        ∃ G, Gives m b ⟨k, w, eta⟩ G ∧ G ≠ 0 ∧ (impliedSelf ε w eta G).im ≤ 0 ∧ ‖impliedSelf ε w eta G‖ ≤ V / eta ∧
          1 / (‖(w : ℂ) + I * eta - ε‖ + V / eta) ≤ ‖G‖ ∧
          ‖G - 1 / ((w : ℂ) + I * eta - ε)‖ ≤ V / eta * ‖G‖ * ‖1 / ((w : ℂ) + I * eta - ε)‖ := by
  obtain ⟨m, b, h1, ⟨ae, h2⟩, h3⟩ := C16_assembled σ realPrims C42_names hopping lattice T cap hcap as hne hc hf hb
  have hp := physical_assembled h1 hb hl
  refine ⟨m, b, h1, h3, fun k w eta ε V heta hε hV => ?_⟩
  obtain ⟨H, k1, k2, h⟩ := C56_operator σ m ae h2 b h3 hp k
  obtain ⟨-, g1, g2⟩ := h w eta heta
  have hz : 0 < (energyAt w eta).im := by rw [energyAt_im]; exact heta
  have hham : m.ham.hopping = hopping ∧ m.latticeConstant = lattice := by
    have := h1
    rw [fromParameters_blueprint hopping lattice T cap as hc hf] at this
    cases this
    exact ⟨rfl, rfl⟩
  have hmean := mean_energy h2.toShaped k2
  rw [hham.1, hham.2, ← hε] at hmean
  obtain ⟨q1, q2, q3⟩ := self_energy k1 norm_bare hmean hz
  obtain ⟨-, -, m2⟩ := moments_assembled hc hf hpos h1 k
  have hn := norm_sq_bare h2 hp k2
  rw [m2, Complex.ofReal_re, ← hε, ← hV] at hn
  refine ⟨green H bare (energyAt w eta), ⟨g1, g2⟩, q1, q2, ?_⟩
  rw [energyAt_im] at q3
  rw [impliedSelf_green]
  set G := green H bare (energyAt w eta) with hG
  have e0 : (w : ℂ) + I * eta - ε = energyAt w eta - ε := rfl
  rw [e0]
  set z := energyAt w eta with hzd
  have hS : ‖z - ε - 1 / G‖ ≤ V / eta := q3.trans (div_le_div_of_nonneg_right (by linarith) heta.le)
  have hzε : z - (ε : ℂ) ≠ 0 := by
    intro q
    have := congrArg Complex.im q
    rw [Complex.sub_im, Complex.ofReal_im, sub_zero, Complex.zero_im] at this
    exact hz.ne' this
  have hGn : 0 < ‖G‖ := norm_pos_iff.2 q1
  refine ⟨hS, ?_, ?_⟩
  · have h5 : ‖1 / G‖ ≤ ‖z - ε‖ + V / eta := by
      have : 1 / G = (z - ε) - (z - ε - 1 / G) := by ring
      rw [this]
      exact (norm_sub_le _ _).trans (by linarith)
    rw [norm_div, norm_one] at h5
    have h6 : 0 < ‖z - ε‖ + V / eta := lt_of_lt_of_le (by positivity) h5
    rw [div_le_iff₀ h6]
    rw [div_le_iff₀ hGn] at h5
    linarith
  · have h5 : G - 1 / (z - ε) = (z - ε - 1 / G) * G * (1 / (z - ε)) := by
      field_simp
    rw [h5, norm_mul, norm_mul]
    gcongr

/-- The hypotheses are met by a Holstein–Peierls model at zero temperature: with `Omega = 2, 1` and `g = 1, 1/2` the
variance is at most `5/2`, and so is `eta` times the self-energy. -/
example (σ : SetOrder) : ∃ m b, (Model.fromParameters (1 : ℝ) 1 0 none 1).adds realPrims exCalls = .ok m ∧
    buildSystem σ m = .ok b ∧ ∀ k w eta : ℝ, 0 < eta → ∃ G, Gives m b ⟨k, w, eta⟩ G ∧ G ≠ 0 ∧
      ‖impliedSelf (-(2 * 1 * Real.cos (k * 1))) w eta G‖ ≤ 5 / 2 / eta := by
  obtain ⟨h1, h2, h3⟩ := exCalls_clean
  obtain ⟨m, b, q1, q2, q3⟩ := C90_assembled σ 1 1 0 (Or.inr (by norm_num)) none (by simp) exCalls (by simp [exCalls]) h1 h2
    (Or.inr h3) (by simp)
  refine ⟨m, b, q1, q2, fun k w eta heta => ?_⟩
  obtain ⟨G, r1, r2, -, r3, -⟩ := q3 k w eta _ _ heta rfl rfl
  refine ⟨G, r1, r2, r3.trans (div_le_div_of_nonneg_right ?_ heta.le)⟩
  have := Real.sin_sq_le_one k
  simp [variance, exCalls, spread, strengthSq, thermal]
  linarith

end GGCE.Props
