import Verif.Spec.MomentumAverage
import Verif.Proofs.FieldSystem
import Verif.Proofs.Blueprint
import Verif.Proofs.Stability

/-! Clouds of one site: the continued fraction of the momentum average. -/

set_option linter.unusedSectionVars false

namespace GGCE
open Spec Arr Complex MeasureTheory

/-! ### the local propagator -/

theorem cos_denom_im {z : ℂ} (t q : ℝ) : (z + 2 * t * Real.cos q).im = z.im := by
  rw [show (2 : ℂ) * t * Real.cos q = ((2 * t * Real.cos q : ℝ) : ℂ) by push_cast; rfl, Complex.add_im, Complex.ofReal_im,
    add_zero]

theorem cos_denom_ne {z : ℂ} (hz : 0 < z.im) (t q : ℝ) : z + 2 * t * Real.cos q ≠ 0 := by
  intro h
  have h1 := congrArg Complex.im h
  rw [cos_denom_im, Complex.zero_im] at h1
  exact hz.ne' h1

theorem localG_continuous {z : ℂ} (hz : 0 < z.im) (t : ℝ) : Continuous (fun q : ℝ => 1 / (z + 2 * t * Real.cos q)) := by
  refine continuous_const.div ?_ (cos_denom_ne hz t)
  exact continuous_const.add (continuous_const.mul (Complex.continuous_ofReal.comp Real.continuous_cos))

theorem localG_im {z : ℂ} (hz : 0 < z.im) (t : ℝ) : (localG t z).im < 0 := by
  unfold localG
  have hpi := Real.pi_pos
  have e : (1 / (2 * (Real.pi : ℂ))) = ((1 / (2 * Real.pi) : ℝ) : ℂ) := by push_cast; rfl
  have hint := (localG_continuous hz t).intervalIntegrable (μ := volume) (-Real.pi) Real.pi
  rw [e, Complex.im_ofReal_mul]
  have h1 : (∫ q in (-Real.pi)..Real.pi, 1 / (z + 2 * t * Real.cos q)).im =
      ∫ q in (-Real.pi)..Real.pi, (1 / (z + 2 * t * Real.cos q)).im :=
    (intervalIntegral.intervalIntegral_im (𝕜 := ℂ) hint).symm
  rw [h1]
  have h2 : 0 < ∫ q in (-Real.pi)..Real.pi, -(1 / (z + 2 * t * Real.cos q)).im := by
    refine intervalIntegral.intervalIntegral_pos_of_pos ?_ (fun q => ?_) (by linarith)
    · exact ((Complex.continuous_im.comp (localG_continuous hz t)).neg).intervalIntegrable _ _
    · rw [one_div, Complex.inv_im, cos_denom_im, neg_div, neg_neg]
      exact div_pos hz (Complex.normSq_pos.2 (cos_denom_ne hz t q))
  rw [intervalIntegral.integral_neg] at h2
  have h3 : 0 < 1 / (2 * Real.pi) := by positivity
  nlinarith

/-- the code's propagator at distance zero is the momentum average -/
theorem localG_eq {w a eta t : ℝ} (he : 0 < eta) (h : t = 0 ∨ (0 < t ∧ a = 1)) :
    realPhys.g0 0 w a eta t = localG t (w + eta * I) := by
  have hpi := Real.pi_pos
  have hpi' : (Real.pi : ℂ) ≠ 0 := by exact_mod_cast hpi.ne'
  rcases h with rfl | ⟨ht, rfl⟩
  · unfold localG
    show g0R _ _ _ _ _ = _
    unfold g0R
    rw [if_pos rfl, if_neg (by simp)]
    simp only [Complex.ofReal_zero, mul_zero, zero_mul, add_zero, intervalIntegral.integral_const, sub_neg_eq_add,
      Complex.real_smul]
    push_cast
    field_simp
    ring
  · obtain ⟨-, hsum⟩ := g0_good (w := w) (a := 1) he (Or.inr ⟨ht, rfl⟩)
    obtain ⟨-, -, hF⟩ := Props.C24_propagator w eta t he ht
    have h1 : HasSum (fun d : ℤ => ∫ q in (-Real.pi)..Real.pi, realPhys.g0 d w 1 eta t * realPhys.expI (q * d))
        (∫ q in (-Real.pi)..Real.pi, realPhys.G0 q w 1 eta t) := by
      refine intervalIntegral.hasSum_integral_of_dominated_convergence (fun d _ => ‖realPhys.g0 d w 1 eta t‖) ?_ ?_ ?_ ?_ ?_
      · intro d
        refine Continuous.aestronglyMeasurable (continuous_const.mul ?_)
        show Continuous (fun q : ℝ => Complex.exp _)
        fun_prop
      · intro d
        refine Filter.Eventually.of_forall (fun q _ => ?_)
        rw [norm_mul]
        refine mul_le_of_le_one_right (norm_nonneg _) ?_
        have := norm_phase (q * d)
        exact this.le
      · exact Filter.Eventually.of_forall (fun q _ => hsum)
      · exact intervalIntegrable_const
      · exact Filter.Eventually.of_forall (fun q _ => hF q)
    have h2 : ∀ d : ℤ, d ≠ 0 → ∫ q in (-Real.pi)..Real.pi, realPhys.g0 d w 1 eta t * realPhys.expI (q * d) = 0 := by
      intro d hd
      rw [intervalIntegral.integral_const_mul]
      have hc : I * (d : ℂ) ≠ 0 := mul_ne_zero I_ne_zero (by exact_mod_cast hd)
      have e : ∀ q : ℝ, realPhys.expI (q * d) = Complex.exp (I * d * q) := by
        intro q
        show Complex.exp _ = _
        congr 1
        push_cast; ring
      simp only [e]
      rw [integral_exp_mul_complex hc]
      have e2 : Complex.exp (I * d * ((Real.pi : ℝ) : ℂ)) = Complex.exp (I * d * ((-Real.pi : ℝ) : ℂ)) := by
        rw [Complex.exp_eq_exp_iff_exists_int]
        exact ⟨d, by push_cast; ring⟩
      rw [e2, sub_self, zero_div, mul_zero]
    have h3 := h1.unique (hasSum_single 0 h2)
    have h4 : ∫ q in (-Real.pi)..Real.pi, realPhys.g0 ((0 : ℤ) : ℝ) w 1 eta t * realPhys.expI (q * ((0 : ℤ) : ℝ)) =
        2 * Real.pi * realPhys.g0 0 w 1 eta t := by
      have e : ∀ q : ℝ, realPhys.expI (q * ((0 : ℤ) : ℝ)) = 1 := by
        intro q
        show Complex.exp _ = 1
        simp
      simp only [e, mul_one, intervalIntegral.integral_const, Complex.real_smul]
      push_cast; ring
    rw [h4] at h3
    unfold localG
    have h5 : (∫ q in (-Real.pi)..Real.pi, realPhys.G0 q w 1 eta t) =
        ∫ q in (-Real.pi)..Real.pi, 1 / ((w : ℂ) + eta * I + 2 * t * Real.cos q) := by
      refine intervalIntegral.integral_congr (fun q _ => ?_)
      show (1 : ℂ) / ((w : ℂ) + I * eta + 2 * t * Real.cos (q * 1)) = _
      rw [mul_one, mul_comm I]
    rw [← h5, h3]
    field_simp

theorem selfEnergy_im {g t Omega : ℝ} {z : ℂ} (hz : 0 < z.im) : ∀ d n : ℕ, (selfEnergy g t Omega z d n).im ≤ 0 ∧
    0 < (1 / localG t (z - n * Omega) - selfEnergy g t Omega z d (n + 1)).im
  | 0, n => by
    have hz' : 0 < (z - n * Omega).im := by
      rw [Complex.sub_im, show (n : ℂ) * Omega = ((n * Omega : ℝ) : ℂ) by push_cast; rfl, Complex.ofReal_im, sub_zero]; exact hz
    refine ⟨le_refl _, ?_⟩
    have h1 := localG_im hz' t
    show 0 < (1 / localG t (z - n * Omega) - 0).im
    rw [sub_zero, one_div, Complex.inv_im]
    exact div_pos (by linarith) (Complex.normSq_pos.2 (fun e => by rw [e] at h1; simp at h1))
  | d + 1, n => by
    have hstep : (selfEnergy g t Omega z (d + 1) n).im ≤ 0 := by
      obtain ⟨-, h2⟩ := selfEnergy_im (g := g) (t := t) (Omega := Omega) hz d n
      show ((n : ℂ) * g ^ 2 / _).im ≤ 0
      rw [div_eq_mul_inv, show (n : ℂ) * g ^ 2 = ((n * g ^ 2 : ℝ) : ℂ) by push_cast; rfl, Complex.im_ofReal_mul, Complex.inv_im]
      refine mul_nonpos_of_nonneg_of_nonpos (by positivity) (div_nonpos_of_nonpos_of_nonneg (by linarith) (Complex.normSq_nonneg _))
    refine ⟨hstep, ?_⟩
    have hz' : 0 < (z - n * Omega).im := by
      rw [Complex.sub_im, show (n : ℂ) * Omega = ((n * Omega : ℝ) : ℂ) by push_cast; rfl, Complex.ofReal_im, sub_zero]; exact hz
    have h1 := localG_im hz' t
    obtain ⟨-, h2⟩ := selfEnergy_im (g := g) (t := t) (Omega := Omega) hz d (n + 1)
    have h3 : (selfEnergy g t Omega z (d + 1) (n + 1)).im ≤ 0 := by
      show ((((n + 1 : ℕ) : ℕ) : ℂ) * g ^ 2 / _).im ≤ 0
      rw [div_eq_mul_inv, show (((n + 1 : ℕ) : ℕ) : ℂ) * g ^ 2 = (((n + 1 : ℕ) * g ^ 2 : ℝ) : ℂ) by push_cast; rfl,
        Complex.im_ofReal_mul, Complex.inv_im]
      refine mul_nonpos_of_nonneg_of_nonpos (by positivity) (div_nonpos_of_nonpos_of_nonneg (by linarith) (Complex.normSq_nonneg _))
    rw [Complex.sub_im, one_div, Complex.inv_im]
    have : 0 < -(localG t (z - n * Omega)).im / Complex.normSq (localG t (z - n * Omega)) :=
      div_pos (by linarith) (Complex.normSq_pos.2 (fun e => by rw [e] at h1; simp at h1))
    linarith

/-! ### clouds of one site -/

/-- `ν` phonons on one site -/
def stack (ν : ℕ) (x : ℤ) : Occ := fun t y => if t = 0 ∧ y = x then (ν : ℤ) else 0

/-- the Holstein model with clouds of one site -/
noncomputable def oneSite (hopping lattice : ℝ) (cap : Option Int) (Omega g : ℝ) (N : ℤ) : Model ℝ :=
  blueprint hopping lattice 0 cap [⟨"Holstein", Omega, 1, N, g⟩]

/-- the largest cloud of one site -/
def depth (cap : Option Int) (N : ℤ) : ℕ :=
  match cap with
  | none => N.toNat
  | some c => (min N c).toNat

variable {hopping lattice Omega g : ℝ} {cap : Option Int} {N : ℤ}

theorem stack_zero (x : ℤ) : stack 0 x = 0 := by
  funext t y; unfold stack; split <;> rfl

theorem stack_same (ν : ℕ) (x : ℤ) : stack ν x 0 x = ν := if_pos ⟨rfl, rfl⟩

theorem stack_other {ν : ℕ} {x y : ℤ} (h : y ≠ x) (t : ℕ) : stack ν x t y = 0 := if_neg (fun q => h q.2)

theorem stack_up (ν : ℕ) (x : ℤ) : (stack ν x).act .plus 0 x = stack (ν + 1) x := by
  funext t y
  show (if t = 0 ∧ y = x then (ν : ℤ) else 0) + (if t = 0 ∧ y = x then 1 else 0) = if t = 0 ∧ y = x then ((ν + 1 : ℕ) : ℤ) else 0
  split <;> simp

theorem stack_down (ν : ℕ) (x : ℤ) : (stack (ν + 1) x).act .minus 0 x = stack ν x := by
  funext t y
  show (if t = 0 ∧ y = x then ((ν + 1 : ℕ) : ℤ) else 0) + (if t = 0 ∧ y = x then -1 else 0) = if t = 0 ∧ y = x then (ν : ℤ) else 0
  split <;> simp

theorem stack_shift (ν : ℕ) (x s : ℤ) : (stack ν x).shift s = stack ν (x + s) := by
  funext t y
  show (if t = 0 ∧ y - s = x then (ν : ℤ) else 0) = if t = 0 ∧ y = x + s then (ν : ℤ) else 0
  congr 2
  exact propext ⟨fun h => by omega, fun h => by omega⟩

theorem stack_total (ν : ℕ) (x : ℤ) : ∑ᶠ y, stack ν x 0 y = ν := by
  rw [finsum_eq_single _ x (fun y hy => stack_other hy 0), stack_same]

theorem stack_eq_zero {ν : ℕ} {x : ℤ} (h : stack ν x = 0) : ν = 0 := by
  have e := stack_same ν x
  rw [h] at e
  have : (0 : ℤ) = ν := e
  omega

theorem stack_allowed (hN : 0 ≤ N) (hcap : ∀ c, cap = some c → 1 ≤ c) (ν : ℕ) (x : ℤ) :
    Allowed (oneSite hopping lattice cap Omega g N) 1 (stack ν x) ↔ ν ≤ depth cap N := by
  have hd : ν ≤ depth cap N ↔ (ν : ℤ) ≤ N ∧ ∀ c, cap = some c → (ν : ℤ) ≤ c := by
    unfold depth
    cases hc : cap with
    | none => simp; omega
    | some c =>
      have := hcap c hc
      simp; omega
  rw [hd]
  constructor
  · intro h
    refine ⟨?_, fun c hc => ?_⟩
    · have := h.number 0 N rfl
      rwa [stack_total] at this
    · have := h.cap c hc 0 x
      rwa [stack_same] at this
  · rintro ⟨h1, h2⟩
    have hsupp : ∀ t y, stack ν x t y ≠ 0 → t = 0 ∧ y = x := fun t y h => by
      by_contra hc; exact h (if_neg hc)
    refine ⟨?_, ?_, ?_, ?_, ?_, ?_⟩
    · intro t y; unfold stack; split <;> simp
    · intro t y h; rw [(hsupp t y h).1]; exact Nat.zero_lt_one
    · intro c hc t y
      have := h2 c hc
      unfold stack; split
      · exact this
      · have := hcap c hc; omega
    · intro t y t' y' h h'
      rw [(hsupp t y h).2, (hsupp t' y' h').2]; omega
    · intro t M hM y y' h h'
      obtain ⟨rfl, e⟩ := hsupp t y h
      have : M = 1 := by
        have : some (1 : ℤ) = some M := hM
        exact (Option.some.inj this).symm
      rw [e, (hsupp _ y' h').2]; omega
    · intro t N' hN'
      cases t with
      | zero =>
        have : some N = some N' := hN'
        rw [stack_total, ← Option.some.inj this]; exact h1
      | succ t => simp [oneSite, blueprint] at hN'

/-- a second site is outside the limits -/
theorem stack_two {ν : ℕ} (hν : 1 ≤ ν) {x y : ℤ} (hxy : y ≠ x) :
    ¬ Allowed (oneSite hopping lattice cap Omega g N) 1 ((stack ν x).act .plus 0 y) := by
  intro h
  have e1 : (stack ν x).act .plus 0 y 0 y = 1 := by
    show stack ν x 0 y + _ = _
    rw [stack_other hxy, if_pos ⟨rfl, rfl⟩]; rfl
  have e2 : (stack ν x).act .plus 0 y 0 x = ν := by
    show stack ν x 0 x + _ = _
    rw [stack_same, if_neg (fun q => hxy q.2.symm), add_zero]
  have n1 : (stack ν x).act .plus 0 y 0 y ≠ 0 := by rw [e1]; decide
  have n2 : (stack ν x).act .plus 0 y 0 x ≠ 0 := by rw [e2]; omega
  have a1 := h.window 0 x 0 y n2 n1
  have a2 := h.window 0 y 0 x n1 n2
  omega

theorem oneSite_terms : (oneSite hopping lattice cap Omega g N).ham.terms =
    [⟨"Holstein", .int 0, .int 0, .plus, -g, 0, Omega⟩, ⟨"Holstein", .int 0, .int 0, .minus, -g, 0, Omega⟩] := by
  simp [oneSite, blueprint, partTerms, termsOf, termShapes]

theorem oneSite_energy (ν : ℕ) (x : ℤ) : occEnergy (oneSite hopping lattice cap Omega g N) (stack ν x) = Omega * ν := by
  unfold occEnergy
  show ∑ t ∈ Finset.range 1, [Omega].getD t 0 * _ = _
  rw [Finset.sum_range_one, stack_total]
  simp

/-- a driven amplitude is the propagator times the drive -/
theorem driven {z : ℂ} {t : ℝ} {p f : ℤ → ℂ} (hp : Props.Propagates z t p) (hs : Summable (fun d => ‖p d‖)) {C : ℝ}
    (hC : ∀ j, ‖f j‖ ≤ C) {S : ℂ} (hf : ∀ j, z * f j + t * (f (j - 1) + f (j + 1)) = if j = 0 then S else 0) :
    f 0 = S * p 0 := by
  have hpb : ∃ B, ∀ j, ‖p j‖ ≤ B := by
    refine ⟨∑' d, ‖p d‖, fun j => hs.le_tsum j (fun _ _ => norm_nonneg _)⟩
  obtain ⟨B, hB⟩ := hpb
  have h := bounded_zero hp hs (f := fun j => f j - S * p j) (C := C + ‖S‖ * B) (fun j => by
    refine (norm_sub_le _ _).trans (add_le_add (hC j) ?_)
    rw [norm_mul]; exact mul_le_mul_of_nonneg_left (hB j) (norm_nonneg _)) (fun j => by
    have h1 := hf j
    have h2 := hp j
    have h3 : (if j = 0 then S else 0) = S * (if j = 0 then 1 else 0) := by split <;> simp
    rw [h3] at h1
    linear_combination h1 - S * h2) 0
  exact sub_eq_zero.1 h

theorem oneSite_green (hN : 1 ≤ N) (hcap : ∀ c, cap = some c → 1 ≤ c)
    (hl : hopping = 0 ∨ (0 < hopping ∧ lattice = 1)) {p : Point ℝ} (heta : 0 < p.eta) {Ψ : Occ → ℤ → ℂ}
    (hΨ : Resolvent (oneSite hopping lattice cap Omega g N) 1 p Ψ) :
    Ψ 0 0 = momentumAverage g hopping Omega (p.k * lattice) (p.w + p.eta * I) (depth cap N) := by
  set z : ℂ := p.w + p.eta * I with hz
  have hzim : 0 < z.im := by rw [hz]; simpa using heta
  have hall := stack_allowed (hopping := hopping) (lattice := lattice) (Omega := Omega) (g := g) (cap := cap) (N := N)
    (by omega) hcap
  -- the equation of a cloud
  have hcloud : ∀ ν, 1 ≤ ν → ν ≤ depth cap N → ∀ j : ℤ,
      (z - ν * Omega) * Ψ (stack ν 0) j + hopping * (Ψ (stack ν 0) (j - 1) + Ψ (stack ν 0) (j + 1)) =
        if j = 0 then -g * (Ψ (stack (ν + 1) 0) 0 + ν * Ψ (stack (ν - 1) 0) 0) else 0 := by
    intro ν h1 h2 j
    have h := hΨ.motion (stack ν 0) ((hall ν 0).2 h2) j
    have hne : stack ν 0 ≠ 0 := fun e => by have := stack_eq_zero e; omega
    rw [if_neg hne, oneSite_terms, oneSite_energy] at h
    simp only [List.map_cons, List.map_nil, List.sum_cons, List.sum_nil, bosonSite, electronSite, Num.int, occFactor] at h
    simp only [mul_zero, sub_zero, add_zero, Int.zero_ediv, Int.mul_ediv_cancel_left _ (two_ne_zero : (2 : ℤ) ≠ 0)] at h
    by_cases hj : j = 0
    · subst hj
      rw [if_pos rfl]
      obtain ⟨μ, rfl⟩ : ∃ μ, ν = μ + 1 := ⟨ν - 1, by omega⟩
      rw [stack_up, stack_down, stack_same] at h
      have e : μ + 1 - 1 = μ := rfl
      rw [e]
      change _ + (hopping : ℂ) * _ - _ = (0 : ℂ) at h
      push_cast at h ⊢
      rw [hz]
      linear_combination h
    · rw [if_neg hj]
      rw [stack_other hj, hΨ.outside _ (stack_two h1 hj)] at h
      change _ + (hopping : ℂ) * _ - _ = (0 : ℂ) at h
      push_cast at h
      rw [hz]
      linear_combination h
  -- the amplitudes at the electron
  have hlocal : ∀ ν, 1 ≤ ν → ν ≤ depth cap N → Ψ (stack ν 0) 0 =
      -g * (Ψ (stack (ν + 1) 0) 0 + ν * Ψ (stack (ν - 1) 0) 0) * localG hopping (z - ν * Omega) := by
    intro ν h1 h2
    obtain ⟨hp, hs⟩ := g0_good (w := p.w - ν * Omega) (a := lattice) heta hl
    obtain ⟨C, hC⟩ := hΨ.bounded (stack ν 0)
    have e : z - ν * Omega = ((p.w - ν * Omega : ℝ) : ℂ) + p.eta * I := by rw [hz]; push_cast; ring
    have h := driven hp hs hC (by
      have := hcloud ν h1 h2
      rwa [e] at this)
    rw [h, e, ← localG_eq heta hl]
    simp
  -- the continued fraction
  have hfrac : ∀ d ν : ℕ, 1 ≤ ν → ν + d = depth cap N + 1 →
      -g * Ψ (stack ν 0) 0 = selfEnergy g hopping Omega z d ν * Ψ (stack (ν - 1) 0) 0 := by
    intro d
    induction d with
    | zero =>
      intro ν h1 h2
      have : ¬ Allowed (oneSite hopping lattice cap Omega g N) 1 (stack ν 0) := fun q => by
        have := (hall ν 0).1 q; omega
      rw [hΨ.outside _ this]
      show _ = 0 * _
      simp
    | succ d ih =>
      intro ν h1 h2
      have hi := ih (ν + 1) (by omega) (by omega)
      rw [Nat.add_sub_cancel] at hi
      have hloc := hlocal ν h1 (by omega)
      obtain ⟨-, him⟩ := selfEnergy_im (g := g) (t := hopping) (Omega := Omega) hzim d ν
      set L := localG hopping (z - ν * Omega) with hL
      have hL0 : L ≠ 0 := by
        intro e0
        have h3 : 0 < (z - ν * Omega).im := by
          rw [Complex.sub_im, show (ν : ℂ) * Omega = ((ν * Omega : ℝ) : ℂ) by push_cast; rfl, Complex.ofReal_im, sub_zero]
          exact hzim
        have := localG_im h3 hopping
        rw [← hL, e0] at this
        simp at this
      set D := 1 / L - selfEnergy g hopping Omega z d (ν + 1) with hD
      have hD0 : D ≠ 0 := fun e0 => by rw [e0] at him; simp at him
      show _ = (ν : ℂ) * (g : ℂ) ^ 2 / D * _
      rw [div_mul_eq_mul_div, eq_div_iff hD0, hD]
      have e1 : -g * Ψ (stack ν 0) 0 * (1 / L - selfEnergy g hopping Omega z d (ν + 1)) =
          -g * (Ψ (stack ν 0) 0 / L) + g * (selfEnergy g hopping Omega z d (ν + 1) * Ψ (stack ν 0) 0) := by
        field_simp; ring
      rw [e1, ← hi]
      have e2 : Ψ (stack ν 0) 0 / L = -g * (Ψ (stack (ν + 1) 0) 0 + ν * Ψ (stack (ν - 1) 0) 0) := by
        rw [div_eq_iff hL0]; exact hloc
      rw [e2]; ring
  -- the electron alone
  have hd1 : 1 ≤ depth cap N := by
    unfold depth
    cases hc : cap with
    | none => simp; omega
    | some c => have := hcap c hc; simp; omega
  have h0 : Allowed (oneSite hopping lattice cap Omega g N) 1 0 := by
    have := (hall 0 0).2 (by omega)
    rwa [stack_zero] at this
  have h := hΨ.motion 0 h0 0
  rw [if_pos rfl, oneSite_terms, ← stack_zero 0, oneSite_energy] at h
  simp only [List.map_cons, List.map_nil, List.sum_cons, List.sum_nil, bosonSite, electronSite, Num.int, occFactor] at h
  simp only [mul_zero, sub_zero, add_zero, Int.zero_ediv, zero_sub, zero_add, Int.cast_zero, Nat.cast_zero, neg_zero,
    Complex.exp_zero] at h
  rw [stack_up, stack_same, zero_add] at h
  have hb1 := hΨ.bloch (stack 0 0) 0 1
  have hb2 := hΨ.bloch (stack 0 0) 0 (-1)
  rw [stack_shift, zero_add, stack_zero, stack_zero] at hb1 hb2
  rw [stack_zero, hb1, hb2] at h
  have hf := hfrac (depth cap N) 1 le_rfl (by omega)
  rw [Nat.sub_self, stack_zero] at hf
  have hlat : (oneSite hopping lattice cap Omega g N).latticeConstant = lattice := rfl
  have hhop : (oneSite hopping lattice cap Omega g N).ham.hopping = hopping := rfl
  rw [hlat, hhop] at h
  have hcos : exp (-(I * (p.k * lattice * ((-1 : ℤ) : ℂ)))) + exp (-(I * (p.k * lattice * ((1 : ℤ) : ℂ)))) =
      2 * Real.cos (p.k * lattice) := by
    rw [Complex.ofReal_cos, Complex.two_cos]
    push_cast
    congr 2 <;> ring
  have hfin : Ψ 0 0 * (z + 2 * hopping * Real.cos (p.k * lattice) - selfEnergy g hopping Omega z (depth cap N) 1) = 1 := by
    have e : Ψ 0 0 * (z + 2 * hopping * Real.cos (p.k * lattice) - selfEnergy g hopping Omega z (depth cap N) 1) =
        z * Ψ 0 0 + hopping * ((2 * Real.cos (p.k * lattice)) * Ψ 0 0) -
          selfEnergy g hopping Omega z (depth cap N) 1 * Ψ 0 0 := by ring
    rw [e, ← hf, ← hcos, hz]
    rw [← h]
    push_cast
    ring
  unfold momentumAverage
  rw [eq_div_iff (fun e => by rw [e, mul_zero] at hfin; exact zero_ne_one hfin)]
  exact hfin

end GGCE
