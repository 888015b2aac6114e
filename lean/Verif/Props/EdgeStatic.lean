import Verif.Props.Edge
import Verif.Props.SecondOrder
import Verif.Props.Sumrules

/-!
Property C89, the other side: with a Peierls coupling the spectrum need not begin at zero momentum. For an electron
without hopping and at most one phonon the lower edge is known exactly.
-/

namespace GGCE.Props
open Spec Arr Complex

theorem im_level (w eta E : ℝ) : (1 / ((w : ℂ) + eta * I - E)).im = -(eta / ((w - E) ^ 2 + eta ^ 2)) := by
  have hn : Complex.normSq ((w : ℂ) + eta * I - E) = (w - E) ^ 2 + eta ^ 2 := by
    rw [Complex.normSq_apply]; simp; ring
  rw [one_div, Complex.inv_im, hn]
  simp
  ring

/-- the lower edge of two levels -/
theorem edge_two {F : ℝ → ℝ → ℂ} {Z E1 E2 : ℝ} (h0 : 0 < Z) (h1 : Z ≤ 1) (hE : E1 ≤ E2)
    (hF : ∀ w eta : ℝ, 0 < eta → F w eta = Z * (1 / ((w : ℂ) + eta * I - E1)) +
      ((1 - Z : ℝ) : ℂ) * (1 / ((w : ℂ) + eta * I - E2))) : Edge F E1 := by
  have him : ∀ w eta : ℝ, 0 < eta → -(F w eta).im =
      Z * (eta / ((w - E1) ^ 2 + eta ^ 2)) + (1 - Z) * (eta / ((w - E2) ^ 2 + eta ^ 2)) := by
    intro w eta heta
    rw [hF w eta heta, Complex.add_im, Complex.im_ofReal_mul, Complex.im_ofReal_mul, im_level, im_level]
    ring
  have hpi := Real.pi_pos
  constructor
  · intro w hw eta heta
    rw [him w eta heta]
    have h2 : eta / ((w - E2) ^ 2 + eta ^ 2) ≤ eta / ((w - E1) ^ 2 + eta ^ 2) := by
      refine div_le_div_of_nonneg_left heta.le (by positivity) ?_
      nlinarith
    have h3 : Z * (eta / ((w - E1) ^ 2 + eta ^ 2)) + (1 - Z) * (eta / ((w - E2) ^ 2 + eta ^ 2)) ≤
        eta / ((w - E1) ^ 2 + eta ^ 2) := by nlinarith
    rw [mul_comm Real.pi, ← div_div, show (E1 - w) ^ 2 = (w - E1) ^ 2 by ring]
    exact div_le_div_of_nonneg_right h3 hpi.le
  · intro e' he'
    by_contra hlt
    rw [not_le] at hlt
    have hd : 0 < e' - E1 := sub_pos.2 hlt
    set eta := √Z * (e' - E1) / 2 with heta
    have hz : 0 < √Z := Real.sqrt_pos.2 h0
    have hp : 0 < eta := by positivity
    have h2 := he' E1 hlt.le eta hp
    rw [him E1 eta hp, mul_comm Real.pi, ← div_div, div_le_div_iff_of_pos_right hpi] at h2
    have h3 : 0 ≤ (1 - Z) * (eta / ((E1 - E2) ^ 2 + eta ^ 2)) := mul_nonneg (by linarith) (by positivity)
    have h4 : Z * (eta / ((E1 - E1) ^ 2 + eta ^ 2)) = Z / eta := by
      rw [sub_self]; field_simp; simp
    have h5 : Z / eta ≤ eta / ((e' - E1) ^ 2) := by
      refine (h4.symm.le.trans ((le_add_of_nonneg_right h3).trans h2)).trans (div_le_div_of_nonneg_left hp.le (by positivity) (by nlinarith))
    rw [div_le_div_iff₀ hp (by positivity)] at h5
    have h6 : eta * eta = Z * (e' - E1) ^ 2 / 4 := by
      rw [heta]
      have := Real.mul_self_sqrt h0.le
      linear_combination (e' - E1) ^ 2 / 4 * this
    have : 0 < Z * (e' - E1) ^ 2 := by positivity
    linarith

theorem self_static (ct : String) (hk : Known ct) (g Omega k : ℝ) (z : ℂ) :
    secondOrderSelf ct g 0 Omega k z = ((spread ct k * g ^ 2 : ℝ) : ℂ) / (z - Omega) := by
  unfold secondOrderSelf
  rw [← mean_vertex ct hk g k]
  simp only [Complex.ofReal_zero, mul_zero, zero_mul, add_zero]
  rw [intervalIntegral.integral_div, intervalIntegral.integral_ofReal]
  push_cast
  ring

theorem spread_pos {ct : String} (x : ℝ) : 0 < spread ct x := by
  unfold spread; split_ifs <;> positivity

/-- C89, an exact edge: without hopping and with at most one phonon the lower edge at momentum `k` is that of the bare
level repelled by one level at the phonon energy. -/
theorem C89_static (σ : SetOrder) (lattice : ℝ) (cap : Option Int) (hcap : ∀ c, cap = some c → 1 ≤ c)
    (ct : String) (hk : Known ct) (Omega g : ℝ) (hO : 0 < Omega) (M : ℤ) (hM : 1 ≤ M) :
    ∃ m b, (Model.fromParameters 0 lattice 0 cap 1).adds realPrims
        [{ ctype := ct, freq := Omega, M := M, N := 1, g := some g }] = .ok m ∧
      buildSystem σ m = .ok b ∧ ∃ F : ℝ → ℝ → ℝ → ℂ, (∀ k w eta : ℝ, 0 < eta → Gives m b ⟨k, w, eta⟩ (F k w eta)) ∧
      ∀ k, Edge (F k) ((Omega - √(Omega ^ 2 + 4 * (spread ct (k * lattice) * g ^ 2))) / 2) := by
  obtain ⟨m, b, h1, h2, h3⟩ := C72_second_order σ 0 lattice (Or.inl rfl) cap hcap ct (by unfold Known at hk; tauto) Omega g M hM
  refine ⟨m, b, h1, h2, fun k w eta => secondOrder ct g 0 Omega (k * lattice) (w + eta * I), h3, fun k => ?_⟩
  set S := spread ct (k * lattice) * g ^ 2 with hS
  have hS0 : 0 ≤ S := mul_nonneg (spread_pos _).le (sq_nonneg _)
  set D := √(Omega ^ 2 + 4 * S) with hD
  have hDD : D * D = Omega ^ 2 + 4 * S := Real.mul_self_sqrt (by positivity)
  have hDO : Omega ≤ D := Real.le_sqrt_of_sq_le (by linarith)
  have hDp : 0 < D := by linarith
  refine edge_two (Z := (Omega + D) / 2 / D) (E2 := (Omega + D) / 2) (by positivity) ?_ (by linarith) ?_
  · rw [div_le_one hDp]; linarith
  · intro w eta heta
    have hz : ∀ x : ℝ, (w : ℂ) + eta * I - x ≠ 0 := by
      intro x h
      have := congrArg Complex.im h
      simp at this
      exact heta.ne' this
    show secondOrder ct g 0 Omega (k * lattice) (w + eta * I) = _
    unfold secondOrder
    rw [self_static ct hk, ← hS]
    generalize (w : ℂ) + eta * I = z at hz
    have e1 := hz Omega
    have e2 := hz ((Omega - D) / 2)
    have e3 := hz ((Omega + D) / 2)
    have hDC : (D : ℂ) ≠ 0 := by exact_mod_cast hDp.ne'
    have hq : (D : ℂ) * D = Omega ^ 2 + 4 * S := by exact_mod_cast hDD
    have hfac : (z - ((Omega - D) / 2 : ℝ)) * (z - ((Omega + D) / 2 : ℝ)) = z * (z - Omega) - S := by
      push_cast
      linear_combination -1 / 4 * hq
    have e4 : z * (z - Omega) - S ≠ 0 := by rw [← hfac]; exact mul_ne_zero e2 e3
    have e5 : z + 2 * (0 : ℝ) * Real.cos (k * lattice) - (S : ℂ) / (z - Omega) = (z * (z - Omega) - S) / (z - Omega) := by
      field_simp; simp
    rw [e5, one_div_div, ← hfac, div_eq_iff (mul_ne_zero e2 e3)]
    have e6 : (((Omega + D) / 2 / D : ℝ) : ℂ) * D = (Omega + D) / 2 := by push_cast; field_simp
    have e7 : ((1 - (Omega + D) / 2 / D : ℝ) : ℂ) * D = (D - Omega) / 2 := by push_cast; field_simp; ring
    have e8 : ((((Omega + D) / 2 / D : ℝ) : ℂ) * (1 / (z - ((Omega - D) / 2 : ℝ))) +
        ((1 - (Omega + D) / 2 / D : ℝ) : ℂ) * (1 / (z - ((Omega + D) / 2 : ℝ)))) *
        ((z - ((Omega - D) / 2 : ℝ)) * (z - ((Omega + D) / 2 : ℝ))) =
        (((Omega + D) / 2 / D : ℝ) : ℂ) * (z - ((Omega + D) / 2 : ℝ)) +
        ((1 - (Omega + D) / 2 / D : ℝ) : ℂ) * (z - ((Omega - D) / 2 : ℝ)) := by
      field_simp
    rw [e8]
    refine mul_right_cancel₀ hDC ?_
    rw [add_mul, mul_right_comm, e6, mul_right_comm, e7]
    push_cast
    ring

/-- C89 does not extend to Peierls couplings: without hopping and with at most one phonon the lower edge at a quarter of
the zone lies strictly below the one at zero momentum, for every coupling and phonon energy. -/
theorem C89_peierls (σ : SetOrder) (cap : Option Int) (hcap : ∀ c, cap = some c → 1 ≤ c) (Omega g : ℝ) (hO : 0 < Omega)
    (hg : g ≠ 0) (M : ℤ) (hM : 1 ≤ M) :
    ∃ m b, (Model.fromParameters 0 1 0 cap 1).adds realPrims
        [{ ctype := "Peierls", freq := Omega, M := M, N := 1, g := some g }] = .ok m ∧
      buildSystem σ m = .ok b ∧ ∃ (F F' : ℝ → ℝ → ℂ) (e e' : ℝ), (∀ w eta : ℝ, 0 < eta → Gives m b ⟨0, w, eta⟩ (F w eta)) ∧
        (∀ w eta : ℝ, 0 < eta → Gives m b ⟨Real.pi / 2, w, eta⟩ (F' w eta)) ∧ Edge F e ∧ Edge F' e' ∧ e' < e := by
  obtain ⟨m, b, h1, h2, F, h3, h4⟩ := C89_static σ 1 cap hcap "Peierls" (by simp [Known]) Omega g hO M hM
  refine ⟨m, b, h1, h2, F 0, F (Real.pi / 2), _, _, h3 0, h3 _, h4 0, h4 _, ?_⟩
  have hg2 : 0 < g ^ 2 := by positivity
  have : √(Omega ^ 2 + 4 * (spread "Peierls" (0 * 1) * g ^ 2)) < √(Omega ^ 2 + 4 * (spread "Peierls" (Real.pi / 2 * 1) * g ^ 2)) := by
    refine Real.sqrt_lt_sqrt (by have := spread_pos (ct := "Peierls") (0 * 1); positivity) ?_
    simp [spread]
    linarith
  exact div_lt_div_of_pos_right (sub_lt_sub_left this _) two_pos

/-- With `Omega = g = 1` the edges are `-1` at zero momentum and `-2` at a quarter of the zone. -/
example (σ : SetOrder) : ∃ m b, (Model.fromParameters (0 : ℝ) 1 0 none 1).adds realPrims
      [{ ctype := "Peierls", freq := 1, M := 3, N := 1, g := some 1 }] = .ok m ∧
    buildSystem σ m = .ok b ∧ ∃ F F' : ℝ → ℝ → ℂ, (∀ w eta : ℝ, 0 < eta → Gives m b ⟨0, w, eta⟩ (F w eta)) ∧
      (∀ w eta : ℝ, 0 < eta → Gives m b ⟨Real.pi / 2, w, eta⟩ (F' w eta)) ∧ Edge F (-1) ∧ Edge F' (-2) := by
  obtain ⟨m, b, h1, h2, F, h3, h4⟩ := C89_static σ 1 none (by simp) "Peierls" (by simp [Known]) 1 1 (by norm_num) 3 (by norm_num)
  have a := h4 0
  have b := h4 (Real.pi / 2)
  rw [show (1 : ℝ) ^ 2 + 4 * (spread "Peierls" (0 * 1) * 1 ^ 2) = 3 ^ 2 by simp [spread]; norm_num,
    Real.sqrt_sq (by norm_num)] at a
  rw [show (1 : ℝ) ^ 2 + 4 * (spread "Peierls" (Real.pi / 2 * 1) * 1 ^ 2) = 5 ^ 2 by simp [spread]; norm_num,
    Real.sqrt_sq (by norm_num)] at b
  norm_num at a b
  exact ⟨m, _, h1, h2, F 0, F (Real.pi / 2), h3 0, h3 _, a, b⟩

end GGCE.Props
