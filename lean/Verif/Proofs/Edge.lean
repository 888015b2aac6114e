import Mathlib.Analysis.CStarAlgebra.ContinuousFunctionalCalculus.Instances
import Mathlib.Analysis.CStarAlgebra.ContinuousLinearMap
import Mathlib.Tactic.FieldSimp
import Verif.Proofs.Floor

/-! Where the spectrum begins: from the resolvent to powers of the Hamiltonian and back. -/

set_option linter.unusedSectionVars false

namespace GGCE
open Spec Complex ComplexConjugate
open scoped InnerProductSpace

section
variable {E : Type} [NormedAddCommGroup E] [InnerProductSpace ℂ E] [CompleteSpace E]

/-- matrix elements respect inequalities between functions on the spectrum -/
theorem cfc_inner_le {H : E →L[ℂ] E} {f g : ℝ → ℝ} (hf : Continuous f) (hg : Continuous g)
    (h : ∀ x ∈ spectrum ℝ H, f x ≤ g x) (v : E) : (⟪v, cfc f H v⟫_ℂ).re ≤ (⟪v, cfc g H v⟫_ℂ).re := by
  have h1 : cfc f H ≤ cfc g H := cfc_mono h hf.continuousOn hg.continuousOn
  have h2 := ((ContinuousLinearMap.nonneg_iff_isPositive _).1 (sub_nonneg.2 h1)).re_inner_nonneg_right v
  rw [sub_apply, inner_sub_right] at h2
  have h3 : 0 ≤ (⟪v, cfc g H v⟫_ℂ - ⟪v, cfc f H v⟫_ℂ).re := h2
  rw [Complex.sub_re] at h3
  linarith

theorem cfc_lorentz {H : E →L[ℂ] E} (hH : IsSelfAdjoint H) (w : ℝ) {eta : ℝ} (heta : 0 < eta) (v : E) :
    (⟪v, cfc (fun x : ℝ => ((x - w) ^ 2 + eta ^ 2)⁻¹) H v⟫_ℂ).re = ‖resolvent H ((w : ℂ) + I * eta) v‖ ^ 2 := by
  set z : ℂ := (w : ℂ) + I * eta with hz
  have him : z.im ≠ 0 := by simp [hz, heta.ne']
  have r := resolvent_apply (mem_resolventSet_of_im hH him) v
  set u := resolvent H z v with hu
  have hpos : ∀ x : ℝ, (x - w) ^ 2 + eta ^ 2 ≠ 0 := fun x => by positivity
  have hc : Continuous (fun x : ℝ => (x - w) ^ 2 + eta ^ 2) := by fun_prop
  have hci : Continuous (fun x : ℝ => ((x - w) ^ 2 + eta ^ 2)⁻¹) := hc.inv₀ hpos
  set L := cfc (fun x : ℝ => ((x - w) ^ 2 + eta ^ 2)⁻¹) H with hL
  have hw : cfc (fun x : ℝ => x - w) H = H - algebraMap ℝ (E →L[ℂ] E) w := by
    rw [cfc_sub (fun x : ℝ => x) (fun _ => w) H, cfc_id' ℝ H, cfc_const w H]
  have hF : cfc (fun x : ℝ => (x - w) ^ 2 + eta ^ 2) H =
      (H - algebraMap ℝ (E →L[ℂ] E) w) ^ 2 + algebraMap ℝ (E →L[ℂ] E) (eta ^ 2) := by
    rw [cfc_add (a := H) (fun x : ℝ => (x - w) ^ 2) (fun _ => eta ^ 2), cfc_pow (fun x : ℝ => x - w) 2 H, hw, cfc_const (eta ^ 2) H]
  have h1 : L * cfc (fun x : ℝ => (x - w) ^ 2 + eta ^ 2) H = 1 := by
    rw [hL, ← cfc_mul _ _ H hci.continuousOn hc.continuousOn]
    rw [show (fun x : ℝ => ((x - w) ^ 2 + eta ^ 2)⁻¹ * ((x - w) ^ 2 + eta ^ 2)) = fun _ => 1 from
      funext (fun x => inv_mul_cancel₀ (hpos x))]
    exact cfc_const_one ℝ H
  have h2 : H * L = L * H := by
    have := cfc_commute_cfc (fun x : ℝ => x) (fun x : ℝ => ((x - w) ^ 2 + eta ^ 2)⁻¹) H
    rw [cfc_id' ℝ H] at this
    exact this
  rw [hF] at h1
  -- applied to `u`
  have h3 : ∀ x : E, L (H x) = H (L x) := fun x => (congrArg (fun A : E →L[ℂ] E => A x) h2).symm
  have h4 := congrArg (fun A : E →L[ℂ] E => A u) h1
  have hsym := ContinuousLinearMap.isSelfAdjoint_iff_isSymmetric.1 hH
  have ea : ∀ (r : ℝ) (x : E), (algebraMap ℝ (E →L[ℂ] E) r) x = (r : ℂ) • x := by
    intro r x
    rw [Algebra.algebraMap_eq_smul_one]
    simp
  have h5 : L ((conj z) • v - H v) = u := by
    refine Eq.trans ?_ h4
    rw [← r]
    show L _ = L (((H - algebraMap ℝ (E →L[ℂ] E) w) ^ 2 + algebraMap ℝ (E →L[ℂ] E) (eta ^ 2)) u)
    congr 1
    rw [pow_two]
    simp only [add_apply, mul_apply_eq_comp, sub_apply, ea, map_sub,
      map_smul, smul_sub, smul_smul]
    have e1 : conj z * z = (w : ℂ) * w + ((eta ^ 2 : ℝ) : ℂ) := by
      rw [hz]
      simp only [map_add, map_mul, Complex.conj_ofReal, Complex.conj_I]
      push_cast
      ring_nf
      simp [Complex.I_sq]
    have e2 : conj z + z = (w : ℂ) + w := by
      rw [hz]
      simp only [map_add, map_mul, Complex.conj_ofReal, Complex.conj_I]
      ring
    rw [e1, add_smul]
    have e3 : conj z • H u + z • H u = (w : ℂ) • H u + (w : ℂ) • H u := by rw [← add_smul, e2, add_smul]
    have e4 : z • H u = (w : ℂ) • H u + (w : ℂ) • H u - conj z • H u := by rw [← e3]; abel
    rw [e4]
    abel
  have h6 : ⟪v, L v⟫_ℂ = ⟪u, u⟫_ℂ := by
    have a1 : ⟪v, L v⟫_ℂ = ⟪z • u - H u, L v⟫_ℂ := by rw [r]
    have a2 : ⟪u, u⟫_ℂ = ⟪u, L ((conj z) • v - H v)⟫_ℂ := by rw [h5]
    rw [a1, a2, map_sub, map_smul, h3, inner_sub_left, inner_sub_right, inner_smul_left, inner_smul_right]
    congr 1
    exact hsym u (L v)
  rw [h6, inner_self_eq_norm_sq_to_K]
  norm_cast

theorem cfc_power {H : E →L[ℂ] E} (hH : IsSelfAdjoint H) (c : ℝ) (j : ℕ) (v : E) :
    (⟪v, cfc (fun x : ℝ => (c - x) ^ (2 * j)) H v⟫_ℂ).re = ‖((algebraMap ℝ (E →L[ℂ] E) c - H) ^ j) v‖ ^ 2 := by
  have hw : cfc (fun x : ℝ => c - x) H = algebraMap ℝ (E →L[ℂ] E) c - H := by
    rw [cfc_sub (fun _ => c) (fun x : ℝ => x) H, cfc_id' ℝ H, cfc_const c H]
  have hA : IsSelfAdjoint (algebraMap ℝ (E →L[ℂ] E) c - H) := (IsSelfAdjoint.algebraMap _ (by rfl)).sub hH
  have hs := ContinuousLinearMap.isSelfAdjoint_iff_isSymmetric.1 (hA.pow j)
  rw [cfc_pow (fun x : ℝ => c - x) (2 * j) H, hw, two_mul, pow_add]
  have : ⟪v, ((algebraMap ℝ (E →L[ℂ] E) c - H) ^ j * (algebraMap ℝ (E →L[ℂ] E) c - H) ^ j) v⟫_ℂ =
      ⟪((algebraMap ℝ (E →L[ℂ] E) c - H) ^ j) v, ((algebraMap ℝ (E →L[ℂ] E) c - H) ^ j) v⟫_ℂ := (hs v _).symm
  rw [this, inner_self_eq_norm_sq_to_K]
  norm_cast

theorem spectrum_abs_le [Nontrivial E] {H : E →L[ℂ] E} {x : ℝ} (hx : x ∈ spectrum ℝ H) : |x| ≤ ‖H‖ := by
  have h1 : (x : ℂ) ∈ spectrum ℂ H := spectrum.algebraMap_mem ℂ hx
  have := spectrum.norm_le_norm_of_mem h1
  rwa [Complex.norm_real, Real.norm_eq_abs] at this

/-- If the resolvent applied to `v` is as small below `e` as if the spectrum began there, then `(c - H)^j v` is as small
as if it did. -/
theorem powers_of_below {H : E →L[ℂ] E} (hH : IsSelfAdjoint H) {v : E} (hv : ‖v‖ = 1) {e c : ℝ} (hc : ‖H‖ ≤ c) (hec : e ≤ c)
    (hd : ∀ w < e, ∀ eta : ℝ, 0 < eta → ((e - w) ^ 2 + eta ^ 2) * ‖resolvent H ((w : ℂ) + I * eta) v‖ ^ 2 ≤ 1) (j : ℕ) :
    ‖((algebraMap ℝ (E →L[ℂ] E) c - H) ^ j) v‖ ≤ (c - e) ^ j := by
  have : Nontrivial E := ⟨v, 0, fun h => by rw [h, norm_zero] at hv; exact zero_ne_one hv⟩
  set A := ‖((algebraMap ℝ (E →L[ℂ] E) c - H) ^ j) v‖ with hA
  have hA0 : 0 ≤ A := norm_nonneg _
  set B := ‖H‖ with hB
  have hB0 : 0 ≤ B := norm_nonneg _
  have hcB : 0 ≤ c + B := by linarith
  have hone : (⟪v, v⟫_ℂ).re = 1 := by rw [inner_self_eq_norm_sq_to_K, hv]; simp
  -- the interval up to `e - d` is covered with `n` intervals
  have step : ∀ d > 0, ∀ n : ℕ, 0 < n → A ^ 2 ≤ (c - e + d) ^ (2 * j) +
      (c + B) ^ (2 * j) * (2 * (c + B) ^ 2 / d ^ 2) / n := by
    intro d hd0 n hn
    have hn' : (0 : ℝ) < n := by exact_mod_cast hn
    rw [hA, ← cfc_power hH c j v]
    have hlow : ∀ x ∈ spectrum ℝ H, -B ≤ x ∧ x ≤ c := fun x hx =>
      ⟨(abs_le.1 (spectrum_abs_le hx)).1, (abs_le.1 (spectrum_abs_le hx)).2.trans hc⟩
    by_cases hD : e - d + B ≤ 0
    · have h1 := cfc_inner_le (H := H) (f := fun x => (c - x) ^ (2 * j)) (g := fun _ => (c - e + d) ^ (2 * j)) (by fun_prop)
        (by fun_prop) (fun x hx => pow_le_pow_left₀ (by linarith [(hlow x hx).2]) (by linarith [(hlow x hx).1]) _) v
      refine h1.trans ?_
      rw [cfc_const _ H, Algebra.algebraMap_eq_smul_one]
      have : (⟪v, (((c - e + d) ^ (2 * j)) • (1 : E →L[ℂ] E)) v⟫_ℂ).re = (c - e + d) ^ (2 * j) := by
        generalize (c - e + d) ^ (2 * j) = Y
        rw [show (Y • (1 : E →L[ℂ] E)) v = (Y : ℂ) • v by simp, inner_smul_right, Complex.re_ofReal_mul, hone, mul_one]
      rw [this]
      exact le_add_of_nonneg_right (by positivity)
    · rw [not_le] at hD
      set eta := (e - d + B) / n with heta
      have heta0 : 0 < eta := div_pos hD hn'
      set F : ℕ → ℝ → ℝ := fun i x => ((x - (-B + i * eta)) ^ 2 + eta ^ 2)⁻¹ with hF
      have hFc : ∀ i, Continuous (F i) := fun i =>
        Continuous.inv₀ (by fun_prop) (fun x => by positivity)
      have hFp : ∀ i x, 0 ≤ F i x := fun i x => by rw [hF]; positivity
      set K := (c + B) ^ (2 * j) * (2 * eta ^ 2) with hK
      have hK0 : 0 ≤ K := by positivity
      have hw : ∀ i ∈ Finset.range n, -B + (i : ℝ) * eta ≤ e - d := by
        intro i hi
        have h1 : (i : ℝ) ≤ n := by exact_mod_cast (Finset.mem_range.1 hi).le
        have h2 : (i : ℝ) * eta ≤ n * eta := mul_le_mul_of_nonneg_right h1 heta0.le
        have h3 : (n : ℝ) * eta = e - d + B := by rw [heta]; field_simp
        linarith
      have h1 := cfc_inner_le (H := H) (f := fun x => (c - x) ^ (2 * j))
        (g := fun x => (c - e + d) ^ (2 * j) + K * (∑ i ∈ Finset.range n, F i) x) (by fun_prop)
        (by
          have : Continuous (∑ i ∈ Finset.range n, F i) := by
            rw [show (∑ i ∈ Finset.range n, F i) = fun x => ∑ i ∈ Finset.range n, F i x by ext x; simp]
            exact continuous_finsetSum _ (fun i _ => hFc i)
          fun_prop) (fun x hx => by
          simp only [Finset.sum_apply]
          obtain ⟨l1, l2⟩ := hlow x hx
          have hs0 : 0 ≤ ∑ i ∈ Finset.range n, F i x := Finset.sum_nonneg (fun i _ => hFp i x)
          by_cases hx' : e - d ≤ x
          · exact (pow_le_pow_left₀ (by linarith) (by linarith) _).trans (le_add_of_nonneg_right (mul_nonneg hK0 hs0))
          · rw [not_le] at hx'
            set i := ⌊(x + B) / eta⌋₊ with hi
            have q0 : 0 ≤ (x + B) / eta := div_nonneg (by linarith) heta0.le
            have q1 : (i : ℝ) ≤ (x + B) / eta := Nat.floor_le q0
            have q2 : (x + B) / eta < i + 1 := Nat.lt_floor_add_one _
            rw [le_div_iff₀ heta0] at q1
            rw [div_lt_iff₀ heta0] at q2
            have q3 : i < n := by
              rw [hi, Nat.floor_lt q0, div_lt_iff₀ heta0]
              have : (n : ℝ) * eta = e - d + B := by rw [heta]; field_simp
              linarith
            have q4 : 1 ≤ 2 * eta ^ 2 * F i x := by
              rw [hF]
              simp only
              rw [← div_eq_mul_inv, le_div_iff₀ (by positivity), one_mul]
              have : (x - (-B + i * eta)) ^ 2 ≤ eta ^ 2 := by
                refine pow_le_pow_left₀ (by linarith) (by linarith) 2
              linarith
            have q5 : F i x ≤ ∑ i ∈ Finset.range n, F i x :=
              Finset.single_le_sum (fun i _ => hFp i x) (Finset.mem_range.2 q3)
            have q6 : (c - x) ^ (2 * j) ≤ (c + B) ^ (2 * j) := pow_le_pow_left₀ (by linarith) (by linarith) _
            have q7 : (c + B) ^ (2 * j) ≤ K * ∑ i ∈ Finset.range n, F i x := by
              have r1 : 1 ≤ 2 * eta ^ 2 * ∑ i ∈ Finset.range n, F i x :=
                q4.trans (mul_le_mul_of_nonneg_left q5 (by positivity))
              have r2 : 0 ≤ (c + B) ^ (2 * j) := by
                rw [mul_comm, pow_mul]; positivity
              rw [hK, mul_assoc]
              exact le_mul_of_one_le_right r2 r1
            have q8 : 0 ≤ (c - e + d) ^ (2 * j) := pow_nonneg (by linarith) _
            linarith) v
      refine h1.trans ?_
      have hsc : Continuous (∑ i ∈ Finset.range n, F i) := by
            rw [show (∑ i ∈ Finset.range n, F i) = fun x => ∑ i ∈ Finset.range n, F i x by ext x; simp]
            exact continuous_finsetSum _ (fun i _ => hFc i)
      rw [cfc_add (a := H) (fun _ => (c - e + d) ^ (2 * j)) (fun x => K * (∑ i ∈ Finset.range n, F i) x)
        (by fun_prop) (Continuous.continuousOn (by fun_prop)), cfc_const _ H,
        cfc_const_mul K (∑ i ∈ Finset.range n, F i) H hsc.continuousOn, cfc_sum F H _ (fun i _ => (hFc i).continuousOn),
        Algebra.algebraMap_eq_smul_one]
      have e1 : ((((c - e + d) ^ (2 * j)) • (1 : E →L[ℂ] E)) + K • ∑ i ∈ Finset.range n, cfc (F i) H) v =
          (((c - e + d) ^ (2 * j) : ℝ) : ℂ) • v + (K : ℂ) • ∑ i ∈ Finset.range n, cfc (F i) H v := by
        generalize (c - e + d) ^ (2 * j) = Y
        simp
      rw [e1, inner_add_right, inner_smul_right, inner_smul_right, Complex.add_re, Complex.re_ofReal_mul,
        Complex.re_ofReal_mul, hone, mul_one, inner_sum, Complex.re_sum]
      refine add_le_add le_rfl ?_
      have e2 : ∀ i ∈ Finset.range n, (⟪v, cfc (F i) H v⟫_ℂ).re ≤ 1 / d ^ 2 := by
        intro i hi
        rw [hF]
        simp only
        rw [cfc_lorentz hH _ heta0 v]
        have h2 := hw i hi
        have h3 := hd (-B + i * eta) (by linarith) eta heta0
        have h4 : d ^ 2 ≤ (e - (-B + i * eta)) ^ 2 + eta ^ 2 := by
          have : d ^ 2 ≤ (e - (-B + i * eta)) ^ 2 := pow_le_pow_left₀ hd0.le (by linarith) 2
          have := sq_nonneg eta
          linarith
        rw [le_div_iff₀ (by positivity), mul_comm]
        exact (mul_le_mul_of_nonneg_right h4 (sq_nonneg _)).trans h3
      have e3 := Finset.sum_le_sum e2
      rw [Finset.sum_const, Finset.card_range, nsmul_eq_mul] at e3
      refine (mul_le_mul_of_nonneg_left e3 hK0).trans ?_
      have e4 : K * (n * (1 / d ^ 2)) = (c + B) ^ (2 * j) * (2 * (e - d + B) ^ 2 / d ^ 2) / n := by
        rw [hK, heta]; field_simp
      rw [e4]
      have e5 : (e - d + B) ^ 2 ≤ (c + B) ^ 2 := pow_le_pow_left₀ hD.le (by linarith) 2
      gcongr
  have lim1 : ∀ d > 0, A ^ 2 ≤ (c - e + d) ^ (2 * j) := by
    intro d hd0
    have t := (tendsto_const_div_atTop_nhds_zero_nat ((c + B) ^ (2 * j) * (2 * (c + B) ^ 2 / d ^ 2))).const_add
      ((c - e + d) ^ (2 * j))
    rw [add_zero] at t
    exact ge_of_tendsto t (Filter.eventually_atTop.2 ⟨1, fun n hn => step d hd0 n hn⟩)
  have lim2 : A ^ 2 ≤ (c - e) ^ (2 * j) := by
    have t : Filter.Tendsto (fun d : ℝ => (c - e + d) ^ (2 * j)) (nhdsWithin 0 (Set.Ioi 0)) (nhds ((c - e + 0) ^ (2 * j))) :=
      (Continuous.tendsto (by fun_prop) 0).mono_left nhdsWithin_le_nhds
    rw [add_zero] at t
    exact ge_of_tendsto t (Filter.eventually_of_mem self_mem_nhdsWithin (fun d hd => lim1 d hd))
  rw [mul_comm, pow_mul] at lim2
  exact le_of_sq_le_sq lim2 (pow_nonneg (by linarith) _)

/-- a vector whose images under the powers of a self-adjoint `A` grow at most like `r^j` -/
theorem norm_le_of_powers {A : E →L[ℂ] E} (hA : IsSelfAdjoint A) {u : E} {C r : ℝ} (hr : 0 ≤ r)
    (h : ∀ j : ℕ, ‖(A ^ j) u‖ ≤ C * r ^ j) : ‖A u‖ ≤ r * ‖u‖ := by
  have hsym := ContinuousLinearMap.isSelfAdjoint_iff_isSymmetric.1 hA
  have hlog : ∀ j : ℕ, ‖(A ^ (j + 1)) u‖ ^ 2 ≤ ‖(A ^ j) u‖ * ‖(A ^ (j + 2)) u‖ := by
    intro j
    have e1 : (A ^ (j + 1)) u = A ((A ^ j) u) := by rw [pow_succ']; rfl
    have e2 : (A ^ (j + 2)) u = A ((A ^ (j + 1)) u) := by rw [pow_succ']; rfl
    have h1 : ⟪(A ^ (j + 1)) u, (A ^ (j + 1)) u⟫_ℂ = ⟪(A ^ j) u, (A ^ (j + 2)) u⟫_ℂ := by
      rw [e2]
      conv_lhs => rw [e1]
      rw [e1]
      exact hsym _ _
    have h2 : ‖⟪(A ^ (j + 1)) u, (A ^ (j + 1)) u⟫_ℂ‖ = ‖(A ^ (j + 1)) u‖ ^ 2 := by
      rw [inner_self_eq_norm_sq_to_K]; simp
    rw [← h2, h1]
    exact norm_inner_le_norm _ _
  by_contra hc
  rw [not_le] at hc
  have h0 : (A ^ 0) u = u := by rw [pow_zero]; rfl
  have h1 : (A ^ 1) u = A u := by rw [pow_one]
  have hu : 0 < ‖u‖ := by
    rcases (norm_nonneg u).eq_or_lt with e | e
    · rw [norm_eq_zero.1 e.symm] at hc; simp at hc
    · exact e
  have hr0 : 0 < r := by
    rcases hr.eq_or_lt with e | e
    · have := h 1
      rw [h1, ← e] at this
      rw [← e, zero_mul] at hc
      simp at this
      rw [this] at hc; simp at hc
    · exact e
  set q := ‖A u‖ / ‖u‖ with hq
  have hqr : r < q := by rw [hq, lt_div_iff₀ hu]; exact hc
  have hq0 : 0 < q := hr0.trans hqr
  have grow : ∀ j : ℕ, 0 < ‖(A ^ j) u‖ ∧ q * ‖(A ^ j) u‖ ≤ ‖(A ^ (j + 1)) u‖ := by
    intro j
    induction j with
    | zero =>
      rw [h0, zero_add, h1, hq]
      exact ⟨hu, le_of_eq (by field_simp)⟩
    | succ j ih =>
      have p1 : 0 < ‖(A ^ (j + 1)) u‖ := lt_of_lt_of_le (mul_pos hq0 ih.1) ih.2
      refine ⟨p1, ?_⟩
      have p2 := hlog j
      refine le_of_mul_le_mul_left ?_ ih.1
      refine le_trans ?_ p2
      calc ‖(A ^ j) u‖ * (q * ‖(A ^ (j + 1)) u‖) = (q * ‖(A ^ j) u‖) * ‖(A ^ (j + 1)) u‖ := by ring
        _ ≤ ‖(A ^ (j + 1)) u‖ * ‖(A ^ (j + 1)) u‖ := mul_le_mul_of_nonneg_right ih.2 p1.le
        _ = ‖(A ^ (j + 1)) u‖ ^ 2 := by ring
  have pw : ∀ j : ℕ, q ^ j * ‖u‖ ≤ ‖(A ^ j) u‖ := by
    intro j
    induction j with
    | zero => rw [h0, pow_zero, one_mul]
    | succ j ih =>
      refine le_trans ?_ (grow j).2
      rw [pow_succ', mul_assoc]
      exact mul_le_mul_of_nonneg_left ih hq0.le
  have bd : ∀ j : ℕ, (q / r) ^ j ≤ C / ‖u‖ := by
    intro j
    rw [le_div_iff₀ hu, div_pow, div_mul_eq_mul_div, div_le_iff₀ (pow_pos hr0 j)]
    exact (pw j).trans (h j)
  obtain ⟨j, hj⟩ := pow_unbounded_of_one_lt (C / ‖u‖) ((one_lt_div hr0).2 hqr)
  exact absurd (bd j) (not_le.2 hj)

/-- the converse of `powers_of_below` -/
theorem below_of_powers {H : E →L[ℂ] E} (hH : IsSelfAdjoint H) {v : E} (hv : ‖v‖ = 1) {e c : ℝ} (hec : e ≤ c)
    (h : ∀ j : ℕ, ‖((algebraMap ℝ (E →L[ℂ] E) c - H) ^ j) v‖ ≤ (c - e) ^ j) {w eta : ℝ} (hw : w ≤ e) (heta : 0 < eta) :
    ((e - w) ^ 2 + eta ^ 2) * ‖resolvent H ((w : ℂ) + I * eta) v‖ ^ 2 ≤ 1 := by
  set z : ℂ := (w : ℂ) + I * eta with hz
  have him : z.im = eta := by simp [hz]
  have hz0 : z.im ≠ 0 := by rw [him]; exact heta.ne'
  have hmem := mem_resolventSet_of_im hH hz0
  have r := resolvent_apply hmem v
  set u := resolvent H z v with hu
  set A := algebraMap ℝ (E →L[ℂ] E) c - H with hA
  have hAs : IsSelfAdjoint A := (IsSelfAdjoint.algebraMap _ (by rfl)).sub hH
  have ea : ∀ x : E, A x = (c : ℂ) • x - H x := by
    intro x
    rw [hA, sub_apply, Algebra.algebraMap_eq_smul_one]
    simp
  have hcomm : ∀ j : ℕ, z • (A ^ j) u - H ((A ^ j) u) = (A ^ j) v := by
    intro j
    have hAH : Commute (A ^ j) H := by
      refine Commute.pow_left ?_ j
      exact Commute.sub_left (show Commute _ _ from Algebra.commutes c H) (Commute.refl H)
    have e1 : H ((A ^ j) u) = (A ^ j) (H u) := (congrArg (fun B : E →L[ℂ] E => B u) hAH.eq).symm
    rw [e1, ← map_smul, ← map_sub, r]
  have hpow : ∀ j : ℕ, ‖(A ^ j) u‖ ≤ 1 / eta * (c - e) ^ j := by
    intro j
    have h1 := norm_le_of_eq hH (hcomm j)
    rw [him, abs_of_pos heta] at h1
    have h2 := h1.trans (h j)
    rw [div_mul_eq_mul_div, one_mul, le_div_iff₀ heta, mul_comm]
    exact h2
  have hAu := norm_le_of_powers hAs (by linarith) hpow
  have hfl : e * ‖u‖ ^ 2 ≤ (⟪u, H u⟫_ℂ).re := by
    have h1 : (⟪u, A u⟫_ℂ).re ≤ (c - e) * ‖u‖ ^ 2 := by
      refine ((Complex.re_le_norm _).trans (norm_inner_le_norm _ _)).trans ?_
      calc ‖u‖ * ‖A u‖ ≤ ‖u‖ * ((c - e) * ‖u‖) := mul_le_mul_of_nonneg_left hAu (norm_nonneg _)
        _ = (c - e) * ‖u‖ ^ 2 := by ring
    rw [ea, inner_sub_right, inner_smul_right, Complex.sub_re, Complex.re_ofReal_mul] at h1
    have h2 : (⟪u, u⟫_ℂ).re = ‖u‖ ^ 2 := by rw [inner_self_eq_norm_sq_to_K]; norm_cast
    rw [h2] at h1
    linarith
  have := norm_sq_below_at hH hfl hw r
  rwa [hv, one_pow] at this
end
end GGCE
