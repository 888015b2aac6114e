import Verif.Proofs.Frame
import Verif.Proofs.Floor
import Verif.Spec.Flat

/-!
Clouds of one site: the amplitudes at two momenta are multiples of each other, so the momentum enters like an energy of
the bare electron. A change of that energy is a perturbation of rank one, which moves the edge by at most the change.
-/

set_option linter.unusedSectionVars false

namespace GGCE
open Spec Complex
open scoped InnerProductSpace

/-! ### the amplitudes at two momenta -/

open Classical in
/-- the site of the phonons, and that of the electron if there are none -/
noncomputable def anchor (n : Occ) (e : ℤ) : ℤ := if h : ∃ x t, n t x ≠ 0 then h.choose else e

theorem anchor_spec {n : Occ} {x : ℤ} (h : ∀ t y, n t y ≠ 0 → y = x) (hx : n = 0 → e = x) : anchor n e = x := by
  unfold anchor
  split
  · rename_i hc
    obtain ⟨t, ht⟩ := hc.choose_spec
    exact h t _ ht
  · rename_i hc
    push Not at hc
    exact hx (funext fun t => funext fun y => hc y t)

theorem Spec.Allowed.one {m : Model ℝ} {n : Occ} (h : Allowed m 1 n) {t t' : ℕ} {x y : ℤ} (hx : n t x ≠ 0) (hy : n t' y ≠ 0) :
    y = x := by
  have h1 := h.window _ _ _ _ hx hy
  have h2 := h.window _ _ _ _ hy hx
  omega

theorem anchor_of {m : Model ℝ} {n : Occ} (h : Allowed m 1 n) {t : ℕ} {x : ℤ} (hx : n t x ≠ 0) (e : ℤ) : anchor n e = x :=
  anchor_spec (fun _ _ hy => h.one hx hy) (fun h0 => absurd (by rw [h0]; rfl) hx)

theorem anchor_zero (e : ℤ) : anchor 0 e = e := anchor_spec (fun _ _ h => absurd rfl h) (fun _ => rfl)

theorem exists_occ {n : Occ} (h : n ≠ 0) : ∃ t x, n t x ≠ 0 := by
  by_contra hc
  push Not at hc
  exact h (funext fun t => funext fun x => hc t x)

theorem anchor_shift {m : Model ℝ} {n : Occ} (h : Allowed m 1 n) (e s : ℤ) : anchor (n.shift s) (e + s) = anchor n e + s := by
  by_cases h0 : n = 0
  · subst h0
    have : (0 : Occ).shift s = 0 := rfl
    rw [this, anchor_zero, anchor_zero]
  · obtain ⟨t, x, hx⟩ := exists_occ h0
    rw [anchor_of h hx]
    refine anchor_spec (fun t' y hy => ?_) (fun hc => absurd ?_ hx)
    · have := h.one hx (t' := t') (y := y - s) hy
      omega
    · have := congrFun (congrFun hc t) (x + s)
      have e1 : n.shift s t (x + s) = n t x := by show n t (x + s - s) = _; rw [add_sub_cancel_right]
      rw [e1] at this
      exact this

theorem anchor_move {m : Model ℝ} {n : Occ} (h : Allowed m 1 n) (h0 : n ≠ 0) (e e' : ℤ) : anchor n e = anchor n e' := by
  obtain ⟨t, x, hx⟩ := exists_occ h0
  rw [anchor_of h hx, anchor_of h hx]

theorem anchor_act {m : Model ℝ} {n : Occ} (h : Allowed m 1 n) {d : Dag} {i : ℕ} {e : ℤ} (hf : occFactor d n i e ≠ 0)
    (h' : Allowed m 1 (n.act d i e)) : anchor (n.act d i e) e = anchor n e := by
  cases d with
  | plus =>
    have h1 : n.act .plus i e i e ≠ 0 := by
      show n i e + (if i = i ∧ e = e then Dag.delta .plus else 0) ≠ 0
      rw [if_pos ⟨rfl, rfl⟩]
      have := h.nonneg i e
      show n i e + 1 ≠ 0
      omega
    rw [anchor_of h' h1]
    refine (anchor_spec (fun t y hy => h'.one h1 (t' := t) (y := y) ?_) (fun _ => rfl)).symm
    show n t y + (if t = i ∧ y = e then Dag.delta .plus else 0) ≠ 0
    have := h.nonneg t y
    split
    · show n t y + 1 ≠ 0
      omega
    · rwa [add_zero]
  | minus =>
    have h1 : n i e ≠ 0 := fun hc => hf (by show n i e = 0; exact hc)
    rw [anchor_of h h1]
    refine anchor_spec (fun t y hy => ?_) (fun _ => rfl)
    by_contra hc
    have h2 : n.act .minus i e t y = n t y := by
      show n t y + (if t = i ∧ y = e then Dag.delta .minus else 0) = _
      rw [if_neg (fun h => hc h.2), add_zero]
    rw [h2] at hy
    exact hc (h.one h1 hy)

/-- The amplitudes at the momentum `q` are those at `p.k`, moved in phase with the phonons, times one number. -/
theorem resolvent_onsite {m : Model ℝ} {p : Point ℝ} {q : ℝ} (hon : Onsite m)
    {Ψ : Occ → ℤ → ℂ} (hΨ : Resolvent m 1 p Ψ) {μ : ℂ}
    (hμ : μ * (1 + 2 * m.ham.hopping * (Real.cos (q * m.latticeConstant) - Real.cos (p.k * m.latticeConstant)) * Ψ 0 0) = 1) :
    Resolvent m 1 { p with k := q }
      (fun n e => μ * (exp (-(I * ((q - p.k) * m.latticeConstant * anchor n e))) * Ψ n e)) where
  bloch n e s := by
    by_cases hn : Allowed m 1 n
    · show μ * (exp (-(I * ((q - p.k) * m.latticeConstant * (anchor (n.shift s) (e + s) : ℤ)))) * Ψ (n.shift s) (e + s)) =
        exp (-(I * (q * m.latticeConstant * s))) * (μ * (exp (-(I * ((q - p.k) * m.latticeConstant * anchor n e))) * Ψ n e))
      rw [hΨ.bloch n e s, anchor_shift hn]
      have : exp (-(I * ((q - p.k) * m.latticeConstant * ((anchor n e + s : ℤ) : ℂ)))) *
          exp (-(I * (p.k * m.latticeConstant * s))) =
          exp (-(I * (q * m.latticeConstant * s))) * exp (-(I * ((q - p.k) * m.latticeConstant * anchor n e))) := by
        rw [← exp_add, ← exp_add]; congr 1; push_cast; ring
      linear_combination μ * Ψ n e * this
    · show μ * (_ * Ψ (n.shift s) (e + s)) = _ * (μ * (_ * Ψ n e))
      rw [hΨ.bloch n e s, hΨ.outside n hn e]
      simp
  bounded n := by
    obtain ⟨C, hC⟩ := hΨ.bounded n
    refine ⟨‖μ‖ * C, fun e => ?_⟩
    rw [norm_mul, norm_mul]
    have : ‖exp (-(I * ((q - p.k) * m.latticeConstant * anchor n e)))‖ = 1 := by
      have h : (-(I * ((q - p.k) * m.latticeConstant * anchor n e)) : ℂ) =
          ((-((q - p.k) * m.latticeConstant * anchor n e) : ℝ) : ℂ) * I := by push_cast; ring
      rw [h, norm_exp_ofReal_mul_I]
    rw [this, one_mul]
    exact mul_le_mul_of_nonneg_left (hC e) (norm_nonneg _)
  outside n hn e := by
    show μ * (_ * Ψ n e) = 0
    rw [hΨ.outside n hn e]; simp
  motion n hn e := by
    have hm := hΨ.motion n hn e
    set φ : ℂ := exp (-(I * ((q - p.k) * m.latticeConstant * anchor n e))) with hφ
    have hterms : (m.ham.terms.map (fun h : SingleTerm ℝ => (h.coupling : ℂ) *
        (occFactor h.dag n h.phononIndex (bosonSite h e) : ℂ) *
        (μ * (exp (-(I * ((q - p.k) * m.latticeConstant *
          anchor (n.act h.dag h.phononIndex (bosonSite h e)) (electronSite h e)))) *
          Ψ (n.act h.dag h.phononIndex (bosonSite h e)) (electronSite h e))))).sum =
        μ * φ * (m.ham.terms.map (fun h : SingleTerm ℝ => (h.coupling : ℂ) *
        (occFactor h.dag n h.phononIndex (bosonSite h e) : ℂ) *
        Ψ (n.act h.dag h.phononIndex (bosonSite h e)) (electronSite h e))).sum := by
      rw [← List.sum_map_mul_left]
      congr 1
      refine List.map_congr_left (fun h hh => ?_)
      have hb : bosonSite h e = e := by
        unfold bosonSite; rw [(hon h hh).1, (hon h hh).2]; omega
      have he : electronSite h e = e := by
        unfold electronSite; rw [(hon h hh).1]; omega
      rw [hb, he]
      by_cases hf : occFactor h.dag n h.phononIndex e = 0
      · rw [hf]; simp
      · by_cases ha : Allowed m 1 (n.act h.dag h.phononIndex e)
        · rw [anchor_act hn hf ha]; ring
        · rw [hΨ.outside _ ha]; simp
    show (p.w + I * p.eta - occEnergy m n) * (μ * (φ * Ψ n e)) +
      m.ham.hopping * (μ * (exp (-(I * ((q - p.k) * m.latticeConstant * anchor n (e - 1)))) * Ψ n (e - 1)) +
        μ * (exp (-(I * ((q - p.k) * m.latticeConstant * anchor n (e + 1)))) * Ψ n (e + 1))) - _ =
      open Classical in if n = 0 then exp (-(I * (q * m.latticeConstant * e))) else 0
    rw [hterms]
    by_cases h0 : n = 0
    · subst h0
      rw [if_pos rfl] at hm ⊢
      rw [anchor_zero] at hφ
      rw [anchor_zero, anchor_zero]
      have hb : ∀ s : ℤ, Ψ 0 s = exp (-(I * (p.k * m.latticeConstant * s))) * Ψ 0 0 := by
        intro s
        have := hΨ.bloch 0 0 s
        rw [zero_add] at this
        exact this
      have hcos : ∀ x : ℝ, (2 : ℂ) * Real.cos x = exp (I * x) + exp (-(I * x)) := by
        intro x
        rw [ofReal_cos, Complex.two_cos, mul_comm]
        ring_nf
      have hc1 := hcos (q * m.latticeConstant)
      have hc2 := hcos (p.k * m.latticeConstant)
      push_cast at hc1 hc2
      -- one site back and forth
      have st : ∀ x : ℝ, exp (-(I * (x * m.latticeConstant * ((e - 1 : ℤ) : ℂ)))) =
            exp (-(I * (x * m.latticeConstant * e))) * exp (I * (x * m.latticeConstant)) ∧
          exp (-(I * (x * m.latticeConstant * ((e + 1 : ℤ) : ℂ)))) =
            exp (-(I * (x * m.latticeConstant * e))) * exp (-(I * (x * m.latticeConstant))) := by
        intro x
        rw [← exp_add, ← exp_add]
        constructor <;> (congr 1; push_cast; ring)
      have ph : ∀ s : ℤ, exp (-(I * ((q - p.k) * m.latticeConstant * s))) * exp (-(I * (p.k * m.latticeConstant * s))) =
          exp (-(I * (q * m.latticeConstant * s))) := by
        intro s; rw [← exp_add]; congr 1; ring
      have p0 := ph e
      rw [← hφ] at p0
      have pm := ph (e - 1)
      have pp := ph (e + 1)
      rw [(st q).1] at pm
      rw [(st q).2] at pp
      rw [hb e, hb (e - 1), hb (e + 1)] at hm ⊢
      rw [(st p.k).1, (st p.k).2] at hm
      set S := (m.ham.terms.map (fun h : SingleTerm ℝ => (h.coupling : ℂ) *
        (occFactor h.dag 0 h.phononIndex (bosonSite h e) : ℂ) *
        Ψ (Occ.act 0 h.dag h.phononIndex (bosonSite h e)) (electronSite h e))).sum
      push_cast at hμ
      set G := Ψ 0 0
      set Q := exp (-(I * (q * m.latticeConstant * e)))
      set P := exp (-(I * (p.k * m.latticeConstant * e)))
      set z : ℂ := p.w + I * p.eta - occEnergy m 0
      set t : ℂ := (m.ham.hopping : ℂ)
      linear_combination μ * φ * hm + t * μ * G * pm + t * μ * G * pp +
        (μ - t * μ * G * (exp (I * (p.k * m.latticeConstant)) + exp (-(I * (p.k * m.latticeConstant))))) * p0 +
        Q * hμ - t * μ * G * Q * hc1 + t * μ * G * Q * hc2
    · rw [if_neg h0] at hm ⊢
      rw [anchor_move hn h0 (e - 1) e, anchor_move hn h0 (e + 1) e, ← hφ]
      linear_combination μ * φ * hm

/-! ### a change of the energy of one state -/

variable {E : Type*} [NormedAddCommGroup E] [InnerProductSpace ℂ E] [CompleteSpace E]

/-- the projection on the state `v` -/
noncomputable def onto (v : E) : E →L[ℂ] E := (innerSL ℂ v).smulRight v

theorem onto_apply (v f : E) : onto v f = ⟪v, f⟫_ℂ • v := rfl

theorem onto_selfAdjoint (v : E) : IsSelfAdjoint (onto v) := by
  rw [ContinuousLinearMap.isSelfAdjoint_iff_isSymmetric]
  intro x y
  show ⟪onto v x, y⟫_ℂ = ⟪x, onto v y⟫_ℂ
  rw [onto_apply, onto_apply, inner_smul_left, inner_smul_right, inner_conj_symm, mul_comm]

/-- `H` with the energy of `v` raised by `c` -/
noncomputable def raised (H : E →L[ℂ] E) (c : ℝ) (v : E) : E →L[ℂ] E := H + (c : ℂ) • onto v

theorem raised_apply (H : E →L[ℂ] E) (c : ℝ) (v f : E) : raised H c v f = H f + (c : ℂ) • (⟪v, f⟫_ℂ • v) := rfl

theorem raised_selfAdjoint {H : E →L[ℂ] E} (hH : IsSelfAdjoint H) (c : ℝ) (v : E) : IsSelfAdjoint (raised H c v) := by
  rw [ContinuousLinearMap.isSelfAdjoint_iff_isSymmetric] at hH ⊢
  intro x y
  have h1 : ⟪H x, y⟫_ℂ = ⟪x, H y⟫_ℂ := hH x y
  show ⟪raised H c v x, y⟫_ℂ = ⟪x, raised H c v y⟫_ℂ
  rw [raised_apply, raised_apply, inner_add_left, inner_add_right, h1, inner_smul_left, inner_smul_left,
    inner_smul_right, inner_smul_right, inner_conj_symm, Complex.conj_ofReal]
  ring

theorem green_raised {H : E →L[ℂ] E} (hH : IsSelfAdjoint H) (c : ℝ) (v : E) {z : ℂ} (hz : z.im ≠ 0) :
    green (raised H c v) v z = (1 + c * green (raised H c v) v z) * green H v z := by
  have r := resolvent_apply (mem_resolventSet_of_im (raised_selfAdjoint hH c v) hz) v
  unfold green
  set u := resolvent (raised H c v) z v with hu
  have h1 : z • u - H u = (1 + c * ⟪v, u⟫_ℂ) • v := by
    rw [raised_apply, ← sub_sub, sub_eq_iff_eq_add] at r
    rw [r, add_smul, one_smul, mul_smul]
  have h2 := (resolvent_unique (mem_resolventSet_of_im hH hz) h1).trans (map_smul _ _ _)
  have h3 : ⟪v, u⟫_ℂ = ⟪v, (1 + c * ⟪v, u⟫_ℂ) • resolvent H z v⟫_ℂ := congrArg (fun x => ⟪v, x⟫_ℂ) h2
  rwa [inner_smul_right] at h3

theorem above_selfAdjoint {H : E →L[ℂ] E} (hH : IsSelfAdjoint H) (s : ℝ) :
    IsSelfAdjoint (algebraMap ℝ (E →L[ℂ] E) s - H) := (IsSelfAdjoint.algebraMap _ (by rfl)).sub hH

theorem above_inner_nonneg {H : E →L[ℂ] E} (hH : IsSelfAdjoint H) {s : ℝ} (hs : ‖H‖ ≤ s) (v : E) (j : ℕ) :
    0 ≤ (⟪v, ((algebraMap ℝ (E →L[ℂ] E) s - H) ^ j) v⟫_ℂ).re := by
  set A := algebraMap ℝ (E →L[ℂ] E) s - H with hA
  have hAs : IsSelfAdjoint A := above_selfAdjoint hH s
  have happ : ∀ f, A f = (s : ℂ) • f - H f := fun f => by
    rw [hA, sub_apply, Algebra.algebraMap_eq_smul_one]; rfl
  have hpos : ∀ f, 0 ≤ (⟪f, A f⟫_ℂ).re := by
    intro f
    rw [happ, inner_sub_right, inner_smul_right, Complex.sub_re, inner_self_eq_norm_sq_to_K, Complex.re_ofReal_mul]
    have h1 : (⟪f, H f⟫_ℂ).re ≤ ‖f‖ * (‖H‖ * ‖f‖) :=
      (Complex.re_le_norm _).trans ((norm_inner_le_norm _ _).trans
        (mul_le_mul_of_nonneg_left (H.le_opNorm f) (norm_nonneg f)))
    have h2 : (((‖f‖ : ℝ) : ℂ) ^ 2).re = ‖f‖ ^ 2 := by norm_cast
    have h3 := mul_le_mul_of_nonneg_right hs (sq_nonneg ‖f‖)
    erw [h2]
    nlinarith
  have hsym : ∀ (i : ℕ) (x y : E), ⟪(A ^ i) x, y⟫_ℂ = ⟪x, (A ^ i) y⟫_ℂ := fun i x y =>
    (ContinuousLinearMap.isSelfAdjoint_iff_isSymmetric.1 (hAs.pow i)) x y
  obtain ⟨i, rfl | rfl⟩ := Nat.even_or_odd' j
  · rw [two_mul, pow_add]
    show 0 ≤ (⟪v, (A ^ i) ((A ^ i) v)⟫_ℂ).re
    rw [← hsym, inner_self_eq_norm_sq_to_K]
    have h2 : (((‖(A ^ i) v‖ : ℝ) : ℂ) ^ 2).re = ‖(A ^ i) v‖ ^ 2 := by norm_cast
    erw [h2]
    positivity
  · rw [show 2 * i + 1 = i + (1 + i) by ring, pow_add, pow_add, pow_one]
    show 0 ≤ (⟪v, (A ^ i) (A ((A ^ i) v))⟫_ℂ).re
    rw [← hsym]
    exact hpos _

/-- raising the energy of `v` by `c` moves the edge up by at most `c` -/
theorem powers_raised {A B : E →L[ℂ] E} {v : E} (hv : ‖v‖ = 1) {c r : ℝ} (hc : 0 ≤ c) (hr : 0 ≤ r)
    (hAB : ∀ f, A f = B f + (c : ℂ) • (⟪v, f⟫_ℂ • v)) (h : ∀ j : ℕ, ‖(B ^ j) v‖ ≤ r ^ j) (n : ℕ) :
    ∀ i : ℕ, ‖(B ^ i) ((A ^ n) v)‖ ≤ r ^ i * (r + c) ^ n := by
  induction n with
  | zero => intro i; simpa using h i
  | succ n ih =>
    intro i
    have e1 : (B ^ i) ((A ^ (n + 1)) v) = (B ^ (i + 1)) ((A ^ n) v) + ((c : ℂ) * ⟪v, (A ^ n) v⟫_ℂ) • (B ^ i) v := by
      rw [pow_succ' A, pow_succ B]
      show (B ^ i) (A ((A ^ n) v)) = (B ^ i) (B ((A ^ n) v)) + _
      rw [hAB, map_add, ← mul_smul, map_smul]
    have h0 : ‖⟪v, (A ^ n) v⟫_ℂ‖ ≤ (r + c) ^ n := by
      refine (norm_inner_le_norm _ _).trans ?_
      have := ih 0
      rw [hv, one_mul]
      simpa using this
    rw [e1]
    refine (norm_add_le _ _).trans ?_
    rw [norm_smul, norm_mul, Complex.norm_real, Real.norm_eq_abs, abs_of_nonneg hc]
    have h1 := ih (i + 1)
    have h2 : c * ‖⟪v, (A ^ n) v⟫_ℂ‖ * ‖(B ^ i) v‖ ≤ c * (r + c) ^ n * r ^ i :=
      mul_le_mul (mul_le_mul_of_nonneg_left h0 hc) (h i) (norm_nonneg _) (by positivity)
    calc _ ≤ r ^ (i + 1) * (r + c) ^ n + c * (r + c) ^ n * r ^ i := add_le_add h1 h2
      _ = _ := by ring

/-- ... and not down -/
theorem powers_lowered {A B : E →L[ℂ] E} (hA : IsSelfAdjoint A) {v : E} {c : ℝ} (hc : 0 ≤ c)
    (hAB : ∀ f, A f = B f + (c : ℂ) • (⟪v, f⟫_ℂ • v)) (pA : ∀ j : ℕ, 0 ≤ (⟪v, (A ^ j) v⟫_ℂ).re)
    (pB : ∀ j : ℕ, 0 ≤ (⟪v, (B ^ j) v⟫_ℂ).re) (n : ℕ) :
    ∀ i : ℕ, (⟪v, (B ^ (i + n)) v⟫_ℂ).re ≤ (⟪v, (B ^ i) ((A ^ n) v)⟫_ℂ).re := by
  induction n with
  | zero => intro i; simp
  | succ n ih =>
    intro i
    have e1 : (B ^ i) ((A ^ (n + 1)) v) = (B ^ (i + 1)) ((A ^ n) v) + ((c : ℂ) * ⟪v, (A ^ n) v⟫_ℂ) • (B ^ i) v := by
      rw [pow_succ' A, pow_succ B]
      show (B ^ i) (A ((A ^ n) v)) = (B ^ i) (B ((A ^ n) v)) + _
      rw [hAB, map_add, ← mul_smul, map_smul]
    have e2 : (⟪v, (A ^ n) v⟫_ℂ).im = 0 := inner_real (hA.pow n) v
    rw [e1, inner_add_right, inner_smul_right, Complex.add_re, mul_assoc, Complex.re_ofReal_mul, Complex.mul_re, e2, zero_mul, sub_zero]
    have h1 := ih (i + 1)
    have h2 : 0 ≤ c * ((⟪v, (A ^ n) v⟫_ℂ).re * (⟪v, (B ^ i) v⟫_ℂ).re) := mul_nonneg hc (mul_nonneg (pA n) (pB i))
    rw [show i + (n + 1) = i + 1 + n by ring]
    linarith

end GGCE
