import Verif.Proofs.SecondOrder

/-! The complex conjugate of the continued fraction, and the lattice propagator at negative broadening. -/

set_option linter.unusedSectionVars false

namespace GGCE
open Spec Arr Dict
open scoped ComplexConjugate

theorem fraction_conj {d : ℕ → ℕ} {A A' : ∀ n, Matrix (Fin (d (n + 1))) (Fin (d n)) ℂ}
    {B B' : ∀ n, Matrix (Fin (d n)) (Fin (d (n + 1))) ℂ} {N : ℕ} (hA : ∀ n, n + 1 ≤ N → A' n = (A n).map conj)
    (hB : ∀ n, n + 1 ≤ N → B' n = (B n).map conj) (s n : ℕ) (h : n + s + 1 ≤ N) :
    fraction A' B' s n = (fraction A B s n).map (fun M => M.map conj) := by
  induction s generalizing n with
  | zero => show Except.ok _ = Except.ok _; rw [hA n (by omega)]
  | succ s ih =>
    unfold fraction
    rw [ih (n + 1) (by omega)]
    cases fraction A B s (n + 1) with
    | error e => rfl
    | ok R' =>
      simp only [Except.map, bind, Except.bind, pure, Except.pure]
      have e1 : (1 : Matrix (Fin (d (n + 1))) (Fin (d (n + 1))) ℂ) - B' (n + 1) * R'.map conj =
          ((1 : Matrix (Fin (d (n + 1))) (Fin (d (n + 1))) ℂ) - B (n + 1) * R').map (starRingEnd ℂ) := by
        rw [hB _ (by omega), Matrix.map_sub _ (by simp), Matrix.map_mul]
        congr 1
        exact (Matrix.map_one _ (map_zero _) (map_one _)).symm
      rw [e1]
      generalize hX : (1 : Matrix (Fin (d (n + 1))) (Fin (d (n + 1))) ℂ) - B (n + 1) * R' = X
      have e2 : (X.map (starRingEnd ℂ)).det = conj X.det := (RingHom.map_det (starRingEnd ℂ) X).symm
      rw [e2]
      by_cases hz : X.det = 0
      · rw [if_pos (by rw [hz, map_zero]), if_pos hz]
      · rw [if_neg (by simpa using hz), if_neg hz]
        congr 1
        rw [hA n (by omega)]
        have e3 : (X.map (starRingEnd ℂ))⁻¹ = X⁻¹.map (starRingEnd ℂ) := by
          refine Matrix.inv_eq_left_inv ?_
          rw [← Matrix.map_mul, Matrix.nonsing_inv_mul _ (isUnit_iff_ne_zero.2 hz)]
          exact Matrix.map_one _ (map_zero _) (map_one _)
        rw [e3, ← Matrix.map_mul]

section
variable {m : Model ℝ} {eqs : Dict Nat (List (Equation ℝ))} {p p' : Point ℝ}

/-- conjugate coefficients give the conjugate result -/
theorem Ready.dense_conj (h : Ready m eqs) (hN : 1 ≤ m.number.sum.toNat)
    (hc : ∀ t, coefV realPhys m p' t = conj (coefV realPhys m p t))
    (hG : realPhys.G0 p'.k p'.w m.latticeConstant p'.eta m.ham.hopping =
      conj (realPhys.G0 p.k p.w m.latticeConstant p.eta m.ham.hopping)) {G : ℂ}
    (hd : denseSolve realPhys m p (GGCE.localBasis eqs) eqs = .ok (some G)) :
    denseSolve realPhys m p' (GGCE.localBasis eqs) eqs = .ok (some (conj G)) := by
  have hfill : ∀ n n', n ≤ m.number.sum.toNat → n' ≤ m.number.sum.toNat →
      (toMatrix _ _ (fillV realPhys m p' eqs n n') :
        Matrix (Fin (GGCE.blockDim (GGCE.localBasis eqs) n)) (Fin (GGCE.blockDim (GGCE.localBasis eqs) n')) ℂ) =
      (toMatrix _ _ (fillV realPhys m p eqs n n')).map conj := by
    intro n n' hn hn'
    ext i j
    show cooEntry _ _ _ = conj (cooEntry _ _ _)
    have hi : i.val < (eqs.vals n).length := by rw [← h.blockDim hn]; exact i.isLt
    have he := List.getElem?_eq_getElem hi
    rw [h.fillV_entry realPhys p' hn hn' i _ he j, h.fillV_entry realPhys p hn hn' i _ he j, map_list_sum, List.map_map]
    congr 1
    refine List.map_congr_left (fun t _ => ?_)
    show _ = conj (if _ then _ else _)
    rw [hc]
    split
    · split <;> simp
    · simp
  rw [h.denseSolve_eq realPhys p hN] at hd
  rw [h.denseSolve_eq realPhys p' hN, fraction_conj (A := alphaM realPhys m p eqs) (B := betaM realPhys m p eqs)
    (A' := alphaM realPhys m p' eqs) (B' := betaM realPhys m p' eqs)
    (N := m.number.sum.toNat) (fun n hn => hfill (n + 1) n hn (by omega)) (fun n hn => hfill n (n + 1) (by omega) hn) _ 0
    (by omega)]
  cases hf : fraction (alphaM realPhys m p eqs) (betaM realPhys m p eqs) (m.number.sum.toNat - 1) 0 with
  | error e => rw [hf] at hd; cases hd
  | ok R1 =>
    rw [hf] at hd
    simp only [Except.map, bind, Except.bind] at hd ⊢
    have e1 : betaM realPhys m p' eqs 0 * R1.map conj = (betaM realPhys m p eqs 0 * R1).map (starRingEnd ℂ) := by
      rw [show betaM realPhys m p' eqs 0 = (betaM realPhys m p eqs 0).map (starRingEnd ℂ) from
        hfill 0 1 (by omega) hN, ← Matrix.map_mul]
    rw [e1, Matrix.map_apply, hG]
    generalize (betaM realPhys m p eqs 0 * R1) h.i0 h.i0 = x at hd
    rw [show (1 : ℂ) - conj x = conj (1 - x) by simp]
    by_cases hx : 1 - x = 0
    · rw [if_pos hx] at hd; cases hd
    · rw [if_neg hx] at hd
      rw [if_neg ((map_ne_zero _).2 hx)]
      have hd := Option.some.inj (Except.ok.inj hd)
      rw [← hd, map_div₀]

/-- Without hopping the coefficients at `(-k, w, -eta)` are the conjugate ones. -/
theorem coefV_conj (h0 : m.ham.hopping = 0) (k w eta : ℝ) (t : Term ℝ) :
    coefV realPhys m ⟨-k, w, -eta⟩ t = conj (coefV realPhys m ⟨k, w, eta⟩ t) := by
  have hph : ∀ x : ℝ, realPhys.expI (-k * x) = conj (realPhys.expI (k * x)) := by
    intro x
    show Complex.exp _ = conj (Complex.exp _)
    rw [← Complex.exp_conj]
    congr 1
    simp
  have hG : realPhys.G0 (-k) w m.latticeConstant (-eta) m.ham.hopping =
      conj (realPhys.G0 k w m.latticeConstant eta m.ham.hopping) := by
    show G0R _ _ _ _ _ = conj (G0R _ _ _ _ _)
    simp [G0R, h0]
  have hg : ∀ d x : ℝ, realPhys.g0 d x m.latticeConstant (-eta) m.ham.hopping =
      conj (realPhys.g0 d x m.latticeConstant eta m.ham.hopping) := by
    intro d x
    show g0R _ _ _ _ _ = conj (g0R _ _ _ _ _)
    unfold g0R
    rw [if_pos h0, if_pos h0]
    split <;> simp
  have ho : ∀ x : ℝ, realPhys.ofReal x = conj (realPhys.ofReal x) := fun x => (Complex.conj_ofReal x).symm
  unfold coefV Term.coefficient
  simp only []
  rw [hph]
  cases t.kind with
  | eom =>
    simp only [map_mul]
    rw [hG, ← ho]
  | _ =>
    cases t.gArg with
    | none => simp
    | some g =>
      simp only [map_mul]
      rw [hg, ← ho]

end

theorem csqrt_conj {z : ℂ} (h : 0 < z.re ∨ z.im ≠ 0) : Complex.sqrt (conj z) = conj (Complex.sqrt z) := by
  unfold Complex.sqrt
  rw [Complex.conj_cpow _ _ ?_]
  · congr 2
    simp [Complex.conj_ofNat]
  · intro he
    rw [Complex.arg_eq_pi_iff] at he
    rcases h with h | h
    · linarith [he.1]
    · exact h he.2

/-- With hopping the local propagator at negative broadening is minus the conjugate one. -/
theorem g0_negative {t : ℝ} (ht : 0 < t) (w a : ℝ) {eta : ℝ} (heta : 0 < eta) :
    g0R 0 w a (-eta) t = -conj (g0R 0 w a eta t) ∧ g0R 0 w a eta t ≠ 0 := by
  have hz : ((w : ℂ) + ((-eta : ℝ) : ℂ) * Complex.I) = conj ((w : ℂ) + (eta : ℂ) * Complex.I) := by simp
  set z : ℂ := (w : ℂ) + (eta : ℂ) * Complex.I with hzd
  have hsq : 0 < ((((2 * |t| : ℝ) : ℂ)) ^ 2 - z ^ 2).re ∨ ((((2 * |t| : ℝ) : ℂ)) ^ 2 - z ^ 2).im ≠ 0 := by
    by_cases hw : w = 0
    · left
      simp [hzd, hw, pow_two]
      nlinarith [abs_pos.2 ht.ne']
    · right
      simp [hzd, pow_two]
      exact fun h => (mul_ne_zero hw heta.ne') (by linarith)
  unfold g0R
  rw [if_neg ht.ne', if_neg ht.ne', hz]
  simp only [zero_mul, abs_zero, Complex.ofReal_zero, Complex.cpow_zero, one_mul]
  refine ⟨?_, ?_⟩
  · rw [show (((2 * |t| : ℝ) : ℂ)) ^ 2 - conj z ^ 2 = conj ((((2 * |t| : ℝ) : ℂ)) ^ 2 - z ^ 2) by
      rw [map_sub, map_pow, map_pow, Complex.conj_ofReal], csqrt_conj hsq, map_div₀]
    simp
    ring
  · have := csqrt_re_pos hsq
    refine div_ne_zero (by simp) (fun h => ?_)
    rw [h] at this
    simp at this

end GGCE
