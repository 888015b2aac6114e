import Verif.Proofs.FloatDense
import Verif.Props.Fpu
import Verif.Props.DenseResidual

/-!
Property C132: the dense solver in floating-point arithmetic.
-/

namespace GGCE.Props
open Spec Arr Complex Filter Asymptotics

/-- the operations in exact arithmetic; `linalg.solve` raises `LinAlgError` for a singular matrix -/
noncomputable def exactLib (K : Type) [Field K] : DenseLib K where
  matmul A B := A * B
  solve X A := open Classical in if X.det = 0 then .error .linAlgError else .ok (X⁻¹ * A)
  sub a b := a - b
  div a b := a / b

theorem fillEntryF_exact {K : Type} [Field K] (ts : List (ℕ × ℕ × K)) (i j : ℕ) :
    fillEntryF ⟨(· * ·), (· + ·)⟩ id ts i j = cooEntry ts i j := by
  have key : ∀ (ts : List (ℕ × ℕ × K)) a,
      ts.foldl (fun a t => if t.1 = i ∧ t.2.1 = j then id (a + t.2.2) else a) a = a + cooEntry ts i j := by
    intro ts
    induction ts with
    | nil => intro a; simp [cooEntry]
    | cons t ts ih =>
      intro a
      rw [List.foldl_cons, ih, cooEntry_cons]
      split
      · rw [id, add_assoc]
      · rw [zero_add]
  show ts.foldl _ 0 = _
  rw [← zero_add (cooEntry ts i j)]
  exact key ts 0

theorem toMatrixF_exact {K : Type} [Field K] (r c : ℕ) (ts : List (ℕ × ℕ × K)) :
    toMatrixF ⟨(· * ·), (· + ·)⟩ id r c ts = toMatrix r c ts := by
  funext i j
  exact fillEntryF_exact ts i j

theorem fillMatrixF_exact {R K : Type} [Field R] [LinearOrder R] [Field K] (F : Phys R K) (m : Model R) (p : Point R)
    (basis : Dict ℕ (Dict PyStr ℕ)) (eqs : Dict ℕ (List (Equation R))) (n n' : ℕ) :
    fillMatrixF ⟨(· * ·), (· + ·)⟩ F m p basis eqs n n' = fillMatrix F m p basis eqs n n' := rfl

theorem denseRF_exact {R K : Type} [Field R] [LinearOrder R] [Field K] (F : Phys R K) (m : Model R) (p : Point R)
    (basis : Dict ℕ (Dict PyStr ℕ)) (eqs : Dict ℕ (List (Equation R))) : ∀ s n,
    denseRF (exactLib K) ⟨(· * ·), (· + ·)⟩ id F m p basis eqs s n = denseR F m p basis eqs s n
  | 0, n => by
    unfold denseRF denseR
    simp only [toMatrixF_exact, fillMatrixF_exact]
  | s + 1, n => by
    unfold denseRF denseR
    rw [denseRF_exact F m p basis eqs s (n + 1)]
    simp only [toMatrixF_exact, fillMatrixF_exact]
    rfl

/-- C132: with exact operations this is the solver of the other properties. -/
theorem C132_exact {R K : Type} [Field R] [LinearOrder R] [Field K] (F : Phys R K) (m : Model R) (p : Point R)
    (basis : Dict ℕ (Dict PyStr ℕ)) (eqs : Dict ℕ (List (Equation R))) :
    denseSolveF (exactLib K) ⟨(· * ·), (· + ·)⟩ id F m p basis eqs = denseSolve F m p basis eqs := by
  have h1 : toMatrixF (⟨(· * ·), (· + ·)⟩ : Fpu K) id = toMatrix := by
    funext r c ts
    exact toMatrixF_exact r c ts
  unfold denseSolveF denseSolve
  rw [h1, denseRF_exact, fillMatrixF_exact]
  rfl

/-- the coefficients on accurate machines -/
theorem coefs_linear (σ : SetOrder) (m : Model ℝ) (ae : Int) (hm : WellFormed m ae) (b : Built ℝ)
    (hb : buildSystem σ m = .ok b) (hp : Physical m) (p : Point ℝ) (heta : 0 < p.eta) :
    ∃ u0 g : ℝ, 0 < u0 ∧ 0 ≤ g ∧ ∀ u ≤ u0, ∀ fl pw cs ex, Arithmetic u u fl pw cs ex → ∀ M, FpuTo u M →
      (∀ e ∈ allEqs b.eqs, ∀ t ∈ e.terms, ∃ v v', t.coefficient realPhys m p = .ok v ∧
        t.coefficientF M (floatPhys fl pw cs ex) m p = .ok v' ∧ ‖v' - v‖ ≤ u * g) ∧
      ‖(floatPhys fl pw cs ex).G0 p.k p.w m.latticeConstant p.eta m.ham.hopping -
        realPhys.G0 p.k p.w m.latticeConstant p.eta m.ham.hopping‖ ≤ u * g := by
  obtain ⟨s, hs⟩ := exists_shift m.ham.terms
  obtain ⟨P, hP0, hP⟩ := exists_strength m m.ham.terms
  have hr := ready_of_built hm hb
  have hE := topEnergy_nonneg hm
  have hD0 : 0 < energyScale m p := by unfold energyScale; positivity
  generalize hD : energyScale m p = D at hD0
  obtain ⟨e1, he1⟩ : ∃ e1, e1 = propError (hopBound s ae) 1 1 D (2 * |m.ham.hopping|) p.eta := ⟨_, rfl⟩
  have he10 : 0 ≤ e1 := by rw [he1]; unfold propError; positivity
  obtain ⟨g1, hg1⟩ : ∃ g1, g1 = P * (1 / p.eta + 2 * e1) := ⟨_, rfl⟩
  have hg10 : 0 ≤ g1 := by rw [hg1]; positivity
  obtain ⟨g2, hg2⟩ : ∃ g2, g2 = 3 * (P / p.eta + g1) + g1 + e1 := ⟨_, rfl⟩
  have hg20 : 0 ≤ g2 := by rw [hg2]; positivity
  have hPe : 0 ≤ P / p.eta := by positivity
  obtain ⟨u0, hu0, hu8, hsm⟩ := exists_small [16 * D ^ 2 / p.eta ^ 2,
    18 * hopBound s ae * D ^ 2 / (2 * |m.ham.hopping| * p.eta), 17 / 2 * D / p.eta]
  refine ⟨u0, g2, hu0, hg20, ?_⟩
  intro u hu fl pw cs ex A M hM
  have hu1 := A.unit.1
  have hsm' : ∀ c ∈ [16 * D ^ 2 / p.eta ^ 2, 18 * hopBound s ae * D ^ 2 / (2 * |m.ham.hopping| * p.eta),
      17 / 2 * D / p.eta], 0 ≤ c → c * u ≤ 1 := fun c hc h0 =>
    (mul_le_mul_of_nonneg_left hu h0).trans (hsm c hc)
  simp only [List.forall_mem_cons] at hsm'
  obtain ⟨q1, q2, q3, -⟩ := hsm'
  have q1 := q1 (by positivity)
  have q2 := q2 (by positivity)
  have q3 := q3 (by positivity)
  have hu1' : u ≤ 1 := by linarith
  obtain ⟨err, herr⟩ : ∃ err, err = propError (hopBound s ae) u u D (2 * |m.ham.hopping|) p.eta := ⟨_, rfl⟩
  have herru : err = u * e1 := by rw [herr, he1]; unfold propError; ring
  obtain ⟨t1, t2⟩ := C128_terms σ m ae hm b hb hp p heta A s hs P hP
    (by
      rw [hD]
      rw [div_mul_eq_mul_div, div_le_one (by positivity)] at q1
      linarith)
    (by
      intro ht
      have : 0 < |m.ham.hopping| := abs_pos.2 ht
      rw [hD]
      rw [div_mul_eq_mul_div, div_le_one (by positivity)] at q2
      linarith)
    (by
      rw [hD]
      rw [div_mul_eq_mul_div, div_le_one heta] at q3
      linarith) err (by rw [hD]; exact herr)
  have hγ : P * (u / p.eta + (1 + u) * err) ≤ u * g1 := by
    rw [hg1, herru]
    have : (1 + u) * (u * e1) ≤ 2 * (u * e1) := mul_le_mul_of_nonneg_right (by linarith) (by positivity)
    have := mul_le_mul_of_nonneg_left (add_le_add (le_refl (u / p.eta)) this) hP0
    refine this.trans (le_of_eq ?_)
    ring
  refine ⟨?_, ?_⟩
  · intro e he t ht
    have k1 := coefficient_ok (F := realPhys) (m := m) (p := p) (hr.coef e he t ht)
    have k2 := coefficient_ok (F := floatPhys fl pw cs ex) (m := m) (p := p) (hr.coef e he t ht)
    generalize coefV realPhys m p t = v at k1
    generalize coefV (floatPhys fl pw cs ex) m p t = w at k2
    obtain ⟨r1, r2⟩ := t1 e he t ht v w k1 k2
    have hmul : ∃ x y z, w = x * y * z ∧ t.coefficientF M (floatPhys fl pw cs ex) m p = .ok (M.mul (M.mul x y) z) := by
      unfold Term.coefficient at k2
      unfold Term.coefficientF
      cases hk : t.kind with
      | eom => rw [hk] at k2; cases k2; exact ⟨_, _, _, rfl, rfl⟩
      | ann =>
        rw [hk] at k2
        cases hg : t.gArg with
        | none => rw [hg] at k2; cases k2
        | some g => rw [hg] at k2; cases k2; exact ⟨_, _, _, rfl, rfl⟩
      | cre =>
        rw [hk] at k2
        cases hg : t.gArg with
        | none => rw [hg] at k2; cases k2
        | some g => rw [hg] at k2; cases k2; exact ⟨_, _, _, rfl, rfl⟩
    obtain ⟨x, y, z, rfl, hF⟩ := hmul
    refine ⟨v, _, k1, hF, ?_⟩
    have m1 := mul_close hM hu1 x y z
    have m2 := norm_add_le (M.mul (M.mul x y) z - x * y * z) (x * y * z - v)
    rw [sub_add_sub_cancel] at m2
    have m3 : ‖x * y * z‖ ≤ P / p.eta + g1 := by
      have h1 := norm_le_norm_add_norm_sub' (x * y * z) v
      have h2 : u * g1 ≤ 1 * g1 := mul_le_mul_of_nonneg_right hu1' hg10
      linarith
    have m4 : (2 * u + u ^ 2) * ‖x * y * z‖ ≤ 3 * u * (P / p.eta + g1) := by
      refine mul_le_mul ?_ m3 (norm_nonneg _) (by positivity)
      have : u ^ 2 ≤ u := by rw [sq]; exact mul_le_of_le_one_left hu1 hu1'
      linarith
    have m5 : 0 ≤ u * e1 := by positivity
    rw [hg2]
    linarith
  · refine t2.trans ?_
    rw [herru]
    refine mul_le_mul_of_nonneg_left ?_ hu1
    rw [hg2]
    linarith

/-- **C132**. All of the dense solver in floating-point arithmetic of accuracy `u` — propagators and phases, products and
sums, `complex64` blocks, products of matrices and `linalg.solve`, the final division: from some accuracy on it
answers, and its error is at most a multiple of the accuracy. -/
theorem C132_linear (σ : SetOrder) (m : Model ℝ) (ae : Int) (hm : WellFormed m ae) (b : Built ℝ)
    (hb : buildSystem σ m = .ok b) (hp : Physical m) (p : Point ℝ) (heta : 0 < p.eta) (G : ℂ) (hG : Returned m b p G) :
    ∃ u0 C : ℝ, 0 < u0 ∧ 0 ≤ C ∧ ∀ u ≤ u0, ∀ fl pw cs ex, Arithmetic u u fl pw cs ex → ∀ M, FpuTo u M →
      ∀ rnd, Rounds u u rnd → ∀ L, LibTo u L →
      ∃ G', denseSolveF L M rnd (floatPhys fl pw cs ex) m p (localBasis b.eqs) b.eqs = .ok (some G') ∧
        ‖G' - G‖ ≤ C * u := by
  have hr := ready_of_built hm hb
  have hN := total_pos m ae hm
  obtain ⟨ls, G1, k1, -, -, -, k5, k6⟩ := C22_nonsingular σ m ae hm b hb hp p heta
  have hGG : G1 = G := by
    rcases hG with ⟨sp, e1, e2⟩ | e
    · rw [k5 sp e1] at e2; cases e2; rfl
    · rw [k6] at e; cases e; rfl
  subst hGG
  obtain ⟨v0, g, hv0, hg, hcl⟩ := coefs_linear σ m ae hm b hb hp p heta
  have hco : ∀ᶠ i in fine, CoefClose m b.eqs p g i ∧
      ‖(floatPhys i.fl i.pw i.cs i.ex).G0 p.k p.w m.latticeConstant p.eta m.ham.hopping -
        realPhys.G0 p.k p.w m.latticeConstant p.eta m.ham.hopping‖ ≤ i.u * g :=
    fine_iff.2 ⟨v0, hv0, fun i hi => hcl i.u hi _ _ _ _ i.arith i.M i.hM⟩
  have hdense : denseSolve realPhys m p (localBasis b.eqs) b.eqs = .ok (some G1) := k6
  rw [hr.denseSolve_eq realPhys p hN] at hdense
  cases hR : fraction (alphaM realPhys m p b.eqs) (betaM realPhys m p b.eqs) (m.number.sum.toNat - 1) 0 with
  | error e => rw [hR] at hdense; cases hdense
  | ok R1 =>
    rw [hR] at hdense
    simp only [Bind.bind, Except.bind] at hdense
    split at hdense
    · cases hdense
    rename_i hne
    simp only [Except.ok.injEq, Option.some.injEq] at hdense
    obtain ⟨q, q1, q2⟩ := hr.computes_R hg (hco.mono (fun _ h => h.1)) _ 0 (by omega) R1 hR
    obtain ⟨f, f1, f2⟩ := hr.computes_fill hg (hco.mono (fun _ h => h.1)) (n := 0) (n' := 1) (by omega) hN
      (blockDim (localBasis b.eqs) 0) (blockDim (localBasis b.eqs) 1)
    have hD := bigO_entry (computes_matmul f2 q2) hr.i0 hr.i0
    have hS : (fun i : Device => i.L.sub 1 (i.L.matmul (f i) (q i) hr.i0 hr.i0) -
        (1 - (betaM realPhys m p b.eqs 0 * R1) hr.i0 hr.i0)) =O[fine] Device.u :=
      computes_sub (f := fun _ => (1 : ℂ)) (by simpa using isBigO_zero (E' := ℂ) Device.u fine) hD
    generalize hden : 1 - (betaM realPhys m p b.eqs 0 * R1) hr.i0 hr.i0 = d at hne hdense hS
    have hg0 : (fun i : Device => (floatPhys i.fl i.pw i.cs i.ex).G0 p.k p.w m.latticeConstant p.eta m.ham.hopping -
        realPhys.G0 p.k p.w m.latticeConstant p.eta m.ham.hopping) =O[fine] Device.u := by
      refine IsBigO.of_bound g ?_
      filter_upwards [hco] with i hi
      rw [Real.norm_of_nonneg i.arith.unit.1, mul_comm]
      exact hi.2
    obtain ⟨w, w1, w2⟩ := computes_quotient hne hS hg0
    rw [hdense] at w2
    have hev : ∀ᶠ i in fine, denseSolveF i.L i.M i.rnd (floatPhys i.fl i.pw i.cs i.ex) m p (localBasis b.eqs) b.eqs =
        .ok (some (w i)) := by
      filter_upwards [q1, f1, w1] with i kq ⟨ts, kf, kf'⟩ ⟨kw, kw'⟩
      unfold denseSolveF
      rw [if_neg (by omega), kq, kf]
      simp only [Bind.bind, Except.bind]
      rw [dif_pos hr.dim_zero]
      simp only [kf']
      have h0 : (⟨0, by rw [hr.dim_zero]; omega⟩ : Fin (blockDim (localBasis b.eqs) 0)) = hr.i0 := rfl
      rw [h0, if_neg kw, kw']
      rfl
    obtain ⟨C, hC⟩ := w2.bound
    obtain ⟨u0, hu0, hu⟩ := fine_iff.1 (hev.and hC)
    refine ⟨u0, max C 0, hu0, le_max_right _ _, ?_⟩
    intro u hu1 fl pw cs ex A M hM rnd hrnd L hL
    obtain ⟨e1, e2⟩ := hu ⟨u, fl, pw, cs, ex, A, M, hM, rnd, hrnd, L, hL⟩ hu1
    refine ⟨_, e1, e2.trans ?_⟩
    rw [Real.norm_of_nonneg A.unit.1]
    exact mul_le_mul_of_nonneg_right (le_max_left _ _) A.unit.1

/-- C132: from some accuracy on the spectral function computed by the dense solver is positive. -/
theorem C132_positive (σ : SetOrder) (m : Model ℝ) (ae : Int) (hm : WellFormed m ae) (b : Built ℝ)
    (hb : buildSystem σ m = .ok b) (hp : Physical m) (p : Point ℝ) (heta : 0 < p.eta) :
    ∃ u0 : ℝ, 0 < u0 ∧ ∀ u ≤ u0, ∀ fl pw cs ex, Arithmetic u u fl pw cs ex → ∀ M, FpuTo u M →
      ∀ rnd, Rounds u u rnd → ∀ L, LibTo u L →
      ∃ G', denseSolveF L M rnd (floatPhys fl pw cs ex) m p (localBasis b.eqs) b.eqs = .ok (some G') ∧
        0 < -G'.im / Real.pi := by
  obtain ⟨ls, G, k1, -, -, -, k5, k6⟩ := C22_nonsingular σ m ae hm b hb hp p heta
  obtain ⟨u0, C, h1, h2, h3⟩ := C132_linear σ m ae hm b hb hp p heta G (Or.inr k6)
  obtain ⟨g1, -⟩ := C23_spectral_positive σ m ae hm b hb hp p heta G (Or.inr k6)
  have hpos : 0 < -G.im := by
    have := mul_pos g1 Real.pi_pos
    rwa [div_mul_cancel₀ _ Real.pi_ne_zero] at this
  refine ⟨min u0 (-G.im / (2 * (C + 1))), lt_min h1 (by positivity), ?_⟩
  intro u hu fl pw cs ex A M hM rnd hrnd sp hsp
  obtain ⟨G', e1, e2⟩ := h3 u (hu.trans (min_le_left _ _)) fl pw cs ex A M hM rnd hrnd sp hsp
  refine ⟨G', e1, div_pos ?_ Real.pi_pos⟩
  have h4 := hu.trans (min_le_right _ _)
  rw [le_div_iff₀ (by positivity)] at h4
  have h5 := (abs_le.1 ((Complex.abs_im_le_norm (G' - G)).trans e2)).2
  rw [Complex.sub_im] at h5
  have := A.unit.1
  nlinarith

/-- C132, from the user's side; the computed results of the two solvers agree up to a multiple of the accuracy. -/
theorem C132_assembled (σ : SetOrder) (hopping lattice T : ℝ)
    (hl : hopping = 0 ∨ (0 < hopping ∧ lattice = 1)) (cap : Option Int) (hcap : ∀ c, cap = some c → 1 ≤ c)
    (as : List (AddArgs ℝ)) (hne : as ≠ []) (hc : Clean realPrims hopping T as)
    (hf : ((modes T as).map (·.freq)).Nodup)
    (hb : (∀ a ∈ as, a.ctype = "BondPeierls") ∨ (∀ a ∈ as, a.ctype ≠ "BondPeierls")) :
    ∃ m b, (Model.fromParameters hopping lattice T cap 1).adds realPrims as = .ok m ∧ buildSystem σ m = .ok b ∧
      ∀ k w eta : ℝ, 0 < eta → ∃ G, Gives m b ⟨k, w, eta⟩ G ∧ ∃ u0 C : ℝ, 0 < u0 ∧
        ∀ u ≤ u0, ∀ fl pw cs ex, Arithmetic u u fl pw cs ex → ∀ M, FpuTo u M → ∀ rnd, Rounds u u rnd →
          ∀ L, LibTo u L → ∀ spsolve, BackwardStable u spsolve →
          ∃ G' G'', denseSolveF L M rnd (floatPhys fl pw cs ex) m ⟨k, w, eta⟩ (localBasis b.eqs) b.eqs = .ok (some G') ∧
            sparseSolveF M rnd (floatPhys fl pw cs ex) m ⟨k, w, eta⟩ (fullBasis b.eqs) b.eqs spsolve = .ok G'' ∧
            ‖G' - G‖ ≤ C * u ∧ ‖G' - G''‖ ≤ C * u := by
  obtain ⟨m, b, h1, ⟨ae, h2⟩, h3⟩ := C16_assembled σ realPrims C42_names hopping lattice T cap hcap as hne hc hf hb
  refine ⟨m, b, h1, h3, ?_⟩
  intro k w eta heta
  have hp := physical_assembled h1 hb hl
  obtain ⟨ls, G, k1, -, -, -, k5, k6⟩ := C22_nonsingular σ m ae h2 b h3 hp ⟨k, w, eta⟩ heta
  obtain ⟨u0, C, c1, c2, c3⟩ := C129_linear σ m ae h2 b h3 hp ⟨k, w, eta⟩ heta G (Or.inr k6)
  obtain ⟨v0, D, d1, d2, d3⟩ := C132_linear σ m ae h2 b h3 hp ⟨k, w, eta⟩ heta G (Or.inr k6)
  refine ⟨G, ⟨k5, k6⟩, min u0 v0, C + D, lt_min c1 d1, ?_⟩
  intro u hu fl pw cs ex A M hM rnd hrnd L hL sp hsp
  obtain ⟨x, x1, x2⟩ := c3 u (hu.trans (min_le_left _ _)) fl pw cs ex A M hM rnd hrnd sp hsp
  obtain ⟨y, y1, y2⟩ := d3 u (hu.trans (min_le_right _ _)) fl pw cs ex A M hM rnd hrnd L hL
  have hu0 := A.unit.1
  refine ⟨y, x, y1, x1, ?_, ?_⟩
  · have := mul_nonneg c2 hu0
    linarith
  · have := norm_sub_le (y - G) (x - G)
    rw [sub_sub_sub_cancel_right] at this
    linarith

/-! ### the hypotheses hold -/

open scoped Matrix.Norms.Frobenius in
/-- operations whose results are all too large by a factor `1 + u` -/
theorem inflate_lib {u : ℝ} (h0 : 0 ≤ u) : LibTo u
    ⟨fun A B => ((1 + u : ℝ) : ℂ) • (A * B), fun X A => ((((1 + u : ℝ) : ℂ) • ·) <$> (exactLib ℂ).solve X A),
      fun a b => (1 + u : ℝ) * (a - b), fun a b => (1 + u : ℝ) * (a / b)⟩ := by
  have key : ∀ z : ℂ, ‖(1 + u : ℝ) * z - z‖ = u * ‖z‖ := by
    intro z
    rw [show ((1 + u : ℝ) : ℂ) * z - z = (u : ℂ) * z by push_cast; ring, norm_mul, Complex.norm_real, Real.norm_eq_abs,
      abs_of_nonneg h0]
  refine ⟨fun A B i j => ?_, fun X A h1 _ => ⟨((1 + u : ℝ) : ℂ) • (X⁻¹ * A), ?_, ?_⟩, fun a b => (key _).le,
    fun a b _ => (key _).le⟩
  · show ‖(((1 + u : ℝ) : ℂ) • (A * B)) i j - (A * B) i j‖ ≤ _
    rw [Matrix.smul_apply, smul_eq_mul, key, Matrix.mul_apply]
    have : ‖∑ k, A i k * B k j‖ ≤ ∑ k, ‖A i k‖ * ‖B k j‖ :=
      (norm_sum_le _ _).trans (le_of_eq (Finset.sum_congr rfl (fun _ _ => norm_mul _ _)))
    have := mul_le_mul_of_nonneg_left this h0
    linarith
  · show (_ <$> (if X.det = 0 then _ else _)) = _
    rw [if_neg h1]
    rfl
  · have e : X * (((1 + u : ℝ) : ℂ) • (X⁻¹ * A)) - A = (u : ℂ) • A := by
      rw [Matrix.mul_smul, ← Matrix.mul_assoc, Matrix.mul_nonsing_inv _ (isUnit_iff_ne_zero.2 h1), Matrix.one_mul]
      push_cast
      rw [add_smul, one_smul]
      abel
    rw [e, frob_eq, norm_smul, Complex.norm_real, Real.norm_eq_abs, abs_of_nonneg h0, ← frob_eq]
    have := mul_nonneg (frob_nonneg X) (frob_nonneg (((1 + u : ℝ) : ℂ) • (X⁻¹ * A)))
    exact mul_le_mul_of_nonneg_left (by linarith) h0

/-- a Holstein–Peierls model with everything too large by a factor `1 + u` -/
example (σ : SetOrder) (sp : LinSys ℂ → Py (ℕ → ℂ)) (hsp : Exact sp) :
    ∃ m b, (Model.fromParameters (1 : ℝ) 1 0 none 1).adds realPrims exCalls = .ok m ∧
      buildSystem σ m = .ok b ∧ ∃ G C u0, 0 < u0 ∧ Gives m b ⟨1 / 2, -2, 1 / 10⟩ G ∧ ∀ u : ℝ, 0 ≤ u → u ≤ u0 → u ≤ 1 / 8 →
        ∃ G', denseSolveF ⟨fun A B => ((1 + u : ℝ) : ℂ) • (A * B),
            fun X A => ((((1 + u : ℝ) : ℂ) • ·) <$> (exactLib ℂ).solve X A),
            fun a b => (1 + u : ℝ) * (a - b), fun a b => (1 + u : ℝ) * (a / b)⟩
          ⟨fun a b : ℂ => (1 + u : ℝ) * (a * b), fun a b => (1 + u : ℝ) * (a + b)⟩
          (fun z => (1 + u : ℝ) * z) (floatPhys (fun _ z => (1 + u : ℝ) * z) (fun b x => (1 + u : ℝ) * b ^ (x : ℂ))
            (fun x => Real.cos x + u) (fun x => (1 + u : ℝ) * Complex.exp (I * x))) m ⟨1 / 2, -2, 1 / 10⟩
          (localBasis b.eqs) b.eqs = .ok (some G') ∧ ‖G' - G‖ ≤ C * u := by
  obtain ⟨h1, h2, h3⟩ := exCalls_clean
  obtain ⟨m, b, k1, k2, k3⟩ := C132_assembled σ 1 1 0 (Or.inr ⟨one_pos, rfl⟩) none (by simp) exCalls (by simp [exCalls])
    h1 h2 (Or.inr h3)
  obtain ⟨G, hG, u0, C, q1, q2⟩ := k3 (1 / 2) (-2) (1 / 10) (by norm_num)
  refine ⟨m, b, k1, k2, G, C, u0, q1, hG, fun u hu hu0 hu8 => ?_⟩
  obtain ⟨x, y, x1, -, x2, -⟩ := q2 u hu0 _ _ _ _ (inflate_arithmetic hu hu8) _ (inflate_fpu hu) _ (inflate_rounds hu) _
    (inflate_lib hu) _ (inflate_stable hsp hu)
  exact ⟨x, x1, x2⟩

end GGCE.Props
