import Verif.Proofs.DenseResidual
import Verif.Props.Residual
import Verif.Proofs.Hopping

/-!
Property C98: the accuracy of the dense solver under inexact linear algebra. Whatever matrices its loop produces and
whatever number it returns, the distance of that number from the exact value is bounded by how far the matrices are from
satisfying the relations of the continued fraction.
-/

set_option linter.unusedSectionVars false

namespace GGCE.Props
open Spec Arr Complex

/-- an exact solution of the equations, with the returned value as the Green's function -/
theorem exact_unknowns (σ : SetOrder) (m : Model ℝ) (ae : Int) (hm : WellFormed m ae) (b : Built ℝ)
    (hb : buildSystem σ m = .ok b) (hp : Physical m) (p : Point ℝ) (heta : 0 < p.eta) (G : ℂ) (hG : Returned m b p G) :
    ∃ U : PyStr → ℂ, SolvesAll (coefV realPhys m p) (fun e => e.bias realPhys m p) (allEqs b.eqs) U ∧
      U "{G}[0.0]".toList = G := by
  obtain ⟨ls, G', k1, -, ⟨y, hy⟩, -, k5, k6⟩ := C22_nonsingular σ m ae hm b hb hp p heta
  obtain ⟨ls', q1, -, q3, -⟩ := (C21_sparse_dense_agree σ m ae hm b hb realPhys p).2 G' k6
  rw [k1] at q1; cases q1
  have hGG : G = G' := by
    rcases hG with ⟨sp, e1, e2⟩ | e
    · rw [k5 sp e1] at e2; cases e2; rfl
    · rw [k6] at e; cases e; rfl
  have hr := ready_of_built hm hb
  obtain ⟨T, e1, -, -, -, e5⟩ := hr.sparse realPhys p
  rw [hr.scaffold realPhys p e1] at k1
  cases k1
  refine ⟨fun id => y (ixOf b.eqs id), (hr.solves_iff realPhys p e5 y _ (fun _ _ => rfl)).1 hy, ?_⟩
  show y (ixOf b.eqs _) = G
  rw [hr.green_ix_eq, hGG]
  exact (q3 y hy).1

/-- **C98**. For any matrices `R̃_1, …, R̃_N` and any number `G̃`: `G̃` is off by at most `1 + Σ_h |g_h| √N_h / eta` times
the norm of the defects of the relations `(1 - β_n R̃_{n+1}) R̃_n = α_n`, `R̃_N = α_N`, `(1 - β_0 R̃_1) G̃ = G_0`, each
applied to the amplitudes `R̃_n ⋯ R̃_1 G̃`. -/
theorem C98_residual (σ : SetOrder) (m : Model ℝ) (ae : Int) (hm : WellFormed m ae) (b : Built ℝ)
    (hb : buildSystem σ m = .ok b) (hp : Physical m) (p : Point ℝ) (heta : 0 < p.eta) (G : ℂ) (hG : Returned m b p G)
    (A : ∀ n, Matrix (Fin (blockDim (localBasis b.eqs) (n + 1))) (Fin (blockDim (localBasis b.eqs) n)) ℂ)
    (B : ∀ n, Matrix (Fin (blockDim (localBasis b.eqs) n)) (Fin (blockDim (localBasis b.eqs) (n + 1))) ℂ)
    (hAB : IsBlocks realPhys m p b.eqs A B)
    (Rt : ∀ n, Matrix (Fin (blockDim (localBasis b.eqs) (n + 1))) (Fin (blockDim (localBasis b.eqs) n)) ℂ)
    (i : Fin (blockDim (localBasis b.eqs) 0)) (Gt : ℂ) :
    ‖Gt - G‖ ≤ sensitivity m p.eta *
      √(‖topDefect B Rt i (realPhys.G0 p.k p.w m.latticeConstant p.eta m.ham.hopping) Gt‖ ^ 2 +
        ∑ n ∈ Finset.range m.number.sum.toNat,
          colNorm ((levelDefect A B Rt m.number.sum.toNat n).mulVec (carried Rt Gt n)) ^ 2) := by
  obtain ⟨b', L, h1, hL, hd⟩ := buildSystem_ok σ hm
  rw [hb] at h1; cases h1
  obtain ⟨c, hs⟩ := hp.shifts
  have S : Setting m ae L c p := ⟨hm, hL, hs, hp.adj, heta, hp.lattice⟩
  have hr := ready_of_built hm hb
  have hN := total_pos m ae hm
  obtain ⟨hA, hB⟩ := hr.blocks_unique hAB
  obtain ⟨V, hV, hVG⟩ := exact_unknowns σ m ae hm b hb hp p heta G hG
  set N := m.number.sum.toNat with hNdef
  set y : PyStr → ℂ := assemble b.eqs (carried Rt Gt) with hy
  set bias : Equation ℝ → ℂ := fun e => y e.id + (e.terms.map (fun t => -coefV realPhys m p t * y t.id)).sum with hbias
  have hsol : SolvesAll (fun t => -coefV realPhys m p t) bias (allEqs b.eqs) y := fun e _ => rfl
  have hblk := (hr.blocks_iff realPhys p bias y).1 hsol
  have hun : ∀ n ≤ N, unknowns b.eqs y n = carried Rt Gt n := fun n hn => hr.unknowns_assemble _ hn
  have hfl := hr.flip_defect y hsol
  have key := (S.residual (U := fun id => flip b.eqs y id - V id) hd
    (fun e => (-1) ^ e.config.total.toNat * bias e - e.bias realPhys m p) (by
      intro e he
      have e1 := hfl e he
      have e2 := hV e he
      simp only at e1 e2 ⊢
      rw [← e1, ← e2]
      have e3 : (e.terms.map (fun t => coefV realPhys m p t * (flip b.eqs y t.id - V t.id))).sum =
          (e.terms.map (fun t => coefV realPhys m p t * flip b.eqs y t.id)).sum -
            (e.terms.map (fun t => coefV realPhys m p t * V t.id)).sum := by
        induction e.terms with
        | nil => simp
        | cons t ts ih => simp only [List.map_cons, List.sum_cons, ih]; ring
      rw [e3]; ring)).1
  obtain ⟨g, hv0, hg, hgr, hgid, hg0⟩ := hr.vals_zero
  have hflG : flip b.eqs y "{G}[0.0]".toList = Gt := by
    have e1 := congrFun (hun 0 (Nat.zero_le _)) hr.i0
    unfold unknowns at e1
    rw [hv0] at e1
    have e2 : y g.id = Gt := e1
    have e3 : levelOf b.eqs g.id = 0 := by rw [hr.level hg, hg0]; rfl
    rw [← hgid]
    unfold flip
    rw [e3, e2, pow_zero, one_mul]
  rw [hflG, hVG] at key
  refine key.trans (mul_le_mul_of_nonneg_left (Real.sqrt_le_sqrt (le_of_eq ?_)) (sensitivity_nonneg m heta))
  let D : ∀ n, Fin (blockDim (localBasis b.eqs) n) → ℂ := fun n => match n with
    | 0 => fun _ => topDefect B Rt i (realPhys.G0 p.k p.w m.latticeConstant p.eta m.ham.hopping) Gt
    | n + 1 => (levelDefect A B Rt N n).mulVec (carried Rt Gt n)
  rw [hr.sum_levels (fun e => ‖(-1) ^ e.config.total.toNat * bias e - e.bias realPhys m p‖ ^ 2)
    (fun n i => ‖D n i‖ ^ 2) ?_, Finset.sum_range_succ']
  · rw [add_comm]
    congr 1
    · rw [Finset.sum_eq_single hr.i0 (fun j _ hj => absurd (hr.eq_i0 j) hj) (fun h => absurd (Finset.mem_univ _) h)]
    · refine Finset.sum_congr rfl (fun n _ => ?_)
      unfold colNorm
      rw [Real.sq_sqrt (Finset.sum_nonneg (fun _ _ => by positivity))]
  intro n hn j e he
  have hmem := (hr.mem_vals hn).1 (List.mem_of_getElem? he)
  have hb1 := hblk n hn j e he
  rw [hun n hn] at hb1
  show ‖_‖ ^ 2 = ‖_‖ ^ 2
  match n, j, hn, he, hmem, hb1 with
  | 0, j, hn, he, hmem, hb1 =>
    have hej : e = g := by
      have hj := hr.eq_i0 j
      subst hj
      rw [hv0] at he
      exact (Option.some.inj he).symm
    have hbg : e.bias realPhys m p = realPhys.G0 p.k p.w m.latticeConstant p.eta m.ham.hopping := by
      rw [hej]; simp [Equation.bias, hgr]
    rw [if_pos (by omega), hun 1 (by omega)] at hb1
    congr 2
    rw [hmem.2, hbg]
    show (-1) ^ 0 * bias e - _ = (1 - (B 0 * Rt 0) i i) * Gt - _
    have e1 : (betaM realPhys m p b.eqs 0).mulVec (carried Rt Gt 1) j = (B 0 * Rt 0) i i * Gt := by
      rw [← hB 0 (by omega)]
      show (B 0).mulVec ((Rt 0).mulVec (fun _ => Gt)) j = _
      rw [Matrix.mulVec_mulVec, hr.eq_i0 i, hr.eq_i0 j]
      show (∑ k, (B 0 * Rt 0) hr.i0 k * Gt) = _
      rw [Finset.sum_eq_single hr.i0 (fun j _ hj => absurd (hr.eq_i0 j) hj) (fun h => absurd (Finset.mem_univ _) h)]
    rw [e1] at hb1
    have e2 : Gt = bias e + 0 + (B 0 * Rt 0) i i * Gt := hb1
    linear_combination -e2
  | n + 1, j, hn, he, hmem, hb1 =>
    have hb0 : e.bias realPhys m p = 0 := hr.bias_zero realPhys p e hmem.1 (by rw [hmem.2]; push_cast; omega)
    rw [hb0, sub_zero, norm_mul, norm_pow, norm_neg, norm_one, one_pow, one_mul]
    congr 2
    show bias e = (levelDefect A B Rt N n).mulVec (carried Rt Gt n) j
    have e0 : below (alphaM realPhys m p b.eqs) (unknowns b.eqs y) (n + 1) j = (A n).mulVec (carried Rt Gt n) j := by
      show (alphaM realPhys m p b.eqs n).mulVec (unknowns b.eqs y n) j = _
      rw [hun n (by omega), hA n (by omega)]
    rw [e0] at hb1
    have e1 : bias e = carried Rt Gt (n + 1) j - (A n).mulVec (carried Rt Gt n) j -
      (if n + 1 < N then (betaM realPhys m p b.eqs (n + 1)).mulVec (unknowns b.eqs y (n + 1 + 1)) j else 0) := by
      rw [hb1]; ring
    rw [e1]
    unfold levelDefect
    split
    · rename_i hlt
      rw [hun (n + 2) (by omega), ← hB (n + 1) hlt, Matrix.sub_mulVec, Matrix.sub_mul, Matrix.one_mul,
        Matrix.sub_mulVec]
      show (Rt n).mulVec _ j - _ - (B (n + 1)).mulVec ((Rt (n + 1)).mulVec ((Rt n).mulVec _)) j = _ - _ - _
      rw [Matrix.mulVec_mulVec, Matrix.mulVec_mulVec]
      ring
    · rw [Matrix.sub_mulVec, sub_zero]
      rfl

/-- the amplitudes are not larger than the product of the norms of the matrices -/
theorem carried_le {d : ℕ → ℕ} (h0 : d 0 = 1) (Rt : ∀ n, Matrix (Fin (d (n + 1))) (Fin (d n)) ℂ) (G : ℂ) (n : ℕ) :
    colNorm (carried Rt G n) ≤ (∏ j ∈ Finset.range n, frob (Rt j)) * ‖G‖ := by
  induction n with
  | zero =>
    simp only [colNorm, carried, Finset.sum_const, Finset.card_univ, Fintype.card_fin, h0, one_smul,
      Finset.range_zero, Finset.prod_empty, one_mul]
    rw [Real.sqrt_sq (norm_nonneg _)]
  | succ n ih =>
    refine (colNorm_mulVec _ _).trans ?_
    rw [Finset.prod_range_succ, mul_comm (∏ j ∈ Finset.range n, _), mul_assoc]
    exact mul_le_mul_of_nonneg_left ih (frob_nonneg _)

theorem sqrt_sum_le (a : ℝ) (ha : 0 ≤ a) (N : ℕ) (f : ℕ → ℝ) (hf : ∀ n, 0 ≤ f n) :
    √(a ^ 2 + ∑ n ∈ Finset.range N, f n ^ 2) ≤ a + ∑ n ∈ Finset.range N, f n := by
  have h1 : 0 ≤ ∑ n ∈ Finset.range N, f n := Finset.sum_nonneg (fun n _ => hf n)
  refine Real.sqrt_le_iff.2 ⟨by linarith, ?_⟩
  have h2 : ∑ n ∈ Finset.range N, f n ^ 2 ≤ (∑ n ∈ Finset.range N, f n) ^ 2 :=
    Finset.sum_sq_le_sq_sum_of_nonneg (fun n _ => hf n)
  nlinarith

/-- C98, in terms of norms of matrices only. -/
theorem C98_norms (σ : SetOrder) (m : Model ℝ) (ae : Int) (hm : WellFormed m ae) (b : Built ℝ)
    (hb : buildSystem σ m = .ok b) (hp : Physical m) (p : Point ℝ) (heta : 0 < p.eta) (G : ℂ) (hG : Returned m b p G)
    (A : ∀ n, Matrix (Fin (blockDim (localBasis b.eqs) (n + 1))) (Fin (blockDim (localBasis b.eqs) n)) ℂ)
    (B : ∀ n, Matrix (Fin (blockDim (localBasis b.eqs) n)) (Fin (blockDim (localBasis b.eqs) (n + 1))) ℂ)
    (hAB : IsBlocks realPhys m p b.eqs A B)
    (Rt : ∀ n, Matrix (Fin (blockDim (localBasis b.eqs) (n + 1))) (Fin (blockDim (localBasis b.eqs) n)) ℂ)
    (i : Fin (blockDim (localBasis b.eqs) 0)) (Gt : ℂ) :
    ‖Gt - G‖ ≤ sensitivity m p.eta *
      (‖topDefect B Rt i (realPhys.G0 p.k p.w m.latticeConstant p.eta m.ham.hopping) Gt‖ +
        ‖Gt‖ * ∑ n ∈ Finset.range m.number.sum.toNat, frob (levelDefect A B Rt m.number.sum.toNat n) *
          ∏ j ∈ Finset.range n, frob (Rt j)) := by
  refine (C98_residual σ m ae hm b hb hp p heta G hG A B hAB Rt i Gt).trans
    (mul_le_mul_of_nonneg_left ?_ (sensitivity_nonneg m heta))
  refine (sqrt_sum_le _ (norm_nonneg _) _ (fun n => colNorm ((levelDefect A B Rt m.number.sum.toNat n).mulVec
    (carried Rt Gt n))) (fun n => colNorm_nonneg _)).trans (add_le_add le_rfl ?_)
  rw [Finset.mul_sum]
  refine Finset.sum_le_sum (fun n _ => (colNorm_mulVec _ _).trans ?_)
  have h1 := mul_le_mul_of_nonneg_left (carried_le (ready_of_built hm hb).dim_zero Rt Gt n)
    (frob_nonneg (levelDefect A B Rt m.number.sum.toNat n))
  linarith

/-- C98 for the blocks as they are stored, in `complex64`: the defects are those the program could compute, and the
rounding of the blocks adds a multiple of `u`. -/
theorem C98_stored (σ : SetOrder) (m : Model ℝ) (ae : Int) (hm : WellFormed m ae) (b : Built ℝ)
    (hb : buildSystem σ m = .ok b) (hp : Physical m) (p : Point ℝ) (heta : 0 < p.eta) (G : ℂ) (hG : Returned m b p G)
    (A : ∀ n, Matrix (Fin (blockDim (localBasis b.eqs) (n + 1))) (Fin (blockDim (localBasis b.eqs) n)) ℂ)
    (B : ∀ n, Matrix (Fin (blockDim (localBasis b.eqs) n)) (Fin (blockDim (localBasis b.eqs) (n + 1))) ℂ)
    (hAB : IsBlocks realPhys m p b.eqs A B) (u τ : ℝ) (rnd : ℂ → ℂ) (hrnd : Rounds u τ rnd)
    (Rt : ∀ n, Matrix (Fin (blockDim (localBasis b.eqs) (n + 1))) (Fin (blockDim (localBasis b.eqs) n)) ℂ)
    (i : Fin (blockDim (localBasis b.eqs) 0)) (Gt : ℂ) (d : ℕ → ℕ) (hd : d = blockDim (localBasis b.eqs))
    (a' b' : ℕ → ℝ) (ha' : a' = fun n => u * frob (A n) + √(d (n + 1) * d n) * τ)
    (hb' : b' = fun n => u * frob (B n) + √(d n * d (n + 1)) * τ) :
    ‖Gt - G‖ ≤ sensitivity m p.eta *
      (‖topDefect (fun n => (B n).map rnd) Rt i (realPhys.G0 p.k p.w m.latticeConstant p.eta m.ham.hopping) Gt‖ +
          b' 0 * frob (Rt 0) * ‖Gt‖ +
        ‖Gt‖ * ∑ n ∈ Finset.range m.number.sum.toNat,
          (frob (levelDefect (fun n => (A n).map rnd) (fun n => (B n).map rnd) Rt m.number.sum.toNat n) + a' n +
            if n + 1 < m.number.sum.toNat then b' (n + 1) * frob (Rt (n + 1)) * frob (Rt n) else 0) *
          ∏ j ∈ Finset.range n, frob (Rt j)) := by
  subst hd
  refine (C98_norms σ m ae hm b hb hp p heta G hG A B hAB Rt i Gt).trans
    (mul_le_mul_of_nonneg_left (add_le_add ?_ (mul_le_mul_of_nonneg_left
      (Finset.sum_le_sum (fun n _ => mul_le_mul_of_nonneg_right ?_ (Finset.prod_nonneg (fun _ _ => frob_nonneg _))))
      (norm_nonneg _))) (sensitivity_nonneg m heta))
  · have e1 : topDefect B Rt i (realPhys.G0 p.k p.w m.latticeConstant p.eta m.ham.hopping) Gt =
        topDefect (fun n => (B n).map rnd) Rt i (realPhys.G0 p.k p.w m.latticeConstant p.eta m.ham.hopping) Gt +
          ((((B 0).map rnd - B 0) * Rt 0) i i) * Gt := by
      unfold topDefect
      rw [Matrix.sub_mul, Matrix.sub_apply]; ring
    rw [e1]
    refine (norm_add_le _ _).trans (add_le_add le_rfl ?_)
    rw [norm_mul]
    refine mul_le_mul_of_nonneg_right ?_ (norm_nonneg _)
    refine (entry_le_frob _ i i).trans ((frobTimes _ _).trans (mul_le_mul_of_nonneg_right ?_ (frob_nonneg _)))
    rw [hb']
    exact frob_round (B 0) hrnd
  · have e1 : frob ((A n).map rnd - A n) ≤ a' n := by rw [ha']; exact frob_round (A n) hrnd
    unfold levelDefect
    split
    · have e2 : frob ((B (n + 1)).map rnd - B (n + 1)) ≤ b' (n + 1) := by rw [hb']; exact frob_round (B (n + 1)) hrnd
      have e3 : (1 - B (n + 1) * Rt (n + 1)) * Rt n - A n =
          ((1 - (B (n + 1)).map rnd * Rt (n + 1)) * Rt n - (A n).map rnd) + ((A n).map rnd - A n) +
            ((B (n + 1)).map rnd - B (n + 1)) * Rt (n + 1) * Rt n := by
        simp only [Matrix.sub_mul, Matrix.one_mul]; abel
      rw [e3]
      refine (frobPlus _ _).trans (add_le_add ((frobPlus _ _).trans (add_le_add le_rfl e1)) ?_)
      refine (frobTimes _ _).trans (mul_le_mul_of_nonneg_right ?_ (frob_nonneg _))
      exact (frobTimes _ _).trans (mul_le_mul_of_nonneg_right e2 (frob_nonneg _))
    · have e3 : Rt n - A n = (Rt n - (A n).map rnd) + ((A n).map rnd - A n) := by abel
      rw [e3, add_zero]
      exact (frobPlus _ _).trans (add_le_add le_rfl e1)

/-- C98, the other direction: in exact arithmetic there are matrices for which no defect is left, and the number that
goes with them is the one the dense solver returns. -/
theorem C98_exact (σ : SetOrder) (m : Model ℝ) (ae : Int) (hm : WellFormed m ae) (b : Built ℝ)
    (hb : buildSystem σ m = .ok b) (p : Point ℝ) (G : ℂ)
    (hG : denseSolve realPhys m p (localBasis b.eqs) b.eqs = .ok (some G))
    (A : ∀ n, Matrix (Fin (blockDim (localBasis b.eqs) (n + 1))) (Fin (blockDim (localBasis b.eqs) n)) ℂ)
    (B : ∀ n, Matrix (Fin (blockDim (localBasis b.eqs) n)) (Fin (blockDim (localBasis b.eqs) (n + 1))) ℂ)
    (hAB : IsBlocks realPhys m p b.eqs A B) :
    ∃ Rt : ∀ n, Matrix (Fin (blockDim (localBasis b.eqs) (n + 1))) (Fin (blockDim (localBasis b.eqs) n)) ℂ,
      (∀ n < m.number.sum.toNat, levelDefect A B Rt m.number.sum.toNat n = 0) ∧
      ∀ i, topDefect B Rt i (realPhys.G0 p.k p.w m.latticeConstant p.eta m.ham.hopping) G = 0 := by
  have hr := ready_of_built hm hb
  have hN := total_pos m ae hm
  obtain ⟨hA, hB⟩ := hr.blocks_unique hAB
  rw [hr.denseSolve_eq realPhys p hN, fraction_congr (A' := A) (B' := B) _ 0
    (fun k _ hk => (hA k (by omega)).symm) (fun k _ hk => (hB k (by omega)).symm), ← hB 0 (by omega)] at hG
  cases hR : fraction A B (m.number.sum.toNat - 1) 0 with
  | error e => rw [hR] at hG; cases hG
  | ok R1 =>
    rw [hR] at hG
    simp only [bind, Except.bind] at hG
    split at hG
    · cases hG
    rename_i hne
    simp only [Except.ok.injEq, Option.some.injEq] at hG
    obtain ⟨Rt, h0, h1, h2⟩ := fraction_family hR
    refine ⟨Rt, ?_, ?_⟩
    · intro n hn
      unfold levelDefect
      split
      · rw [h1 n (Nat.zero_le _) (by omega), sub_self]
      · have : n = 0 + (m.number.sum.toNat - 1) := by omega
        rw [this, h2, sub_self]
    · intro i
      unfold topDefect
      rw [h0, hr.eq_i0 i, ← hG]
      field_simp
      ring

/-- C98, from the user's side: for the calls of a user, at every momentum, frequency and broadening, the blocks exist,
and every family of matrices and every number in place of the exact ones obeys the bound. -/
theorem C98_assembled (σ : SetOrder) (hopping lattice T : ℝ)
    (hl : hopping = 0 ∨ (0 < hopping ∧ lattice = 1)) (cap : Option Int) (hcap : ∀ c, cap = some c → 1 ≤ c)
    (as : List (AddArgs ℝ)) (hne : as ≠ []) (hc : Clean realPrims hopping T as)
    (hf : ((modes T as).map (·.freq)).Nodup)
    (hb : (∀ a ∈ as, a.ctype = "BondPeierls") ∨ (∀ a ∈ as, a.ctype ≠ "BondPeierls")) :
    ∃ m b, (Model.fromParameters hopping lattice T cap 1).adds realPrims as = .ok m ∧ buildSystem σ m = .ok b ∧
      ∀ k w eta : ℝ, 0 < eta → ∃ G A B, Gives m b ⟨k, w, eta⟩ G ∧ IsBlocks realPhys m ⟨k, w, eta⟩ b.eqs A B ∧
        ∀ Rt i Gt, ‖Gt - G‖ ≤ sensitivity m eta *
          (‖topDefect B Rt i (realPhys.G0 k w m.latticeConstant eta m.ham.hopping) Gt‖ +
            ‖Gt‖ * ∑ n ∈ Finset.range m.number.sum.toNat, frob (levelDefect A B Rt m.number.sum.toNat n) *
              ∏ j ∈ Finset.range n, frob (Rt j)) := by
  obtain ⟨m, b, h1, ⟨ae, h2⟩, h3⟩ := C16_assembled σ realPrims C42_names hopping lattice T cap hcap as hne hc hf hb
  refine ⟨m, b, h1, h3, ?_⟩
  intro k w eta heta
  have hp := physical_assembled h1 hb hl
  obtain ⟨ls, G, k1, -, -, -, k5, k6⟩ := C22_nonsingular σ m ae h2 b h3 hp ⟨k, w, eta⟩ heta
  have hbl := (ready_of_built h2 h3).isBlocks realPhys ⟨k, w, eta⟩
  exact ⟨G, _, _, ⟨k5, k6⟩, hbl, fun Rt i Gt =>
    C98_norms σ m ae h2 b h3 hp ⟨k, w, eta⟩ heta G (Or.inr k6) _ _ hbl Rt i Gt⟩

/-! ### the hypotheses are met -/

/-- A Holstein–Peierls model: the bound holds for all matrices, and is sharp for those of exact arithmetic. -/
example (σ : SetOrder) : ∃ m b, (Model.fromParameters (1 : ℝ) 1 0 none 1).adds realPrims exCalls = .ok m ∧
    buildSystem σ m = .ok b ∧ ∃ G A B Rt, Gives m b ⟨0, -2, 1 / 10⟩ G ∧
      IsBlocks realPhys m ⟨0, -2, 1 / 10⟩ b.eqs A B ∧
      (∀ n < m.number.sum.toNat, levelDefect A B Rt m.number.sum.toNat n = 0) ∧
      (∀ i, topDefect B Rt i (realPhys.G0 0 (-2) m.latticeConstant (1 / 10) m.ham.hopping) G = 0) ∧
      0 < m.number.sum.toNat := by
  obtain ⟨h1, h2, h3⟩ := exCalls_clean
  obtain ⟨m, b, k1, ⟨ae, k2⟩, k3⟩ := C16_assembled σ realPrims C42_names 1 1 0 none (by simp) exCalls
    (by simp [exCalls]) h1 h2 (Or.inr h3)
  have hp := physical_assembled k1 (Or.inr h3) (Or.inr ⟨one_pos, rfl⟩)
  obtain ⟨ls, G, q1, -, -, -, q5, q6⟩ := C22_nonsingular σ m ae k2 b k3 hp ⟨0, -2, 1 / 10⟩ (by norm_num)
  have hbl := (ready_of_built k2 k3).isBlocks realPhys ⟨0, -2, 1 / 10⟩
  obtain ⟨Rt, e1, e2⟩ := C98_exact σ m ae k2 b k3 ⟨0, -2, 1 / 10⟩ G q6 _ _ hbl
  exact ⟨m, b, k1, k3, G, _, _, Rt, ⟨q5, q6⟩, hbl, e1, e2, total_pos m ae k2⟩

end GGCE.Props
