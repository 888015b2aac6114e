import Verif.Props.Rounding
import Verif.Proofs.Fpu
import Verif.Spec.Fpu

/-!
Property C129: the sparse solver in floating-point arithmetic from beginning to end. Propagators and phases, the
products in the coefficients, the sums in the matrix, the storage and the linear solver are all inexact; the number
returned differs from the Green's function by a bounded multiple of the unit roundoff.
-/

set_option linter.unusedSectionVars false

namespace GGCE.Props
open Spec Complex

/-- A system with entries close to those of another one, after storage. -/
theorem near_system {ls ls1 : LinSys ℂ} {n : ℕ} (hnd : (ls1.triples.map (fun q => (q.1, q.2.1))).Nodup)
    {E γ0 B u τ : ℝ} (hE : 0 ≤ E) (hent : ∀ i j, ‖cooEntry ls1.triples i j - cooEntry ls.triples i j‖ ≤ E)
    (h0 : ‖ls1.rhsVal - ls.rhsVal‖ ≤ γ0) (hB : ‖ls.rhsVal‖ ≤ B) {rnd : ℂ → ℂ} (hrnd : Rounds u τ rnd) :
    (∀ x, vecNorm n (fun i => applied (ls1.store rnd) n x i - applied ls n x i) ≤
      (n * E + (u * (matNorm ls n + n * E) + n * τ)) * vecNorm n x) ∧
    matNorm (ls1.store rnd) n ≤ matNorm ls n + (n * E + (u * (matNorm ls n + n * E) + n * τ)) ∧
    ‖(ls1.store rnd).rhsVal - ls.rhsVal‖ ≤ γ0 + (u * (B + γ0) + τ) := by
  obtain ⟨hu, hτ, hr⟩ := hrnd
  have hf1 : √(∑ i ∈ Finset.range n, ∑ j ∈ Finset.range n,
      ‖cooEntry ls1.triples i j - cooEntry ls.triples i j‖ ^ 2) ≤ n * E :=
    frob_const n _ hE (fun _ _ => norm_nonneg _) hent
  have hm1 : matNorm ls1 n ≤ matNorm ls n + n * E :=
    (frob_triangle n (fun i j => ‖cooEntry ls1.triples i j‖) (fun i j => ‖cooEntry ls.triples i j‖)
      (fun i j => ‖cooEntry ls1.triples i j - cooEntry ls.triples i j‖) (fun _ _ => norm_nonneg _) (fun i _ j _ =>
        norm_le_norm_add_norm_sub' _ _)).trans (by unfold matNorm; linarith)
  have hf2 : √(∑ i ∈ Finset.range n, ∑ j ∈ Finset.range n,
      ‖cooEntry (ls1.store rnd).triples i j - cooEntry ls1.triples i j‖ ^ 2) ≤ u * (matNorm ls n + n * E) + n * τ := by
    refine le_trans (Real.sqrt_le_sqrt (Finset.sum_le_sum (fun i _ => Finset.sum_le_sum (fun j _ =>
      pow_le_pow_left₀ (norm_nonneg _) (store_entry hnd ⟨hu, hτ, hr⟩ i j) 2)))) ?_
    refine (frob_add n _ u τ hu hτ).trans ?_
    have := mul_le_mul_of_nonneg_left hm1 hu
    unfold matNorm at *
    linarith
  have hf : √(∑ i ∈ Finset.range n, ∑ j ∈ Finset.range n,
      ‖cooEntry (ls1.store rnd).triples i j - cooEntry ls.triples i j‖ ^ 2) ≤
      n * E + (u * (matNorm ls n + n * E) + n * τ) := by
    have := frob_triangle n (fun i j => ‖cooEntry (ls1.store rnd).triples i j - cooEntry ls.triples i j‖)
      (fun i j => ‖cooEntry ls1.triples i j - cooEntry ls.triples i j‖)
      (fun i j => ‖cooEntry (ls1.store rnd).triples i j - cooEntry ls1.triples i j‖) (fun _ _ => norm_nonneg _)
      (fun i _ j _ => by
        have := norm_add_le (cooEntry ls1.triples i j - cooEntry ls.triples i j)
          (cooEntry (ls1.store rnd).triples i j - cooEntry ls1.triples i j)
        rw [add_comm (_ - _ : ℂ), sub_add_sub_cancel] at this
        exact this)
    linarith
  refine ⟨?_, ?_, ?_⟩
  · intro x
    have : (fun i => applied (ls1.store rnd) n x i - applied ls n x i) =
        fun i => ∑ j ∈ Finset.range n, (cooEntry (ls1.store rnd).triples i j - cooEntry ls.triples i j) * x j := by
      funext i
      unfold applied
      rw [← Finset.sum_sub_distrib]
      exact Finset.sum_congr rfl (fun j _ => by ring)
    rw [this]
    exact (vecNorm_apply _ _ x).trans (mul_le_mul_of_nonneg_right hf (vecNorm_nonneg _ x))
  · exact (frob_triangle n (fun i j => ‖cooEntry (ls1.store rnd).triples i j‖) (fun i j => ‖cooEntry ls.triples i j‖)
      (fun i j => ‖cooEntry (ls1.store rnd).triples i j - cooEntry ls.triples i j‖) (fun _ _ => norm_nonneg _)
      (fun i _ j _ => norm_le_norm_add_norm_sub' _ _)).trans (by unfold matNorm at *; linarith)
  · show ‖rnd ls1.rhsVal - ls.rhsVal‖ ≤ _
    have b1 := hr ls1.rhsVal
    have b2 := norm_le_norm_add_norm_sub' ls1.rhsVal ls.rhsVal
    have b3 := mul_le_mul_of_nonneg_left (b2.trans (add_le_add hB h0)) hu
    have b4 := norm_add_le (rnd ls1.rhsVal - ls1.rhsVal) (ls1.rhsVal - ls.rhsVal)
    rw [sub_add_sub_cancel] at b4
    linarith

/-- Numbers with a small residual in a system close to the assembled one. -/
theorem nearly_solved (σ : SetOrder) (m : Model ℝ) (ae : Int) (hm : WellFormed m ae) (b : Built ℝ)
    (hb : buildSystem σ m = .ok b) (hp : Physical m) (p : Point ℝ) (heta : 0 < p.eta) (ls : LinSys ℂ)
    (hls : scaffold realPhys m p (fullBasis b.eqs) b.eqs = .ok ls) (G : ℂ) (hG : Returned m b p G)
    (ls' : LinSys ℂ) (hrow : ls'.rhsRow = ls.rhsRow) (κ ε ε0 δ : ℝ) (hκ : κ = √(factorials m) * sensitivity m p.eta)
    (hε0 : 0 ≤ ε) (hδ : 0 ≤ δ)
    (hA : ∀ x, vecNorm (allEqs b.eqs).length (fun i => applied ls' (allEqs b.eqs).length x i -
      applied ls (allEqs b.eqs).length x i) ≤ ε * vecNorm (allEqs b.eqs).length x)
    (hM : matNorm ls' (allEqs b.eqs).length ≤ matNorm ls (allEqs b.eqs).length + ε)
    (hr : ‖ls'.rhsVal - ls.rhsVal‖ ≤ ε0) (ε' ε0' : ℝ)
    (hε' : ε' = ε + δ * (matNorm ls (allEqs b.eqs).length + ε)) (hε0' : ε0' = ε0 + δ * (1 / p.eta + ε0))
    (hsmall : κ * ε' < 1) (x : ℕ → ℂ) (hx : residualNorm ls' (allEqs b.eqs).length x ≤
      δ * (matNorm ls' (allEqs b.eqs).length * vecNorm (allEqs b.eqs).length x + ‖ls'.rhsVal‖)) :
    ‖x ls.rhsRow - G‖ ≤ sensitivity m p.eta * (ε' * (κ * (1 / p.eta + ε0') / (1 - κ * ε')) + ε0') := by
  obtain ⟨-, ls'', -, k1, -, -, -, -, hrow', hval, -⟩ := C19_sparse_matrix σ m ae hm b hb realPhys p
  rw [hls] at k1; cases k1
  have hlt : ls.rhsRow < (allEqs b.eqs).length := by omega
  have h0 : ‖ls.rhsVal‖ ≤ 1 / p.eta := by rw [hval]; exact G0_norm_le _ _ _ _ _ heta
  have hs0 := sensitivity_nonneg m heta
  have hκ0 : 0 ≤ κ := by rw [hκ]; positivity
  have hinv : vecNorm (allEqs b.eqs).length x ≤
      κ * vecNorm (allEqs b.eqs).length (applied ls (allEqs b.eqs).length x) := by
    rw [hκ, mul_assoc]
    exact (C83_inverse σ m ae hm b hb hp p heta ls hls x).2
  have hres := C83_residual σ m ae hm b hb hp p heta ls hls G hG x
  have hM0 : 0 ≤ matNorm ls (allEqs b.eqs).length := Real.sqrt_nonneg _
  generalize (allEqs b.eqs).length = n at *
  generalize matNorm ls n = N at *
  have hx0 := vecNorm_nonneg n x
  have hAx := hA x
  have hb' : ‖ls'.rhsVal‖ ≤ 1 / p.eta + ε0 := by
    have := norm_le_norm_add_norm_sub' ls'.rhsVal ls.rhsVal
    linarith
  have hε'0 : 0 ≤ ε' := by rw [hε']; positivity
  -- the residual in the given system
  have hx' : residualNorm ls' n x ≤ δ * ((N + ε) * vecNorm n x + (1 / p.eta + ε0)) :=
    hx.trans (mul_le_mul_of_nonneg_left (add_le_add (mul_le_mul_of_nonneg_right hM hx0) hb') hδ)
  have ht : vecNorm n (fun i => target ls' i - target ls i) ≤ ε0 := by
    have : vecNorm n (fun i => target ls' i - target ls i) = vecNorm n (target ⟨[], ls.rhsRow, ls'.rhsVal - ls.rhsVal⟩) := by
      refine vecNorm_congr (fun i _ => ?_)
      unfold target
      rw [hrow]
      simp only
      split <;> simp
    rw [this, vecNorm_target (by exact hlt)]
    exact hr
  have e1 : residualNorm ls n x ≤ ε' * vecNorm n x + ε0' := by
    have a1 : residualNorm ls n x = vecNorm n (fun i => ((applied ls' n x i - target ls' i) + (target ls' i - target ls i)) -
        (applied ls' n x i - applied ls n x i)) := vecNorm_congr (fun i _ => by ring)
    have a2 := vecNorm_sub n (fun i => (applied ls' n x i - target ls' i) + (target ls' i - target ls i))
      (fun i => applied ls' n x i - applied ls n x i)
    have a3 := vecNorm_add n (fun i => applied ls' n x i - target ls' i) (fun i => target ls' i - target ls i)
    have a4 : vecNorm n (fun i => applied ls' n x i - target ls' i) = residualNorm ls' n x := rfl
    rw [a1, hε', hε0']
    rw [a4] at a3
    linarith
  have e2 : vecNorm n (applied ls n x) ≤ ε' * vecNorm n x + (1 / p.eta + ε0') := by
    have a1 : vecNorm n (applied ls n x) = vecNorm n (fun i => (applied ls n x i - target ls i) + target ls i) :=
      vecNorm_congr (fun i _ => by ring)
    have a2 := vecNorm_add n (fun i => applied ls n x i - target ls i) (target ls)
    have a3 : vecNorm n (fun i => applied ls n x i - target ls i) = residualNorm ls n x := rfl
    rw [vecNorm_target hlt, a3] at a2
    rw [a1]
    linarith
  have hxn : vecNorm n x ≤ κ * (1 / p.eta + ε0') / (1 - κ * ε') := by
    rw [le_div_iff₀ (by linarith)]
    have := hinv.trans (mul_le_mul_of_nonneg_left e2 hκ0)
    linarith
  refine hres.trans (mul_le_mul_of_nonneg_left (e1.trans ?_) hs0)
  have := mul_le_mul_of_nonneg_left hxn hε'0
  linarith

/-- C129: with exact operations this is the solver of the other properties. -/
theorem C129_exact {R K : Type} [Field R] [LinearOrder R] [Field K] (rnd : K → K) (F : Phys R K) (m : Model R) (p : Point R)
    (basis : Dict PyStr ℕ) (eqs : Dict ℕ (List (Equation R))) (spsolve : LinSys K → Py (ℕ → K)) :
    sparseSolveF ⟨(· * ·), (· + ·)⟩ rnd F m p basis eqs spsolve = sparseSolveStored rnd F m p basis eqs spsolve := by
  unfold sparseSolveF sparseSolveStored sparseSolve scaffoldF scaffold
  rw [sparseTriplesF_exact]
  rfl

/-- **C129**. Coefficients that are off by at most `γ` (and at most `c` in size), added up with relative errors `u`, stored
with relative error `u'` or absolute error `τ`, and a linear solver with backward error `δ`: if all that is small
enough the sparse solver answers, and its answer is close to the result in exact arithmetic. -/
theorem C129_bound (σ : SetOrder) (m : Model ℝ) (ae : Int) (hm : WellFormed m ae) (b : Built ℝ)
    (hb : buildSystem σ m = .ok b) (hp : Physical m) (p : Point ℝ) (heta : 0 < p.eta) (ls : LinSys ℂ)
    (hls : scaffold realPhys m p (fullBasis b.eqs) b.eqs = .ok ls) (G : ℂ) (hG : Returned m b p G)
    (u : ℝ) (hu : 0 ≤ u) (M : Fpu ℂ) (hM : FpuTo u M) (F : Phys ℝ ℂ) (c γ γ0 : ℝ) (hc : 1 ≤ c) (hγ0 : 0 ≤ γ)
    (hγ : ∀ e ∈ allEqs b.eqs, ∀ t ∈ e.terms, ∃ v v', t.coefficient realPhys m p = .ok v ∧
      t.coefficientF M F m p = .ok v' ∧ ‖v‖ ≤ c ∧ ‖v' - v‖ ≤ γ)
    (hF : ‖F.G0 p.k p.w m.latticeConstant p.eta m.ham.hopping -
      realPhys.G0 p.k p.w m.latticeConstant p.eta m.ham.hopping‖ ≤ γ0)
    (u' τ : ℝ) (rnd : ℂ → ℂ) (hrnd : Rounds u' τ rnd) (δ : ℝ) (hδ : 0 ≤ δ) (κ E ε ε0 ε' ε0' : ℝ)
    (hκ : κ = √(factorials m) * sensitivity m p.eta) (hE : E = (allEqs b.eqs).length * sumError u c γ (rowBound m ae))
    (hε : ε = E + (u' * (matNorm ls (allEqs b.eqs).length + E) + (allEqs b.eqs).length * τ))
    (hε0 : ε0 = γ0 + (u' * (1 / p.eta + γ0) + τ))
    (hε' : ε' = ε + δ * (matNorm ls (allEqs b.eqs).length + ε)) (hε0' : ε0' = ε0 + δ * (1 / p.eta + ε0))
    (hsmall : κ * ε' < 1) (spsolve : LinSys ℂ → Py (ℕ → ℂ)) (hsp : BackwardStable δ spsolve) :
    ∃ G', sparseSolveF M rnd F m p (fullBasis b.eqs) b.eqs spsolve = .ok G' ∧
      ‖G' - G‖ ≤ sensitivity m p.eta * (ε' * (κ * (1 / p.eta + ε0') / (1 - κ * ε')) + ε0') := by
  have hr := ready_of_built hm hb
  have hpos := hr.length_pos
  obtain ⟨T, e1, hnd, -⟩ := hr.sparse realPhys p
  have hls1 := hr.scaffold realPhys p e1
  rw [hls] at hls1
  have hlsT : ls = ⟨T, (allEqs b.eqs).length - 1, realPhys.G0 p.k p.w m.latticeConstant p.eta m.ham.hopping⟩ :=
    Except.ok.inj hls1
  obtain ⟨-, ls0, -, k1, -, hrows, hcols, -, hrow, hval, -⟩ := C19_sparse_matrix σ m ae hm b hb realPhys p
  rw [hls] at k1; cases k1
  have hE0 := sumError_nonneg hu (by linarith : (0 : ℝ) ≤ c) hγ0 (rowBound m ae)
  obtain ⟨T', f1, f2⟩ := sparseTriples_close hM hu hc hγ0 (rowBound m ae) (F' := F) (by
    intro n es hes e he
    have hmem : e ∈ allEqs b.eqs := List.mem_flatMap.2 ⟨(n, es), Dict.mem_of_get? hes, he⟩
    refine ⟨?_, hγ e hmem⟩
    obtain ⟨b', L, h1', hL, hd⟩ := buildSystem_ok σ hm
    rw [hb] at h1'; cases h1'
    obtain ⟨a, ha, δ, -, rfl⟩ := (hL.mem_allEqs hm.toListsOk hd e).1 hmem
    have := hL.terms_le hm.toShaped ha
    simp only [full, List.length_map]
    omega) e1
  have hsc : scaffoldF M F m p (fullBasis b.eqs) b.eqs = .ok ⟨T', (allEqs b.eqs).length - 1,
      F.G0 p.k p.w m.latticeConstant p.eta m.ham.hopping⟩ := by
    obtain ⟨e, h1, h2, h3⟩ := hr.green
    unfold scaffoldF
    rw [f1, hr.green_ix, h1]
    simp [bind, Except.bind, pure, Except.pure, Equation.bias, h2]
  obtain ⟨hA, hMat, hrhs⟩ := near_system (ls := ls) (ls1 := ⟨T', (allEqs b.eqs).length - 1,
    F.G0 p.k p.w m.latticeConstant p.eta m.ham.hopping⟩) (n := (allEqs b.eqs).length) (γ0 := γ0) (B := 1 / p.eta)
    (by rw [← mate_positions f2]; exact hnd) hE0
    (fun i j => by rw [hlsT]; exact mate_entry hE0 f2 hnd i j) (by rw [hlsT]; exact hF)
    (by rw [hval]; exact G0_norm_le _ _ _ _ _ heta) hrnd
  rw [← hE, ← hε] at hA hMat
  rw [← hε0] at hrhs
  have hs0 := sensitivity_nonneg m heta
  have hκ0 : 0 ≤ κ := by rw [hκ]; positivity
  have hMn : 0 ≤ matNorm ls (allEqs b.eqs).length := Real.sqrt_nonneg _
  have hεn : 0 ≤ ε := by
    have := hrnd.1
    have := hrnd.2.1
    rw [hε, hE]
    positivity
  have hεε : ε ≤ ε' := by rw [hε']; have : 0 ≤ δ * (matNorm ls (allEqs b.eqs).length + ε) := by positivity
                          linarith
  have hlr : ls.rhsRow = (allEqs b.eqs).length - 1 := by rw [hlsT]
  generalize hls' : LinSys.store rnd ⟨T', (allEqs b.eqs).length - 1,
    F.G0 p.k p.w m.latticeConstant p.eta m.ham.hopping⟩ = ls' at *
  have hrr : ls'.rhsRow = ls.rhsRow := by rw [← hls', hlr]; rfl
  obtain ⟨y, hy, hun, -⟩ := perturbed σ m ae hm b hb hp p heta ls hls G hG ls' hrr κ ε ε0 hκ hεn hA hrhs
    (lt_of_le_of_lt (mul_le_mul_of_nonneg_left hεε hκ0) hsmall)
  have hrc := mate_rows f2
  have hT : ls.triples = T := by rw [hlsT]
  rw [hT] at hrows hcols
  have hst := store_rows rnd (⟨T', (allEqs b.eqs).length - 1,
    F.G0 p.k p.w m.latticeConstant p.eta m.ham.hopping⟩ : LinSys ℂ)
  rw [hls'] at hst
  obtain ⟨x, hx1, hx2⟩ := hsp ls' (allEqs b.eqs).length (hst.1.trans (hrc.1.symm.trans hrows))
    (hst.2.trans (hrc.2.symm.trans hcols)) (by rw [hrr]; exact hrow) ⟨y, hy⟩ hun
  refine ⟨x ls.rhsRow, ?_, nearly_solved σ m ae hm b hb hp p heta ls hls G hG ls' hrr κ ε ε0 δ hκ hεn hδ hA hMat hrhs
    ε' ε0' hε' hε0' hsmall x hx2⟩
  unfold sparseSolveF
  rw [hsc, hr.green_ix]
  simp only [bind, Except.bind, pure, Except.pure, hls', hx1]
  rw [hlr]

/-- an equation has fewer terms than `rowBound` -/
theorem terms_lt_rowBound (σ : SetOrder) {m : Model ℝ} {ae : Int} (hm : WellFormed m ae) {b : Built ℝ}
    (hb : buildSystem σ m = .ok b) (e : Equation ℝ) (he : e ∈ allEqs b.eqs) : e.terms.length + 1 ≤ rowBound m ae := by
  obtain ⟨b', L, h1', hL, hd⟩ := buildSystem_ok σ hm
  rw [hb] at h1'; cases h1'
  obtain ⟨a, ha, δ, -, rfl⟩ := (hL.mem_allEqs hm.toListsOk hd e).1 he
  have := hL.terms_le hm.toShaped ha
  simp only [full, List.length_map]
  omega

/-- the size of the matrix, from the size of the coefficients -/
theorem matNorm_le (σ : SetOrder) {m : Model ℝ} {ae : Int} (hm : WellFormed m ae) {b : Built ℝ}
    (hb : buildSystem σ m = .ok b) (p : Point ℝ) {ls : LinSys ℂ}
    (hls : scaffold realPhys m p (fullBasis b.eqs) b.eqs = .ok ls) {c : ℝ} (hc : 1 ≤ c) {q : ℕ}
    (hq : ∀ e ∈ allEqs b.eqs, e.terms.length + 1 ≤ q)
    (hv : ∀ e ∈ allEqs b.eqs, ∀ t ∈ e.terms, ∀ v, t.coefficient realPhys m p = .ok v → ‖v‖ ≤ c) :
    matNorm ls (allEqs b.eqs).length ≤ (allEqs b.eqs).length * (q * c) := by
  obtain ⟨cf, ls0, h1, k1, -, -, -, hent, -⟩ := C19_sparse_matrix σ m ae hm b hb realPhys p
  rw [hls] at k1; cases k1
  have hc0 : 0 ≤ c := by linarith
  generalize hn : (allEqs b.eqs).length = n at *
  have hij : ∀ i < n, ∀ j < n, ‖cooEntry ls.triples i j‖ ≤ q * c := by
    intro i hi j hj
    have hi' : i < (allEqs b.eqs).length := by omega
    have hj' : j < (allEqs b.eqs).length := by omega
    rw [hent i j _ _ (List.getElem?_eq_getElem hi') (List.getElem?_eq_getElem hj')]
    generalize hei : (allEqs b.eqs)[i] = ei
    have he : ei ∈ allEqs b.eqs := hei ▸ List.getElem_mem hi'
    have a1 : ‖coefOf cf ei (allEqs b.eqs)[j].id‖ ≤ ei.terms.length * c := by
      unfold coefOf
      have : ∀ l : List (Term ℝ), (∀ t ∈ l, ‖cf t‖ ≤ c) → ∀ id : PyStr,
          ‖(l.map (fun t => if t.id = id then cf t else 0)).sum‖ ≤ l.length * c := by
        intro l hl id
        induction l with
        | nil => simp
        | cons t l ih =>
          have i1 := ih (fun t ht => hl t (List.mem_cons_of_mem _ ht))
          have i2 := hl t List.mem_cons_self
          rw [List.map_cons, List.sum_cons, List.length_cons]
          refine (norm_add_le _ _).trans ?_
          have i3 : ‖if t.id = id then cf t else 0‖ ≤ c := by
            split
            · exact i2
            · simpa using hc0
          push_cast
          linarith
      exact this _ (fun t ht => hv ei he t ht _ (h1 ei he t ht)) _
    have a2 : ‖(if i = j then (1 : ℂ) else 0)‖ ≤ c := by
      split
      · simpa using hc
      · simpa using hc0
    have a3 : ((ei.terms.length + 1 : ℕ) : ℝ) ≤ q := by exact_mod_cast hq ei he
    have a4 := mul_le_mul_of_nonneg_right a3 hc0
    push_cast at a4
    refine (norm_add_le _ _).trans ?_
    linarith
  unfold matNorm
  rw [← Real.sqrt_sq (show (0 : ℝ) ≤ n * (q * c) by positivity)]
  refine Real.sqrt_le_sqrt ?_
  have : ∑ i ∈ Finset.range n, ∑ j ∈ Finset.range n, ‖cooEntry ls.triples i j‖ ^ 2 ≤
      ∑ i ∈ Finset.range n, ∑ j ∈ Finset.range n, (q * c) ^ 2 :=
    Finset.sum_le_sum (fun i hi => Finset.sum_le_sum (fun j hj =>
      pow_le_pow_left₀ (norm_nonneg _) (hij i (Finset.mem_range.1 hi) j (Finset.mem_range.1 hj)) 2))
  refine this.trans (le_of_eq ?_)
  simp only [Finset.sum_const, Finset.card_range, nsmul_eq_mul]
  ring

/-- The constants of C129: they depend on the point and on bounds for the model, on nothing else. -/
theorem linear_uniform (p : Point ℝ) (heta : 0 < p.eta) (ae : Int) (s : ℕ) (P D t S : ℝ) (n q f : ℕ) (hP0 : 0 ≤ P)
    (hD0 : 0 < D) (hS : 0 ≤ S) :
    ∃ u0 C : ℝ, 0 < u0 ∧ 0 ≤ C ∧ ∀ (σ : SetOrder) (m : Model ℝ), WellFormed m ae → ∀ b : Built ℝ,
      buildSystem σ m = .ok b → Physical m → ∀ G : ℂ, Returned m b p G →
      (∀ h ∈ m.ham.terms, |h.phi.tw| ≤ s ∧ |h.psi.tw| ≤ s) →
      (∀ h ∈ m.ham.terms, |h.coupling| * maxNumber m h.phononIndex ≤ P) → energyScale m p = D → m.ham.hopping = t →
      sensitivity m p.eta ≤ S → (allEqs b.eqs).length ≤ n → rowBound m ae = q → factorials m = f →
      ∀ u ≤ u0, ∀ fl pw cs ex, Arithmetic u u fl pw cs ex → ∀ M, FpuTo u M →
      ∀ rnd, Rounds u u rnd → ∀ spsolve, BackwardStable u spsolve →
      ∃ G', sparseSolveF M rnd (floatPhys fl pw cs ex) m p (fullBasis b.eqs) b.eqs spsolve = .ok G' ∧
        ‖G' - G‖ ≤ C * u := by
  -- constants
  obtain ⟨e1, he1⟩ : ∃ e1, e1 = propError (hopBound s ae) 1 1 D (2 * |t|) p.eta := ⟨_, rfl⟩
  have he10 : 0 ≤ e1 := by rw [he1]; unfold propError; positivity
  obtain ⟨g1, hg1⟩ : ∃ g1, g1 = P * (1 / p.eta + 2 * e1) := ⟨_, rfl⟩
  have hg10 : 0 ≤ g1 := by rw [hg1]; positivity
  obtain ⟨g2, hg2⟩ : ∃ g2, g2 = 3 * (P / p.eta + g1) + g1 := ⟨_, rfl⟩
  have hg20 : 0 ≤ g2 := by rw [hg2]; positivity
  obtain ⟨c, hc⟩ : ∃ c, c = 1 + P / p.eta := ⟨_, rfl⟩
  have hPe : 0 ≤ P / p.eta := by positivity
  have hc1 : 1 ≤ c := by rw [hc]; linarith
  obtain ⟨N, hN'⟩ : ∃ N : ℝ, N = n * (q * c) := ⟨_, rfl⟩
  have hN : 0 ≤ N := by rw [hN']; positivity
  obtain ⟨b1, hb1⟩ : ∃ b1 : ℝ, b1 = n * (q * (g2 + q * c) * 2 ^ q) := ⟨_, rfl⟩
  have hb10 : 0 ≤ b1 := by rw [hb1]; positivity
  obtain ⟨c1, hc1'⟩ : ∃ c1 : ℝ, c1 = b1 + (N + b1 + n) := ⟨_, rfl⟩
  have hc10 : 0 ≤ c1 := by rw [hc1']; positivity
  obtain ⟨a1, ha1⟩ : ∃ a1 : ℝ, a1 = e1 + (1 / p.eta + e1 + 1) := ⟨_, rfl⟩
  have ha10 : 0 ≤ a1 := by rw [ha1]; positivity
  obtain ⟨c2, hc2⟩ : ∃ c2 : ℝ, c2 = c1 + (N + c1) := ⟨_, rfl⟩
  have hc20 : 0 ≤ c2 := by rw [hc2]; positivity
  obtain ⟨a2, ha2⟩ : ∃ a2 : ℝ, a2 = a1 + (1 / p.eta + a1) := ⟨_, rfl⟩
  have ha20 : 0 ≤ a2 := by rw [ha2]; positivity
  obtain ⟨κ, hκ⟩ : ∃ κ, κ = √(f : ℝ) * S := ⟨_, rfl⟩
  have hκ0 : 0 ≤ κ := by rw [hκ]; positivity
  obtain ⟨u0, hu0, hu8, hsm⟩ := exists_small [16 * D ^ 2 / p.eta ^ 2,
    18 * hopBound s ae * D ^ 2 / (2 * |t| * p.eta), 17 / 2 * D / p.eta, 2 * κ * c2]
  refine ⟨u0, S * (c2 * (κ * (1 / p.eta + a2) * 2) + a2), hu0, by positivity, ?_⟩
  intro σ m hm b hb hp G hG hs hP hD ht hsens hlen hq hf u hu fl pw cs ex A M hM rnd hrnd sp hsp
  subst ht
  obtain ⟨ls, -, hls, -⟩ := C22_nonsingular σ m ae hm b hb hp p heta
  have hr := ready_of_built hm hb
  have hsens0 := sensitivity_nonneg m heta
  have hlen' : ((allEqs b.eqs).length : ℝ) ≤ n := by exact_mod_cast hlen
  have hl0 : (0 : ℝ) ≤ (allEqs b.eqs).length := Nat.cast_nonneg _
  have hu1 := A.unit.1
  have hsm' : ∀ c ∈ [16 * D ^ 2 / p.eta ^ 2, 18 * hopBound s ae * D ^ 2 / (2 * |m.ham.hopping| * p.eta),
      17 / 2 * D / p.eta, 2 * κ * c2], 0 ≤ c → c * u ≤ 1 := fun c hc h0 =>
    (mul_le_mul_of_nonneg_left hu h0).trans (hsm c hc)
  simp only [List.forall_mem_cons] at hsm'
  obtain ⟨q1, q2, q3, q4, -⟩ := hsm'
  have q1 := q1 (by positivity)
  have q2 := q2 (by positivity)
  have q3 := q3 (by positivity)
  have q4 := q4 (by positivity)
  have hu1' : u ≤ 1 := by linarith
  obtain ⟨err, herr⟩ : ∃ err, err = propError (hopBound s ae) u u D (2 * |m.ham.hopping|) p.eta := ⟨_, rfl⟩
  have herru : err = u * e1 := by rw [herr, he1]; unfold propError; ring
  obtain ⟨t1, t2⟩ := C128_terms σ m ae hm b hb hp p heta A s hs P hP
    (by
      rw [hD]
      rw [div_mul_eq_mul_div, div_le_one (by positivity)] at q1
      linarith)
    (by
      intro ht
      have : 0 < |m.ham.hopping| := abs_pos.2 ht
      rw [hD]
      rw [div_mul_eq_mul_div, div_le_one (by positivity)] at q2
      linarith)
    (by
      rw [hD]
      rw [div_mul_eq_mul_div, div_le_one heta] at q3
      linarith) err (by rw [hD]; exact herr)
  have hγ : P * (u / p.eta + (1 + u) * err) ≤ u * g1 := by
    rw [hg1, herru]
    have : (1 + u) * (u * e1) ≤ 2 * (u * e1) := mul_le_mul_of_nonneg_right (by linarith) (by positivity)
    have := mul_le_mul_of_nonneg_left (add_le_add (le_refl (u / p.eta)) this) hP0
    refine this.trans (le_of_eq ?_)
    ring
  -- coefficients
  have hcoef : ∀ e ∈ allEqs b.eqs, ∀ t ∈ e.terms, ∃ v v', t.coefficient realPhys m p = .ok v ∧
      t.coefficientF M (floatPhys fl pw cs ex) m p = .ok v' ∧ ‖v‖ ≤ c ∧ ‖v' - v‖ ≤ u * g2 := by
    intro e he t ht
    have k1 := coefficient_ok (F := realPhys) (m := m) (p := p) (hr.coef e he t ht)
    have k2 := coefficient_ok (F := floatPhys fl pw cs ex) (m := m) (p := p) (hr.coef e he t ht)
    generalize coefV realPhys m p t = v at k1
    generalize coefV (floatPhys fl pw cs ex) m p t = w at k2
    obtain ⟨r1, r2⟩ := t1 e he t ht v w k1 k2
    have hmul : ∃ x y z, w = x * y * z ∧ t.coefficientF M (floatPhys fl pw cs ex) m p = .ok (M.mul (M.mul x y) z) := by
      unfold Term.coefficient at k2
      unfold Term.coefficientF
      cases hk : t.kind with
      | eom => rw [hk] at k2; cases k2; exact ⟨_, _, _, rfl, rfl⟩
      | ann =>
        rw [hk] at k2
        cases hg : t.gArg with
        | none => rw [hg] at k2; cases k2
        | some g => rw [hg] at k2; cases k2; exact ⟨_, _, _, rfl, rfl⟩
      | cre =>
        rw [hk] at k2
        cases hg : t.gArg with
        | none => rw [hg] at k2; cases k2
        | some g => rw [hg] at k2; cases k2; exact ⟨_, _, _, rfl, rfl⟩
    obtain ⟨x, y, z, rfl, hF⟩ := hmul
    refine ⟨v, _, k1, hF, by rw [hc]; linarith, ?_⟩
    have m1 := mul_close hM hu1 x y z
    have m2 := norm_add_le (M.mul (M.mul x y) z - x * y * z) (x * y * z - v)
    rw [sub_add_sub_cancel] at m2
    have m3 : ‖x * y * z‖ ≤ P / p.eta + g1 := by
      have h1 := norm_le_norm_add_norm_sub' (x * y * z) v
      have h2 : u * g1 ≤ 1 * g1 := mul_le_mul_of_nonneg_right hu1' hg10
      linarith
    have m4 : (2 * u + u ^ 2) * ‖x * y * z‖ ≤ 3 * u * (P / p.eta + g1) := by
      refine mul_le_mul ?_ m3 (norm_nonneg _) (by positivity)
      have : u ^ 2 ≤ u := by rw [sq]; exact mul_le_of_le_one_left hu1 hu1'
      linarith
    rw [hg2]
    linarith
  -- the size of the matrix
  have hNm : matNorm ls (allEqs b.eqs).length ≤ N := by
    rw [hN']
    have hq' : ∀ e ∈ allEqs b.eqs, e.terms.length + 1 ≤ q := by
      intro e he
      rw [← hq]
      exact terms_lt_rowBound σ hm hb e he
    exact (matNorm_le σ hm hb p hls hc1 hq' (fun e he t ht v hv => by
      obtain ⟨v1, -, i1, -, i2, -⟩ := hcoef e he t ht
      rw [hv] at i1; cases i1; exact i2)).trans (mul_le_mul_of_nonneg_right hlen' (by positivity))
  have hN0 : 0 ≤ matNorm ls (allEqs b.eqs).length := Real.sqrt_nonneg _
  generalize hNe : matNorm ls (allEqs b.eqs).length = N0 at hNm hN0
  obtain ⟨κ', hκ'⟩ : ∃ κ', κ' = √(factorials m : ℝ) * sensitivity m p.eta := ⟨_, rfl⟩
  have hκκ : κ' ≤ κ := by
    rw [hκ', hκ, hf]
    exact mul_le_mul_of_nonneg_left hsens (Real.sqrt_nonneg _)
  have hκ'0 : 0 ≤ κ' := by rw [hκ']; positivity
  -- the bounds
  have hsum : (allEqs b.eqs).length * sumError u c (u * g2) q ≤ u * b1 := by
    have h1 : (1 + u) ^ q ≤ 2 ^ q := pow_le_pow_left₀ (by linarith) (by linarith) q
    have h2 : sumError u c (u * g2) q = u * (q * (g2 + q * c)) * (1 + u) ^ q := by unfold sumError; ring
    have h3 : u * (q * (g2 + q * c)) * (1 + u) ^ q ≤ u * (q * (g2 + q * c)) * 2 ^ q :=
      mul_le_mul_of_nonneg_left h1 (by positivity)
    have h4 := mul_le_mul hlen' h3 (by positivity) (Nat.cast_nonneg n)
    rw [h2, hb1]
    linarith
  obtain ⟨E, hEe⟩ : ∃ E : ℝ, E = (allEqs b.eqs).length * sumError u c (u * g2) q := ⟨_, rfl⟩
  have hE0 : 0 ≤ E := by
    rw [hEe]
    exact mul_nonneg (Nat.cast_nonneg _) (sumError_nonneg hu1 (by linarith) (by positivity) _)
  rw [← hEe] at hsum
  obtain ⟨ε, hε⟩ : ∃ ε : ℝ, ε = E + (u * (N0 + E) + (allEqs b.eqs).length * u) := ⟨_, rfl⟩
  have hε1 : ε ≤ u * c1 := by
    have h1 : u * E ≤ 1 * (u * b1) := mul_le_mul hu1' hsum hE0 zero_le_one
    have h2 := mul_le_mul_of_nonneg_left hNm hu1
    have h3 := mul_le_mul_of_nonneg_right hlen' hu1
    rw [hc1', hε]
    linarith
  have hεn : 0 ≤ ε := by rw [hε]; positivity
  obtain ⟨ε0, hε0⟩ : ∃ ε0 : ℝ, ε0 = u * e1 + (u * (1 / p.eta + u * e1) + u) := ⟨_, rfl⟩
  have hε01 : ε0 ≤ u * a1 := by
    have : u * (u * e1) ≤ 1 * (u * e1) := mul_le_mul_of_nonneg_right hu1' (by positivity)
    rw [ha1, hε0]
    linarith
  have hε0n : 0 ≤ ε0 := by rw [hε0]; positivity
  obtain ⟨ε', hε'⟩ : ∃ ε' : ℝ, ε' = ε + u * (N0 + ε) := ⟨_, rfl⟩
  have hε'1 : ε' ≤ u * c2 := by
    have h1 : u * ε ≤ 1 * (u * c1) := mul_le_mul hu1' hε1 hεn zero_le_one
    have h2 := mul_le_mul_of_nonneg_left hNm hu1
    rw [hc2, hε']
    linarith
  have hε'n : 0 ≤ ε' := by rw [hε']; positivity
  obtain ⟨ε0', hε0'⟩ : ∃ ε0' : ℝ, ε0' = ε0 + u * (1 / p.eta + ε0) := ⟨_, rfl⟩
  have hε0'1 : ε0' ≤ u * a2 := by
    have h1 : u * ε0 ≤ 1 * (u * a1) := mul_le_mul hu1' hε01 hε0n zero_le_one
    rw [ha2, hε0']
    linarith
  have hε0'n : 0 ≤ ε0' := by rw [hε0']; positivity
  have hκε : κ * ε' ≤ 1 / 2 := by
    have := mul_le_mul_of_nonneg_left hε'1 hκ0
    linarith
  have hκ'ε : κ' * ε' ≤ 1 / 2 := (mul_le_mul_of_nonneg_right hκκ hε'n).trans hκε
  obtain ⟨G', k1, k2⟩ := C129_bound σ m ae hm b hb hp p heta ls hls G hG u hu1 M hM (floatPhys fl pw cs ex) c (u * g2)
    (u * e1) hc1 (by positivity) hcoef (by rw [← herru]; exact t2) u u rnd hrnd u hu1 κ' E ε ε0 ε' ε0' hκ'
    (by rw [hEe, hq]) (by rw [hNe, hε]) hε0 (by rw [hNe, hε']) hε0' (by linarith) sp hsp
  refine ⟨G', k1, k2.trans ?_⟩
  rw [mul_assoc]
  have hden : 0 ≤ κ' * (1 / p.eta + ε0') / (1 - κ' * ε') := div_nonneg (by positivity) (by linarith)
  have hnn : 0 ≤ ε' * (κ' * (1 / p.eta + ε0') / (1 - κ' * ε')) + ε0' := by positivity
  refine mul_le_mul hsens ?_ hnn hS
  have hfrac : κ' * (1 / p.eta + ε0') / (1 - κ' * ε') ≤ κ * (1 / p.eta + a2) * 2 := by
    rw [div_le_iff₀ (by linarith)]
    have h1 : ε0' ≤ a2 := hε0'1.trans (mul_le_of_le_one_left ha20 hu1')
    have h2 : κ' * (1 / p.eta + ε0') ≤ κ * (1 / p.eta + a2) := mul_le_mul hκκ (by linarith) (by positivity) hκ0
    have h3 : 0 ≤ κ * (1 / p.eta + a2) * 2 := by positivity
    have h4 := mul_le_mul_of_nonneg_left (show (1 / 2 : ℝ) ≤ 1 - κ' * ε' by linarith) h3
    linarith
  have hprod := mul_le_mul hε'1 hfrac (by
    apply div_nonneg
    · positivity
    · linarith) (by positivity)
  linarith

/-- **C129** (the result). At every point with positive broadening there is a precision `u0` from which on the
computation succeeds and the error of the Green's function is at most a constant times the precision, with every
operation inexact. `u0` and `C` depend on the model and the point only. -/
theorem C129_linear (σ : SetOrder) (m : Model ℝ) (ae : Int) (hm : WellFormed m ae) (b : Built ℝ)
    (hb : buildSystem σ m = .ok b) (hp : Physical m) (p : Point ℝ) (heta : 0 < p.eta) (G : ℂ) (hG : Returned m b p G) :
    ∃ u0 C : ℝ, 0 < u0 ∧ 0 ≤ C ∧ ∀ u ≤ u0, ∀ fl pw cs ex, Arithmetic u u fl pw cs ex → ∀ M, FpuTo u M →
      ∀ rnd, Rounds u u rnd → ∀ spsolve, BackwardStable u spsolve →
      ∃ G', sparseSolveF M rnd (floatPhys fl pw cs ex) m p (fullBasis b.eqs) b.eqs spsolve = .ok G' ∧
        ‖G' - G‖ ≤ C * u := by
  obtain ⟨s, hs⟩ := exists_shift m.ham.terms
  obtain ⟨P, hP0, hP⟩ := exists_strength m m.ham.terms
  have hE := topEnergy_nonneg hm
  obtain ⟨u0, C, h1, h2, h3⟩ := linear_uniform p heta ae s P (energyScale m p) m.ham.hopping (sensitivity m p.eta)
    (allEqs b.eqs).length (rowBound m ae) (factorials m) hP0 (by unfold energyScale; positivity) (sensitivity_nonneg m heta)
  exact ⟨u0, C, h1, h2, h3 σ m hm b hb hp G hG hs hP rfl rfl le_rfl le_rfl rfl rfl⟩

/-- C129: from some precision on the computed spectral function is positive (so the result is checkpointed). -/
theorem C129_positive (σ : SetOrder) (m : Model ℝ) (ae : Int) (hm : WellFormed m ae) (b : Built ℝ)
    (hb : buildSystem σ m = .ok b) (hp : Physical m) (p : Point ℝ) (heta : 0 < p.eta) :
    ∃ u0 : ℝ, 0 < u0 ∧ ∀ u ≤ u0, ∀ fl pw cs ex, Arithmetic u u fl pw cs ex → ∀ M, FpuTo u M →
      ∀ rnd, Rounds u u rnd → ∀ spsolve, BackwardStable u spsolve →
      ∃ G', sparseSolveF M rnd (floatPhys fl pw cs ex) m p (fullBasis b.eqs) b.eqs spsolve = .ok G' ∧
        0 < -G'.im / Real.pi := by
  obtain ⟨ls, G, k1, -, -, -, k5, k6⟩ := C22_nonsingular σ m ae hm b hb hp p heta
  obtain ⟨u0, C, h1, h2, h3⟩ := C129_linear σ m ae hm b hb hp p heta G (Or.inr k6)
  obtain ⟨g1, -⟩ := C23_spectral_positive σ m ae hm b hb hp p heta G (Or.inr k6)
  have hpos : 0 < -G.im := by
    have := mul_pos g1 Real.pi_pos
    rwa [div_mul_cancel₀ _ Real.pi_ne_zero] at this
  refine ⟨min u0 (-G.im / (2 * (C + 1))), lt_min h1 (by positivity), ?_⟩
  intro u hu fl pw cs ex A M hM rnd hrnd sp hsp
  obtain ⟨G', e1, e2⟩ := h3 u (hu.trans (min_le_left _ _)) fl pw cs ex A M hM rnd hrnd sp hsp
  refine ⟨G', e1, div_pos ?_ Real.pi_pos⟩
  have h4 := hu.trans (min_le_right _ _)
  rw [le_div_iff₀ (by positivity)] at h4
  have h5 := (abs_le.1 ((Complex.abs_im_le_norm (G' - G)).trans e2)).2
  rw [Complex.sub_im] at h5
  have := A.unit.1
  nlinarith

/-- C129, from the user's side -/
theorem C129_assembled (σ : SetOrder) (hopping lattice T : ℝ)
    (hl : hopping = 0 ∨ (0 < hopping ∧ lattice = 1)) (cap : Option Int) (hcap : ∀ c, cap = some c → 1 ≤ c)
    (as : List (AddArgs ℝ)) (hne : as ≠ []) (hc : Clean realPrims hopping T as)
    (hf : ((modes T as).map (·.freq)).Nodup)
    (hb : (∀ a ∈ as, a.ctype = "BondPeierls") ∨ (∀ a ∈ as, a.ctype ≠ "BondPeierls")) :
    ∃ m b, (Model.fromParameters hopping lattice T cap 1).adds realPrims as = .ok m ∧ buildSystem σ m = .ok b ∧
      ∀ k w eta : ℝ, 0 < eta → ∃ G, Gives m b ⟨k, w, eta⟩ G ∧ ∃ u0 C : ℝ, 0 < u0 ∧
        ∀ u ≤ u0, ∀ fl pw cs ex, Arithmetic u u fl pw cs ex → ∀ M, FpuTo u M → ∀ rnd, Rounds u u rnd →
          ∀ spsolve, BackwardStable u spsolve →
          ∃ G', sparseSolveF M rnd (floatPhys fl pw cs ex) m ⟨k, w, eta⟩ (fullBasis b.eqs) b.eqs spsolve = .ok G' ∧
            ‖G' - G‖ ≤ C * u := by
  obtain ⟨m, b, h1, ⟨ae, h2⟩, h3⟩ := C16_assembled σ realPrims C42_names hopping lattice T cap hcap as hne hc hf hb
  refine ⟨m, b, h1, h3, ?_⟩
  intro k w eta heta
  have hp := physical_assembled h1 hb hl
  obtain ⟨ls, G, k1, -, -, -, k5, k6⟩ := C22_nonsingular σ m ae h2 b h3 hp ⟨k, w, eta⟩ heta
  obtain ⟨u0, C, c1, -, c3⟩ := C129_linear σ m ae h2 b h3 hp ⟨k, w, eta⟩ heta G (Or.inr k6)
  exact ⟨G, ⟨k5, k6⟩, u0, C, c1, c3⟩

/-! ### the hypotheses hold -/

/-- an exact linear solver is backward stable -/
theorem Exact.stable {sp : LinSys ℂ → Py (ℕ → ℂ)} (h : Exact sp) {δ : ℝ} (hδ : 0 ≤ δ) : BackwardStable δ sp := by
  intro ls n h1 h2 h3 h4 h5
  obtain ⟨x, e1, e2⟩ := h ls n h1 h2 h3 h4 h5
  refine ⟨x, e1, ?_⟩
  have : residualNorm ls n x = 0 := by
    have : residualNorm ls n x = vecNorm n (fun _ => 0) := vecNorm_congr (fun i hi => by
      have : applied ls n x i = target ls i := e2 i hi
      rw [this, sub_self])
    rw [this]
    simp [vecNorm]
  rw [this]
  have := vecNorm_nonneg n x
  have : 0 ≤ matNorm ls n := Real.sqrt_nonneg _
  positivity

/-- one that is not: all answers too large by a factor `1 + δ` -/
theorem inflate_stable {sp : LinSys ℂ → Py (ℕ → ℂ)} (h : Exact sp) {δ : ℝ} (hδ : 0 ≤ δ) :
    BackwardStable δ (fun ls => (fun x i => (1 + δ : ℝ) * x i) <$> sp ls) := by
  intro ls n h1 h2 h3 h4 h5
  obtain ⟨x, e1, e2⟩ := h ls n h1 h2 h3 h4 h5
  refine ⟨fun i => (1 + δ : ℝ) * x i, by show (_ <$> sp ls) = _; rw [e1]; rfl, ?_⟩
  have : residualNorm ls n (fun i => (1 + δ : ℝ) * x i) = δ * ‖ls.rhsVal‖ := by
    have h6 : residualNorm ls n (fun i => (1 + δ : ℝ) * x i) = vecNorm n (target ⟨[], ls.rhsRow, (δ : ℂ) * ls.rhsVal⟩) := by
      refine vecNorm_congr (fun i hi => ?_)
      have h7 : applied ls n x i = target ls i := e2 i hi
      have h8 : applied ls n (fun i => (1 + δ : ℝ) * x i) i = (1 + δ : ℝ) * applied ls n x i := by
        unfold applied
        rw [Finset.mul_sum]
        exact Finset.sum_congr rfl (fun j _ => by ring)
      rw [h8, h7]
      unfold target
      simp only
      split
      · push_cast; ring
      · simp
    rw [h6, vecNorm_target (by show ls.rhsRow < n; omega), norm_mul, Complex.norm_real, Real.norm_eq_abs, abs_of_nonneg hδ]
  rw [this]
  have := vecNorm_nonneg n (fun i => (1 + δ : ℝ) * x i)
  have : 0 ≤ matNorm ls n := Real.sqrt_nonneg _
  refine mul_le_mul_of_nonneg_left ?_ hδ
  have : 0 ≤ matNorm ls n * vecNorm n (fun i => (1 + δ : ℝ) * x i) := by positivity
  linarith

theorem inflate_fpu {u : ℝ} (h0 : 0 ≤ u) : FpuTo u ⟨fun a b => (1 + u : ℝ) * (a * b), fun a b => (1 + u : ℝ) * (a + b)⟩ := by
  have key : ∀ z : ℂ, ‖(1 + u : ℝ) * z - z‖ ≤ u * ‖z‖ := by
    intro z
    rw [show ((1 + u : ℝ) : ℂ) * z - z = (u : ℂ) * z by push_cast; ring, norm_mul, Complex.norm_real, Real.norm_eq_abs,
      abs_of_nonneg h0]
  exact ⟨fun a b => key _, fun a b => key _⟩

/-- a Holstein–Peierls model with everything too large by a factor `1 + u` -/
example (σ : SetOrder) (sp : LinSys ℂ → Py (ℕ → ℂ)) (hsp : Exact sp) :
    ∃ m b, (Model.fromParameters (1 : ℝ) 1 0 none 1).adds realPrims exCalls = .ok m ∧
      buildSystem σ m = .ok b ∧ ∃ G C u0, 0 < u0 ∧ Gives m b ⟨1 / 2, -2, 1 / 10⟩ G ∧ ∀ u : ℝ, 0 ≤ u → u ≤ u0 → u ≤ 1 / 8 →
        ∃ G', sparseSolveF ⟨fun a b : ℂ => (1 + u : ℝ) * (a * b), fun a b => (1 + u : ℝ) * (a + b)⟩
          (fun z => (1 + u : ℝ) * z) (floatPhys (fun _ z => (1 + u : ℝ) * z) (fun b x => (1 + u : ℝ) * b ^ (x : ℂ))
            (fun x => Real.cos x + u) (fun x => (1 + u : ℝ) * Complex.exp (I * x))) m ⟨1 / 2, -2, 1 / 10⟩
          (fullBasis b.eqs) b.eqs (fun ls => (fun x i => (1 + u : ℝ) * x i) <$> sp ls) = .ok G' ∧ ‖G' - G‖ ≤ C * u := by
  obtain ⟨h1, h2, h3⟩ := exCalls_clean
  obtain ⟨m, b, k1, k2, k3⟩ := C129_assembled σ 1 1 0 (Or.inr ⟨one_pos, rfl⟩) none (by simp) exCalls (by simp [exCalls])
    h1 h2 (Or.inr h3)
  obtain ⟨G, hG, u0, C, q1, q2⟩ := k3 (1 / 2) (-2) (1 / 10) (by norm_num)
  refine ⟨m, b, k1, k2, G, C, u0, q1, hG, fun u hu hu0 hu8 => ?_⟩
  exact q2 u hu0 _ _ _ _ (inflate_arithmetic hu hu8) _ (inflate_fpu hu) _ (inflate_rounds hu) _ (inflate_stable hsp hu)

end GGCE.Props
