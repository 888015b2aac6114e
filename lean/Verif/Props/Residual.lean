import Verif.Proofs.Residual
import Verif.Proofs.VecNorm
import Verif.Props.Stability

/-!
Property C83: the accuracy of the result under inexact linear algebra. A vector that nearly solves the linear
system nearly has the right Green's function, with an explicit constant; storing the system in single precision
changes the result by a bounded amount.
-/

set_option linter.unusedSectionVars false

namespace GGCE.Props
open Spec Arr Complex

theorem sensitivity_nonneg (m : Model ℝ) {eta : ℝ} (h : 0 < eta) : 0 ≤ sensitivity m eta := by
  have := interaction_nonneg m
  unfold sensitivity
  positivity

theorem list_sum_upto {α : Type} (l : List α) (f : α → ℝ) (g : ℕ → ℝ) (h : ∀ i (hi : i < l.length), f l[i] = g i) :
    (l.map f).sum = ∑ i ∈ Finset.range l.length, g i := by
  rw [Finset.sum_range, ← List.sum_ofFn]
  congr 1
  apply List.ext_getElem (by simp)
  intro i h1 h2
  simp only [List.getElem_map, List.getElem_ofFn]
  exact h i (by simpa using h1)

/-- The inverse of the matrix is bounded: the norm of a vector, and that of its Green's function component, is
controlled by the norm of matrix times vector. -/
theorem C83_inverse (σ : SetOrder) (m : Model ℝ) (ae : Int) (hm : WellFormed m ae) (b : Built ℝ)
    (hb : buildSystem σ m = .ok b) (hp : Physical m) (p : Point ℝ) (heta : 0 < p.eta) (ls : LinSys ℂ)
    (hls : scaffold realPhys m p (fullBasis b.eqs) b.eqs = .ok ls) (x : ℕ → ℂ) :
    ‖x ls.rhsRow‖ ≤ sensitivity m p.eta * vecNorm (allEqs b.eqs).length (applied ls (allEqs b.eqs).length x) ∧
    vecNorm (allEqs b.eqs).length x ≤ √(factorials m) *
      (sensitivity m p.eta * vecNorm (allEqs b.eqs).length (applied ls (allEqs b.eqs).length x)) := by
  obtain ⟨b', L, h1, hL, hd⟩ := buildSystem_ok σ hm
  rw [hb] at h1; cases h1
  obtain ⟨c, hs⟩ := hp.shifts
  have S : Setting m ae L c p := ⟨hm, hL, hs, hp.adj, heta, hp.lattice⟩
  have hr := ready_of_built hm hb
  obtain ⟨T, e1, -, -, -, e5⟩ := hr.sparse realPhys p
  rw [hr.scaffold realPhys p e1] at hls
  cases hls
  have key := S.residual (U := fun id => x (ixOf b.eqs id)) hd
    (fun e => applied ⟨T, (allEqs b.eqs).length - 1, 0⟩ (allEqs b.eqs).length x (ixOf b.eqs e.id)) (by
      intro e he
      exact (hr.row_apply (hr.get_ix he) (e5 _ _ (hr.get_ix he)) x).symm)
  have hix : ∀ i (hi : i < (allEqs b.eqs).length), ixOf b.eqs (allEqs b.eqs)[i].id = i := fun i hi =>
    hr.ix_get (List.getElem?_eq_getElem hi)
  rw [list_sum_upto _ _ (fun i => ‖applied ⟨T, (allEqs b.eqs).length - 1, 0⟩ (allEqs b.eqs).length x i‖ ^ 2)
      (fun i hi => by rw [hix i hi]),
    list_sum_upto _ _ (fun i => ‖x i‖ ^ 2) (fun i hi => by rw [hix i hi]), hr.green_ix_eq] at key
  exact key

/-- **C83**. Whatever vector the linear algebra returns: its Green's function component is off by at most
`1 + Σ_h |g_h| √N_h / eta` times the norm of its residual. -/
theorem C83_residual (σ : SetOrder) (m : Model ℝ) (ae : Int) (hm : WellFormed m ae) (b : Built ℝ)
    (hb : buildSystem σ m = .ok b) (hp : Physical m) (p : Point ℝ) (heta : 0 < p.eta) (ls : LinSys ℂ)
    (hls : scaffold realPhys m p (fullBasis b.eqs) b.eqs = .ok ls) (G : ℂ) (hG : Returned m b p G) (x : ℕ → ℂ) :
    ‖x ls.rhsRow - G‖ ≤ sensitivity m p.eta * residualNorm ls (allEqs b.eqs).length x := by
  obtain ⟨ls', G', k1, -, ⟨y, hy⟩, -, k5, k6⟩ := C22_nonsingular σ m ae hm b hb hp p heta
  rw [hls] at k1; cases k1
  obtain ⟨ls', q1, -, q3, -⟩ := (C21_sparse_dense_agree σ m ae hm b hb realPhys p).2 G' k6
  rw [hls] at q1; cases q1
  have hGG : G = G' := by
    rcases hG with ⟨sp, e1, e2⟩ | e
    · rw [k5 sp e1] at e2; cases e2; rfl
    · rw [k6] at e; cases e; rfl
  have h1 := (C83_inverse σ m ae hm b hb hp p heta ls hls (fun i => x i - y i)).1
  rw [hGG, ← (q3 y hy).1]
  refine h1.trans (le_of_eq ?_)
  congr 1
  refine vecNorm_congr (fun i hi => ?_)
  have e := hy i hi
  unfold applied target
  rw [← e, ← Finset.sum_sub_distrib]
  exact Finset.sum_congr rfl (fun j _ => by ring)

/-- C83, for all unknowns: the distance to the exact solution is at most `√(Π_T N_T!)` times as large. -/
theorem C83_unknowns (σ : SetOrder) (m : Model ℝ) (ae : Int) (hm : WellFormed m ae) (b : Built ℝ)
    (hb : buildSystem σ m = .ok b) (hp : Physical m) (p : Point ℝ) (heta : 0 < p.eta) (ls : LinSys ℂ)
    (hls : scaffold realPhys m p (fullBasis b.eqs) b.eqs = .ok ls) (x y : ℕ → ℂ)
    (hy : Solution ls (allEqs b.eqs).length y) :
    vecNorm (allEqs b.eqs).length (fun i => x i - y i) ≤
      √(factorials m) * (sensitivity m p.eta * residualNorm ls (allEqs b.eqs).length x) := by
  refine (C83_inverse σ m ae hm b hb hp p heta ls hls (fun i => x i - y i)).2.trans (le_of_eq ?_)
  congr 2
  refine vecNorm_congr (fun i hi => ?_)
  have e := hy i hi
  unfold applied target
  rw [← e, ← Finset.sum_sub_distrib]
  exact Finset.sum_congr rfl (fun j _ => by ring)

theorem G0_norm_le (k w a eta t : ℝ) (h : 0 < eta) : ‖realPhys.G0 k w a eta t‖ ≤ 1 / eta := by
  show ‖(1 : ℂ) / ((w : ℂ) + I * eta + 2 * t * Real.cos (k * a))‖ ≤ 1 / eta
  rw [norm_div, norm_one]
  refine one_div_le_one_div_of_le h ?_
  have him : ((w : ℂ) + I * eta + 2 * t * Real.cos (k * a)).im = eta := by
    have e : ((w : ℂ) + I * eta + 2 * t * Real.cos (k * a)) = ((w + 2 * t * Real.cos (k * a) : ℝ) : ℂ) + (eta : ℝ) * I := by
      push_cast; ring
    rw [e, add_im, ofReal_im, im_ofReal_mul, I_im]; ring
  calc eta = |((w : ℂ) + I * eta + 2 * t * Real.cos (k * a)).im| := by rw [him, abs_of_pos h]
    _ ≤ _ := Complex.abs_im_le_norm _

/-- C83, with the system stored in single precision: a vector that nearly solves the *stored* system. The
bound can be evaluated from what the program has at hand. -/
theorem C83_stored (σ : SetOrder) (m : Model ℝ) (ae : Int) (hm : WellFormed m ae) (b : Built ℝ)
    (hb : buildSystem σ m = .ok b) (hp : Physical m) (p : Point ℝ) (heta : 0 < p.eta) (ls : LinSys ℂ)
    (hls : scaffold realPhys m p (fullBasis b.eqs) b.eqs = .ok ls) (G : ℂ) (hG : Returned m b p G)
    (u τ : ℝ) (rnd : ℂ → ℂ) (hrnd : Rounds u τ rnd) (x : ℕ → ℂ) :
    ‖x ls.rhsRow - G‖ ≤ sensitivity m p.eta *
      (residualNorm (ls.store rnd) (allEqs b.eqs).length x +
        (u * matNorm ls (allEqs b.eqs).length + (allEqs b.eqs).length * τ) * vecNorm (allEqs b.eqs).length x +
        (u / p.eta + τ)) := by
  obtain ⟨-, ls', -, k1, hnd, -, -, -, hrow, hval, -⟩ := C19_sparse_matrix σ m ae hm b hb realPhys p
  rw [hls] at k1; cases k1
  have hlt : ls.rhsRow < (allEqs b.eqs).length := by omega
  have h0 : ‖ls.rhsVal‖ ≤ 1 / p.eta := by rw [hval]; exact G0_norm_le _ _ _ _ _ heta
  refine (C83_residual σ m ae hm b hb hp p heta ls hls G hG x).trans
    (mul_le_mul_of_nonneg_left ?_ (sensitivity_nonneg m heta))
  have h1 := store_apply hnd hrnd (allEqs b.eqs).length x
  have h2 := store_target hrnd hlt
  have h3 : u * ‖ls.rhsVal‖ ≤ u / p.eta := by
    rw [div_eq_mul_one_div]; exact mul_le_mul_of_nonneg_left h0 hrnd.1
  generalize (allEqs b.eqs).length = n at h1 h2 ⊢
  have h4 := vecNorm_add n (fun i => (applied (ls.store rnd) n x i - target (ls.store rnd) i) -
    (applied (ls.store rnd) n x i - applied ls n x i)) (fun i => target (ls.store rnd) i - target ls i)
  have h5 := vecNorm_sub n (fun i => applied (ls.store rnd) n x i - target (ls.store rnd) i)
    (fun i => applied (ls.store rnd) n x i - applied ls n x i)
  have h6 : residualNorm ls n x = vecNorm n (fun i => (applied (ls.store rnd) n x i - target (ls.store rnd) i) -
    (applied (ls.store rnd) n x i - applied ls n x i) + (target (ls.store rnd) i - target ls i)) :=
    vecNorm_congr (fun i _ => by ring)
  rw [h6]
  have h7 : residualNorm (ls.store rnd) n x =
    vecNorm n (fun i => applied (ls.store rnd) n x i - target (ls.store rnd) i) := rfl
  rw [h7]
  linarith

theorem store_rows {K : Type} [Field K] (rnd : K → K) (ls : LinSys K) :
    cooRows (ls.store rnd).triples = cooRows ls.triples ∧ cooCols (ls.store rnd).triples = cooCols ls.triples := by
  simp only [cooRows, cooCols, LinSys.store, List.map_map]
  exact ⟨rfl, rfl⟩

/-- C83, in advance: if the rounding is fine enough (`κ ε < 1`, with `ε` the change of the matrix and `κ` the
bound on its inverse), the stored system still has exactly one solution, the sparse solver returns a value, and
that value is close to the result in exact arithmetic. -/
theorem C83_single_precision (σ : SetOrder) (m : Model ℝ) (ae : Int) (hm : WellFormed m ae) (b : Built ℝ)
    (hb : buildSystem σ m = .ok b) (hp : Physical m) (p : Point ℝ) (heta : 0 < p.eta) (ls : LinSys ℂ)
    (hls : scaffold realPhys m p (fullBasis b.eqs) b.eqs = .ok ls) (G : ℂ) (hG : Returned m b p G)
    (u τ : ℝ) (rnd : ℂ → ℂ) (hrnd : Rounds u τ rnd) (κ ε : ℝ) (hκ : κ = √(factorials m) * sensitivity m p.eta)
    (hε : ε = u * matNorm ls (allEqs b.eqs).length + (allEqs b.eqs).length * τ) (hsmall : κ * ε < 1) :
    ∃ G', (∀ spsolve, Exact spsolve →
        sparseSolveStored rnd realPhys m p (fullBasis b.eqs) b.eqs spsolve = .ok G') ∧
      ‖G' - G‖ ≤ sensitivity m p.eta *
        (ε * (κ * ((1 + u) / p.eta + τ) / (1 - κ * ε)) + (u / p.eta + τ)) := by
  obtain ⟨-, ls', -, k1, hnd, hrows, hcols, -, hrow, hval, -⟩ := C19_sparse_matrix σ m ae hm b hb realPhys p
  rw [hls] at k1; cases k1
  have hlt : ls.rhsRow < (allEqs b.eqs).length := by omega
  have h0 : ‖ls.rhsVal‖ ≤ 1 / p.eta := by rw [hval]; exact G0_norm_le _ _ _ _ _ heta
  have hs0 := sensitivity_nonneg m heta
  have hκ0 : 0 ≤ κ := by rw [hκ]; positivity
  have hε0 : 0 ≤ ε := by
    rw [hε]
    have := hrnd.1
    have := hrnd.2.1
    have : 0 ≤ matNorm ls (allEqs b.eqs).length := Real.sqrt_nonneg _
    positivity
  have hinv : ∀ x, vecNorm (allEqs b.eqs).length x ≤
      κ * vecNorm (allEqs b.eqs).length (applied ls (allEqs b.eqs).length x) := by
    intro x
    rw [hκ, mul_assoc]
    exact (C83_inverse σ m ae hm b hb hp p heta ls hls x).2
  have hsa : ∀ x, vecNorm (allEqs b.eqs).length (fun i => applied (ls.store rnd) (allEqs b.eqs).length x i -
      applied ls (allEqs b.eqs).length x i) ≤ ε * vecNorm (allEqs b.eqs).length x := by
    intro x
    rw [hε]
    exact store_apply hnd hrnd _ x
  -- the norm of a vector, from the stored matrix
  have hst : ∀ x, vecNorm (allEqs b.eqs).length x * (1 - κ * ε) ≤
      κ * vecNorm (allEqs b.eqs).length (applied (ls.store rnd) (allEqs b.eqs).length x) := by
    intro x
    have e1 := hinv x
    have e2 := hsa x
    generalize (allEqs b.eqs).length = n at e1 e2 ⊢
    have e3 := vecNorm_sub n (applied (ls.store rnd) n x)
      (fun i => applied (ls.store rnd) n x i - applied ls n x i)
    have e4 : vecNorm n (applied ls n x) = vecNorm n (fun i => applied (ls.store rnd) n x i -
      (applied (ls.store rnd) n x i - applied ls n x i)) := vecNorm_congr (fun i _ => by ring)
    rw [← e4] at e3
    have e5 := mul_le_mul_of_nonneg_left (e3.trans (add_le_add le_rfl e2)) hκ0
    nlinarith
  obtain ⟨⟨x, hx⟩, hun⟩ := solution_of_injective (ls := ls.store rnd) (n := (allEqs b.eqs).length) (by
    intro x hx
    have e1 := hst x
    rw [vecNorm_congr (y := fun _ => 0) hx] at e1
    have e2 : vecNorm (allEqs b.eqs).length (fun _ => (0 : ℂ)) = 0 := by simp [vecNorm]
    rw [e2, mul_zero] at e1
    refine vecNorm_eq_zero (le_antisymm ?_ (vecNorm_nonneg _ _))
    by_contra hc
    exact absurd e1 (not_le.2 (mul_pos (not_le.1 hc) (by linarith))))
  refine ⟨x ls.rhsRow, ?_, ?_⟩
  · intro sp hsp
    obtain ⟨y, hy1, hy2⟩ := hsp (ls.store rnd) (allEqs b.eqs).length ((store_rows rnd ls).1.trans hrows)
      ((store_rows rnd ls).2.trans hcols) hrow ⟨x, hx⟩ hun
    have hg := (ready_of_built hm hb).green_ix
    unfold sparseSolveStored sparseSolve
    rw [hls, hg]
    simp only [bind, Except.bind, pure, Except.pure, hy1]
    rw [show (allEqs b.eqs).length - 1 = ls.rhsRow by omega, hun y x hy2 hx _ hlt]
  · refine (C83_stored σ m ae hm b hb hp p heta ls hls G hG u τ rnd hrnd x).trans
      (mul_le_mul_of_nonneg_left ?_ hs0)
    have hz : residualNorm (ls.store rnd) (allEqs b.eqs).length x = 0 := by
      unfold residualNorm
      rw [vecNorm_congr (y := fun _ => 0) (fun i hi => by
        have := hx i hi
        unfold applied target
        rw [this, sub_self])]
      simp [vecNorm]
    rw [hz, zero_add, ← hε]
    refine add_le_add (mul_le_mul_of_nonneg_left ?_ hε0) le_rfl
    rw [le_div_iff₀ (by linarith)]
    refine (hst x).trans (mul_le_mul_of_nonneg_left ?_ hκ0)
    have e1 : vecNorm (allEqs b.eqs).length (applied (ls.store rnd) (allEqs b.eqs).length x) = ‖rnd ls.rhsVal‖ := by
      rw [vecNorm_congr (x := applied (ls.store rnd) (allEqs b.eqs).length x) (y := target (ls.store rnd))
        (fun i hi => hx i hi), vecNorm_target (by exact hlt)]
      rfl
    rw [e1]
    have e2 := hrnd.2.2 ls.rhsVal
    have e3 := norm_le_norm_add_norm_sub' (rnd ls.rhsVal) ls.rhsVal
    have e4 : u * ‖ls.rhsVal‖ ≤ u * (1 / p.eta) := mul_le_mul_of_nonneg_left h0 hrnd.1
    rw [add_div, div_eq_mul_one_div u]
    linarith

/-- C83, from the user's side: for the calls of a user, at every momentum, frequency and broadening, the value
`x_G` of *any* vector `x` in place of the solution is off by at most the stated multiple of its residual. -/
theorem C83_assembled (σ : SetOrder) (hopping lattice T : ℝ)
    (hl : hopping = 0 ∨ (0 < hopping ∧ lattice = 1)) (cap : Option Int) (hcap : ∀ c, cap = some c → 1 ≤ c)
    (as : List (AddArgs ℝ)) (hne : as ≠ []) (hc : Clean realPrims hopping T as)
    (hf : ((modes T as).map (·.freq)).Nodup)
    (hb : (∀ a ∈ as, a.ctype = "BondPeierls") ∨ (∀ a ∈ as, a.ctype ≠ "BondPeierls")) :
    ∃ m b, (Model.fromParameters hopping lattice T cap 1).adds realPrims as = .ok m ∧ buildSystem σ m = .ok b ∧
      ∀ k w eta : ℝ, 0 < eta → ∃ ls G, scaffold realPhys m ⟨k, w, eta⟩ (fullBasis b.eqs) b.eqs = .ok ls ∧
        Gives m b ⟨k, w, eta⟩ G ∧
        (∀ x, ‖x ls.rhsRow - G‖ ≤ sensitivity m eta * residualNorm ls (allEqs b.eqs).length x) ∧
        ∀ u τ rnd, Rounds u τ rnd → ∀ x, ‖x ls.rhsRow - G‖ ≤ sensitivity m eta *
          (residualNorm (ls.store rnd) (allEqs b.eqs).length x +
            (u * matNorm ls (allEqs b.eqs).length + (allEqs b.eqs).length * τ) * vecNorm (allEqs b.eqs).length x +
            (u / eta + τ)) := by
  obtain ⟨m, b, h1, ⟨ae, h2⟩, h3⟩ := C16_assembled σ realPrims C42_names hopping lattice T cap hcap as hne hc hf hb
  refine ⟨m, b, h1, h3, ?_⟩
  intro k w eta heta
  have hp := physical_assembled h1 hb hl
  obtain ⟨ls, G, k1, -, -, -, k5, k6⟩ := C22_nonsingular σ m ae h2 b h3 hp ⟨k, w, eta⟩ heta
  exact ⟨ls, G, k1, ⟨k5, k6⟩, C83_residual σ m ae h2 b h3 hp ⟨k, w, eta⟩ heta ls k1 G (Or.inr k6),
    fun u τ rnd hr => C83_stored σ m ae h2 b h3 hp ⟨k, w, eta⟩ heta ls k1 G (Or.inr k6) u τ rnd hr⟩

/-! ### the hypotheses are met -/

/-- rounding real and imaginary part to multiples of `δ` -/
noncomputable def roundTo (δ : ℝ) (z : ℂ) : ℂ := ⟨round (z.re / δ) * δ, round (z.im / δ) * δ⟩

theorem roundTo_rounds {δ : ℝ} (h : 0 < δ) : Rounds 0 δ (roundTo δ) := by
  refine ⟨le_rfl, h.le, fun z => ?_⟩
  have key : ∀ x : ℝ, |round (x / δ) * δ - x| ≤ δ / 2 := by
    intro x
    have h1 := abs_sub_round (x / δ)
    have h2 : (round (x / δ) : ℝ) * δ - x = -(x / δ - round (x / δ)) * δ := by field_simp; ring
    rw [h2, abs_mul, abs_neg, abs_of_pos h]
    nlinarith
  refine (Complex.norm_le_abs_re_add_abs_im _).trans ?_
  have h1 := key z.re
  have h2 := key z.im
  simp only [Complex.sub_re, Complex.sub_im, roundTo]
  linarith

/-- A Holstein–Peierls model, and a rounding fine enough for it: the stored system is solvable and its result
is within the bound. -/
example (σ : SetOrder) : ∃ m b, (Model.fromParameters (1 : ℝ) 1 0 none 1).adds realPrims exCalls = .ok m ∧
    buildSystem σ m = .ok b ∧ ∃ ls G δ, scaffold realPhys m ⟨0, -2, 1 / 10⟩ (fullBasis b.eqs) b.eqs = .ok ls ∧
      Gives m b ⟨0, -2, 1 / 10⟩ G ∧ 0 < δ ∧ Rounds 0 δ (roundTo δ) ∧
      √(factorials m) * sensitivity m (1 / 10) *
        (0 * matNorm ls (allEqs b.eqs).length + (allEqs b.eqs).length * δ) < 1 ∧
      ∃ G', ∀ spsolve, Exact spsolve →
        sparseSolveStored (roundTo δ) realPhys m ⟨0, -2, 1 / 10⟩ (fullBasis b.eqs) b.eqs spsolve = .ok G' := by
  obtain ⟨h1, h2, h3⟩ := exCalls_clean
  obtain ⟨m, b, k1, ⟨ae, k2⟩, k3⟩ := C16_assembled σ realPrims C42_names 1 1 0 none (by simp) exCalls
    (by simp [exCalls]) h1 h2 (Or.inr h3)
  have hp := physical_assembled k1 (Or.inr h3) (Or.inr ⟨one_pos, rfl⟩)
  obtain ⟨ls, G, q1, -, -, -, q5, q6⟩ := C22_nonsingular σ m ae k2 b k3 hp ⟨0, -2, 1 / 10⟩ (by norm_num)
  have hA : 0 ≤ √(factorials m : ℝ) * sensitivity m (1 / 10) * (allEqs b.eqs).length :=
    mul_nonneg (mul_nonneg (Real.sqrt_nonneg _) (sensitivity_nonneg m (by norm_num))) (Nat.cast_nonneg _)
  generalize hAe : √(factorials m : ℝ) * sensitivity m (1 / 10) * (allEqs b.eqs).length = A at hA
  have hδ : (0 : ℝ) < 1 / (A + 1) := by positivity
  have hs : √(factorials m) * sensitivity m (1 / 10) *
      (0 * matNorm ls (allEqs b.eqs).length + (allEqs b.eqs).length * (1 / (A + 1))) < 1 := by
    rw [zero_mul, zero_add, ← mul_assoc, hAe, mul_one_div, div_lt_one (by linarith)]
    linarith
  obtain ⟨G', e1, -⟩ := C83_single_precision σ m ae k2 b k3 hp ⟨0, -2, 1 / 10⟩ (by norm_num) ls q1 G (Or.inr q6)
    0 (1 / (A + 1)) _ (roundTo_rounds hδ) _ _ rfl rfl hs
  exact ⟨m, b, k1, k3, ls, G, 1 / (A + 1), q1, ⟨q5, q6⟩, hδ, roundTo_rounds hδ, hs, G', e1⟩

end GGCE.Props
