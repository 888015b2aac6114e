import Verif.Proofs.Rounding
import Verif.Props.Residual
import Verif.Proofs.Size
import Verif.Spec.Rounding

/-!
Property C128: the accuracy of the result under inexact evaluation of the coefficients. The free propagators and
the phases are computed in floating-point arithmetic; the Green's function the solver returns differs from the one
in exact arithmetic by a bounded multiple of the unit roundoff.
-/

set_option linter.unusedSectionVars false

namespace GGCE.Props
open Spec Arr Complex

/-! ### a perturbed linear system -/

theorem frob_triangle (n : ℕ) (a b c : ℕ → ℕ → ℝ) (h0 : ∀ i j, 0 ≤ a i j) (h : ∀ i < n, ∀ j < n, a i j ≤ b i j + c i j) :
    √(∑ i ∈ Finset.range n, ∑ j ∈ Finset.range n, a i j ^ 2) ≤
      √(∑ i ∈ Finset.range n, ∑ j ∈ Finset.range n, b i j ^ 2) +
      √(∑ i ∈ Finset.range n, ∑ j ∈ Finset.range n, c i j ^ 2) := by
  have h1 : ∀ f : ℕ → ℕ → ℝ, ∑ i ∈ Finset.range n, ∑ j ∈ Finset.range n, f i j ^ 2 =
      ∑ q : Fin n × Fin n, ‖f q.1 q.2‖ ^ 2 := by
    intro f
    rw [Fintype.sum_prod_type, Finset.sum_range]
    refine Finset.sum_congr rfl (fun i _ => ?_)
    rw [Finset.sum_range]
    simp
  let v : (ℕ → ℕ → ℝ) → EuclideanSpace ℝ (Fin n × Fin n) := fun f => WithLp.toLp 2 (fun q => f q.1 q.2)
  have h2 : ∀ f, √(∑ i ∈ Finset.range n, ∑ j ∈ Finset.range n, f i j ^ 2) = ‖v f‖ := by
    intro f
    rw [EuclideanSpace.norm_eq, h1]
  refine le_trans (Real.sqrt_le_sqrt (Finset.sum_le_sum (fun i hi => Finset.sum_le_sum (fun j hj =>
    pow_le_pow_left₀ (h0 i j) (h i (Finset.mem_range.1 hi) j (Finset.mem_range.1 hj)) 2)))) ?_
  rw [h2 b, h2 c, h2 (fun i j => b i j + c i j)]
  have h3 : v (fun i j => b i j + c i j) = v b + v c := by ext q; rfl
  rw [h3]
  exact norm_add_le _ _

/-- A system whose matrix differs from the assembled one by at most `ε` and whose right-hand side by at most `ε0`
has exactly one solution if `κ ε < 1`, and its Green's function component is close to the result. -/
theorem perturbed (σ : SetOrder) (m : Model ℝ) (ae : Int) (hm : WellFormed m ae) (b : Built ℝ)
    (hb : buildSystem σ m = .ok b) (hp : Physical m) (p : Point ℝ) (heta : 0 < p.eta) (ls : LinSys ℂ)
    (hls : scaffold realPhys m p (fullBasis b.eqs) b.eqs = .ok ls) (G : ℂ) (hG : Returned m b p G)
    (ls' : LinSys ℂ) (hrow : ls'.rhsRow = ls.rhsRow) (κ ε ε0 : ℝ) (hκ : κ = √(factorials m) * sensitivity m p.eta)
    (hε0 : 0 ≤ ε)
    (hA : ∀ x, vecNorm (allEqs b.eqs).length (fun i => applied ls' (allEqs b.eqs).length x i -
      applied ls (allEqs b.eqs).length x i) ≤ ε * vecNorm (allEqs b.eqs).length x)
    (hr : ‖ls'.rhsVal - ls.rhsVal‖ ≤ ε0) (hsmall : κ * ε < 1) :
    ∃ x, Solution ls' (allEqs b.eqs).length x ∧
      (∀ y z, Solution ls' (allEqs b.eqs).length y → Solution ls' (allEqs b.eqs).length z →
        ∀ i < (allEqs b.eqs).length, y i = z i) ∧
      ‖x ls.rhsRow - G‖ ≤ sensitivity m p.eta * (ε * (κ * (1 / p.eta + ε0) / (1 - κ * ε)) + ε0) := by
  obtain ⟨-, ls'', -, k1, -, -, -, -, hrow', hval, -⟩ := C19_sparse_matrix σ m ae hm b hb realPhys p
  rw [hls] at k1; cases k1
  have hlt : ls.rhsRow < (allEqs b.eqs).length := by omega
  have h0 : ‖ls.rhsVal‖ ≤ 1 / p.eta := by rw [hval]; exact G0_norm_le _ _ _ _ _ heta
  have hs0 := sensitivity_nonneg m heta
  have hκ0 : 0 ≤ κ := by rw [hκ]; positivity
  have hinv : ∀ x, vecNorm (allEqs b.eqs).length x ≤
      κ * vecNorm (allEqs b.eqs).length (applied ls (allEqs b.eqs).length x) := by
    intro x
    rw [hκ, mul_assoc]
    exact (C83_inverse σ m ae hm b hb hp p heta ls hls x).2
  have hres := C83_residual σ m ae hm b hb hp p heta ls hls G hG
  generalize (allEqs b.eqs).length = n at *
  have hst : ∀ x, vecNorm n x * (1 - κ * ε) ≤ κ * vecNorm n (applied ls' n x) := by
    intro x
    have e1 := hinv x
    have e2 := hA x
    have e3 := vecNorm_sub n (applied ls' n x) (fun i => applied ls' n x i - applied ls n x i)
    have e4 : vecNorm n (applied ls n x) = vecNorm n (fun i => applied ls' n x i -
      (applied ls' n x i - applied ls n x i)) := vecNorm_congr (fun i _ => by ring)
    rw [← e4] at e3
    have e5 := mul_le_mul_of_nonneg_left (e3.trans (add_le_add le_rfl e2)) hκ0
    nlinarith
  obtain ⟨⟨x, hx⟩, hun⟩ := solution_of_injective (ls := ls') (n := n) (by
    intro x hx
    have e1 := hst x
    rw [vecNorm_congr (y := fun _ => 0) hx] at e1
    have e2 : vecNorm n (fun _ => (0 : ℂ)) = 0 := by simp [vecNorm]
    rw [e2, mul_zero] at e1
    refine vecNorm_eq_zero (le_antisymm ?_ (vecNorm_nonneg _ _))
    by_contra hc
    exact absurd e1 (not_le.2 (mul_pos (not_le.1 hc) (by linarith))))
  refine ⟨x, hx, hun, (hres x).trans (mul_le_mul_of_nonneg_left ?_ hs0)⟩
  have ht : vecNorm n (fun i => target ls' i - target ls i) ≤ ε0 := by
    have : vecNorm n (fun i => target ls' i - target ls i) = vecNorm n (target ⟨[], ls.rhsRow, ls'.rhsVal - ls.rhsVal⟩) := by
      refine vecNorm_congr (fun i _ => ?_)
      unfold target
      rw [hrow]
      simp only
      split <;> simp
    rw [this, vecNorm_target (by exact hlt)]
    exact hr
  have hxn : vecNorm n x ≤ κ * (1 / p.eta + ε0) / (1 - κ * ε) := by
    rw [le_div_iff₀ (by linarith)]
    refine (hst x).trans (mul_le_mul_of_nonneg_left ?_ hκ0)
    rw [vecNorm_congr (x := applied ls' n x) (y := target ls') (fun i hi => hx i hi), vecNorm_target (by rw [hrow]; exact hlt)]
    have := norm_le_norm_add_norm_sub' ls'.rhsVal ls.rhsVal
    linarith
  have e1 : residualNorm ls n x = vecNorm n (fun i => (target ls' i - target ls i) -
      (applied ls' n x i - applied ls n x i)) := by
    refine vecNorm_congr (fun i hi => ?_)
    have e : applied ls' n x i = target ls' i := hx i hi
    show applied ls n x i - target ls i = _
    rw [← e]; ring
  rw [e1]
  have e2 := vecNorm_sub n (fun i => target ls' i - target ls i) (fun i => applied ls' n x i - applied ls n x i)
  have e3 := (hA x).trans (mul_le_mul_of_nonneg_left hxn hε0)
  linarith

theorem sum_ite_norm_le {α : Type} (ix : α → ℕ) (d : α → ℂ) (n : ℕ) (l : List α) :
    ∑ j ∈ Finset.range n, ‖(l.map (fun t => if ix t = j then d t else 0)).sum‖ ≤ (l.map (fun t => ‖d t‖)).sum := by
  induction l with
  | nil => simp
  | cons a l ih =>
    simp only [List.map_cons, List.sum_cons]
    have h1 : ∑ j ∈ Finset.range n, ‖(if ix a = j then d a else 0)‖ ≤ ‖d a‖ := by
      by_cases h : ix a < n
      · rw [Finset.sum_eq_single (ix a)]
        · simp
        · intro j _ hj; rw [if_neg (Ne.symm hj), norm_zero]
        · intro hc; exact absurd (Finset.mem_range.2 h) hc
      · rw [Finset.sum_eq_zero]
        · exact norm_nonneg _
        · intro j hj
          have := Finset.mem_range.1 hj
          rw [if_neg (by omega), norm_zero]
    calc _ ≤ ∑ j ∈ Finset.range n, (‖(if ix a = j then d a else 0)‖ +
          ‖(l.map (fun t => if ix t = j then d t else 0)).sum‖) := Finset.sum_le_sum (fun j _ => norm_add_le _ _)
      _ = _ := Finset.sum_add_distrib
      _ ≤ _ := add_le_add h1 ih

theorem list_sum_sub_ite {α : Type} (ix : α → ℕ) (c c' : α → ℂ) (j : ℕ) (l : List α) :
    (l.map (fun t => if ix t = j then c' t else 0)).sum - (l.map (fun t => if ix t = j then c t else 0)).sum =
      (l.map (fun t => if ix t = j then c' t - c t else 0)).sum := by
  induction l with
  | nil => simp
  | cons a l ih =>
    simp only [List.map_cons, List.sum_cons]
    rw [← ih]
    split <;> ring

/-- **C128**. The coefficients as any other functions `F` give them, each off by at most `γ`, the inhomogeneity by at
most `ε0`, and the system then stored in some format: if all that is small enough, the stored system still has
exactly one solution, every exact sparse solver returns the same value, and that is close to the result in exact
arithmetic. -/
theorem C128_coefficients (σ : SetOrder) (m : Model ℝ) (ae : Int) (hm : WellFormed m ae) (b : Built ℝ)
    (hb : buildSystem σ m = .ok b) (hp : Physical m) (p : Point ℝ) (heta : 0 < p.eta) (ls : LinSys ℂ)
    (hls : scaffold realPhys m p (fullBasis b.eqs) b.eqs = .ok ls) (G : ℂ) (hG : Returned m b p G)
    (F : Phys ℝ ℂ) (γ γ0 : ℝ)
    (hγ : ∀ e ∈ allEqs b.eqs, ∀ t ∈ e.terms, ∀ c c', t.coefficient realPhys m p = .ok c → t.coefficient F m p = .ok c' →
      ‖c' - c‖ ≤ γ)
    (hγ0 : ‖F.G0 p.k p.w m.latticeConstant p.eta m.ham.hopping -
      realPhys.G0 p.k p.w m.latticeConstant p.eta m.ham.hopping‖ ≤ γ0)
    (u τ : ℝ) (rnd : ℂ → ℂ) (hrnd : Rounds u τ rnd) (κ β ε ε0 : ℝ) (hκ : κ = √(factorials m) * sensitivity m p.eta)
    (hβ : β = √(allEqs b.eqs).length * ((rowBound m ae - 1 : ℕ) * γ)) (hγn : 0 ≤ γ)
    (hε : ε = β + (u * (matNorm ls (allEqs b.eqs).length + β) + (allEqs b.eqs).length * τ))
    (hε0 : ε0 = γ0 + (u * (1 / p.eta + γ0) + τ)) (hsmall : κ * ε < 1) :
    ∃ G', (∀ spsolve, Exact spsolve → sparseSolveStored rnd F m p (fullBasis b.eqs) b.eqs spsolve = .ok G') ∧
      ‖G' - G‖ ≤ sensitivity m p.eta * (ε * (κ * (1 / p.eta + ε0) / (1 - κ * ε)) + ε0) := by
  have hr := ready_of_built hm hb
  obtain ⟨T, e1, -, -, -, e5⟩ := hr.sparse realPhys p
  have hls1 := hr.scaffold realPhys p e1
  rw [hls] at hls1
  have hlsT : ls = ⟨T, (allEqs b.eqs).length - 1, realPhys.G0 p.k p.w m.latticeConstant p.eta m.ham.hopping⟩ :=
    Except.ok.inj hls1
  obtain ⟨-, ls1, -, k1, hnd, hrows, hcols, -, hrow, hval, -⟩ := C19_sparse_matrix σ m ae hm b hb F p
  obtain ⟨T', f1, -, -, -, f5⟩ := hr.sparse F p
  have hls2 := hr.scaffold F p f1
  rw [k1] at hls2
  have hls1T : ls1 = ⟨T', (allEqs b.eqs).length - 1, F.G0 p.k p.w m.latticeConstant p.eta m.ham.hopping⟩ :=
    Except.ok.inj hls2
  have hg := hr.green_ix
  -- entries
  have hrowsum : ∀ i < (allEqs b.eqs).length, ∑ j ∈ Finset.range (allEqs b.eqs).length,
      ‖cooEntry ls1.triples i j - cooEntry ls.triples i j‖ ≤ (rowBound m ae - 1 : ℕ) * γ := by
    intro i hi
    have hei := List.getElem?_eq_getElem hi
    have hmem := List.getElem_mem hi
    generalize (allEqs b.eqs)[i] = ei at hei hmem
    have hE : ∀ j, cooEntry ls1.triples i j - cooEntry ls.triples i j =
        (ei.terms.map (fun t => if ixOf b.eqs t.id = j then coefV F m p t - coefV realPhys m p t else 0)).sum := by
      intro j
      rw [hls1T, hlsT]
      simp only
      rw [e5 i ei hei j, f5 i ei hei j, add_sub_add_right_eq_sub, list_sum_sub_ite]
    simp only [hE]
    refine (sum_ite_norm_le _ _ _ _).trans ?_
    have hlen : ei.terms.length ≤ rowBound m ae - 1 := by
      obtain ⟨b', L, h1', hL, hd⟩ := buildSystem_ok σ hm
      rw [hb] at h1'; cases h1'
      obtain ⟨a, ha, δ, -, rfl⟩ := (hL.mem_allEqs hm.toListsOk hd ei).1 hmem
      have := hL.terms_le hm.toShaped ha
      simp only [full, List.length_map]
      omega
    have := List.sum_le_card_nsmul (ei.terms.map (fun t => ‖coefV F m p t - coefV realPhys m p t‖)) γ (by
      intro x hx
      obtain ⟨t, ht, rfl⟩ := List.mem_map.1 hx
      exact hγ ei hmem t ht _ _ (coefficient_ok (hr.coef ei hmem t ht)) (coefficient_ok (hr.coef ei hmem t ht)))
    rw [List.length_map, nsmul_eq_mul] at this
    refine this.trans (mul_le_mul_of_nonneg_right ?_ hγn)
    exact_mod_cast hlen
  have hβ0 : 0 ≤ β := by rw [hβ]; positivity
  have hfrob : √(∑ i ∈ Finset.range (allEqs b.eqs).length, ∑ j ∈ Finset.range (allEqs b.eqs).length,
      ‖cooEntry ls1.triples i j - cooEntry ls.triples i j‖ ^ 2) ≤ β := by
    generalize (allEqs b.eqs).length = n at *
    have hρ : (0 : ℝ) ≤ (rowBound m ae - 1 : ℕ) * γ := by positivity
    generalize ((rowBound m ae - 1 : ℕ) : ℝ) * γ = ρ at *
    have h1 : ∀ i ∈ Finset.range n, ∑ j ∈ Finset.range n, ‖cooEntry ls1.triples i j - cooEntry ls.triples i j‖ ^ 2 ≤ ρ ^ 2 := by
      intro i hi
      refine le_trans ?_ (pow_le_pow_left₀ (Finset.sum_nonneg (fun _ _ => norm_nonneg _)) (hrowsum i (Finset.mem_range.1 hi)) 2)
      exact Finset.sum_sq_le_sq_sum_of_nonneg (fun _ _ => norm_nonneg _)
    refine (Real.sqrt_le_sqrt (Finset.sum_le_sum h1)).trans ?_
    rw [Finset.sum_const, Finset.card_range, nsmul_eq_mul, Real.sqrt_mul (Nat.cast_nonneg _), Real.sqrt_sq hρ, hβ]
  have hmat : matNorm ls1 (allEqs b.eqs).length ≤ matNorm ls (allEqs b.eqs).length + β := by
    have := frob_triangle (allEqs b.eqs).length (fun i j => ‖cooEntry ls1.triples i j‖) (fun i j => ‖cooEntry ls.triples i j‖)
      (fun i j => ‖cooEntry ls1.triples i j - cooEntry ls.triples i j‖) (fun _ _ => norm_nonneg _) (fun i _ j _ =>
        norm_le_norm_add_norm_sub' _ _)
    exact this.trans (by unfold matNorm; linarith)
  have hA : ∀ x, vecNorm (allEqs b.eqs).length (fun i => applied (ls1.store rnd) (allEqs b.eqs).length x i -
      applied ls (allEqs b.eqs).length x i) ≤ ε * vecNorm (allEqs b.eqs).length x := by
    intro x
    have a1 := store_apply hnd hrnd (allEqs b.eqs).length x
    have a2 : vecNorm (allEqs b.eqs).length (fun i => applied ls1 (allEqs b.eqs).length x i -
        applied ls (allEqs b.eqs).length x i) ≤ β * vecNorm (allEqs b.eqs).length x := by
      have : (fun i => applied ls1 (allEqs b.eqs).length x i - applied ls (allEqs b.eqs).length x i) =
          fun i => ∑ j ∈ Finset.range (allEqs b.eqs).length,
            (cooEntry ls1.triples i j - cooEntry ls.triples i j) * x j := by
        funext i
        unfold applied
        rw [← Finset.sum_sub_distrib]
        exact Finset.sum_congr rfl (fun j _ => by ring)
      rw [this]
      exact (vecNorm_apply _ _ x).trans (mul_le_mul_of_nonneg_right hfrob (vecNorm_nonneg _ x))
    have a3 := vecNorm_add (allEqs b.eqs).length
      (fun i => applied (ls1.store rnd) (allEqs b.eqs).length x i - applied ls1 (allEqs b.eqs).length x i)
      (fun i => applied ls1 (allEqs b.eqs).length x i - applied ls (allEqs b.eqs).length x i)
    simp only [sub_add_sub_cancel] at a3
    have hn := vecNorm_nonneg (allEqs b.eqs).length x
    have a4 := mul_le_mul_of_nonneg_right (mul_le_mul_of_nonneg_left hmat hrnd.1) hn
    rw [hε]
    nlinarith
  have hG0 : ‖(ls1.store rnd).rhsVal - ls.rhsVal‖ ≤ ε0 := by
    show ‖rnd ls1.rhsVal - ls.rhsVal‖ ≤ ε0
    rw [hls1T, hlsT]
    simp only
    have b1 := hrnd.2.2 (F.G0 p.k p.w m.latticeConstant p.eta m.ham.hopping)
    have b2 := G0_norm_le p.k p.w m.latticeConstant p.eta m.ham.hopping heta
    have b3 := norm_le_norm_add_norm_sub' (F.G0 p.k p.w m.latticeConstant p.eta m.ham.hopping)
      (realPhys.G0 p.k p.w m.latticeConstant p.eta m.ham.hopping)
    have b4 := mul_le_mul_of_nonneg_left (b3.trans (add_le_add b2 hγ0)) hrnd.1
    have b5 := norm_add_le (rnd (F.G0 p.k p.w m.latticeConstant p.eta m.ham.hopping) -
      F.G0 p.k p.w m.latticeConstant p.eta m.ham.hopping)
      (F.G0 p.k p.w m.latticeConstant p.eta m.ham.hopping - realPhys.G0 p.k p.w m.latticeConstant p.eta m.ham.hopping)
    rw [sub_add_sub_cancel] at b5
    rw [hε0]
    linarith
  have hεn : 0 ≤ ε := by
    have := hrnd.1
    have := hrnd.2.1
    have : 0 ≤ matNorm ls (allEqs b.eqs).length := Real.sqrt_nonneg _
    rw [hε]
    positivity
  have hrr : (ls1.store rnd).rhsRow = ls.rhsRow := by rw [hls1T, hlsT]; rfl
  obtain ⟨x, hx, hun, hbound⟩ := perturbed σ m ae hm b hb hp p heta ls hls G hG (ls1.store rnd) hrr κ ε ε0 hκ hεn hA hG0 hsmall
  refine ⟨x ls.rhsRow, ?_, hbound⟩
  intro sp hsp
  obtain ⟨y, hy1, hy2⟩ := hsp (ls1.store rnd) (allEqs b.eqs).length ((store_rows rnd ls1).1.trans hrows)
    ((store_rows rnd ls1).2.trans hcols) hrow ⟨x, hx⟩ hun
  have hpos := hr.length_pos
  have hlr : ls.rhsRow = (allEqs b.eqs).length - 1 := by rw [hlsT]
  unfold sparseSolveStored sparseSolve
  rw [k1, hg]
  simp only [bind, Except.bind, pure, Except.pure, hy1]
  rw [hlr, hun y x hy2 hx _ (by omega)]

/-! ### the coefficients -/

theorem chain_le_number {m : Model ℝ} {ae : Int} {a : Arr} (ha : InTruncation m ae a) {t : ℕ} (ht : t < m.nTypes) (x : ℤ) :
    ((chain a t x : ℤ) : ℝ) ≤ maxNumber m t := by
  obtain ⟨n, h1, h2⟩ := ha.2.2.numberOk _ rfl t (by rw [ha.2.1]; exact ht)
  have hle : chain a t x ≤ typeTotal a t := by
    have hlt : t < a.rows.length := by rw [ha.2.1]; exact ht
    have hnn := ha.2.2.nonneg _ (List.getElem_mem hlt)
    have h0 : 0 ≤ typeTotal a t := by
      unfold typeTotal
      rw [List.getD_eq_getElem?_getD, List.getElem?_eq_getElem hlt]
      exact List.sum_nonneg hnn
    unfold chain
    split
    · rw [List.getElem?_eq_getElem hlt]
      dsimp only
      cases hx : a.rows[t][x.toNat]? with
      | none => exact h0
      | some v =>
        unfold typeTotal
        rw [List.getD_eq_getElem?_getD, List.getElem?_eq_getElem hlt]
        exact List.single_le_sum hnn v (List.mem_of_getElem? hx)
    · exact h0
  unfold maxNumber
  rw [List.getD_eq_getElem?_getD, h1, Option.getD_some]
  exact_mod_cast hle.trans h2

theorem energy_le {m : Model ℝ} {ae : Int} {a : Arr} (ha : InTruncation m ae a) : |energy m a| ≤ topEnergy m := by
  unfold energy topEnergy
  rw [ha.2.1]
  have key : ∀ l : List ℕ, (∀ i ∈ l, i < m.nTypes) →
      |(l.map (fun i => m.ham.freqs.getD i 0 * ((typeTotal a i : Int) : ℝ))).sum| ≤
        (l.map (fun i => |m.ham.freqs.getD i 0| * maxNumber m i)).sum := by
    intro l
    induction l with
    | nil => simp
    | cons i l ih =>
      intro hl
      simp only [List.map_cons, List.sum_cons]
      refine (abs_add_le _ _).trans (add_le_add ?_ (ih (fun j hj => hl j (List.mem_cons_of_mem _ hj))))
      have hi := hl i (List.mem_cons_self ..)
      have hlt : i < a.rows.length := by rw [ha.2.1]; exact hi
      obtain ⟨n, h1, h2⟩ := ha.2.2.numberOk _ rfl i hlt
      have h0 : 0 ≤ typeTotal a i := by
        unfold typeTotal
        rw [List.getD_eq_getElem?_getD, List.getElem?_eq_getElem hlt]
        exact List.sum_nonneg (ha.2.2.nonneg _ (List.getElem_mem hlt))
      rw [abs_mul]
      refine mul_le_mul_of_nonneg_left ?_ (abs_nonneg _)
      rw [abs_of_nonneg (by exact_mod_cast h0)]
      unfold maxNumber
      rw [List.getD_eq_getElem?_getD (l := m.number), h1, Option.getD_some]
      exact_mod_cast h2
  exact key _ (fun i hi => List.mem_range.1 hi)

theorem topEnergy_nonneg {m : Model ℝ} {ae : Int} (hm : WellFormed m ae) : 0 ≤ topEnergy m := by
  unfold topEnergy
  apply List.sum_nonneg
  intro x hx
  obtain ⟨i, hi, rfl⟩ := List.mem_map.1 hx
  have hl : i < m.number.length := by rw [hm.num]; exact List.mem_range.1 hi
  have := hm.numPos _ (List.getElem_mem hl)
  refine mul_nonneg (abs_nonneg _) ?_
  unfold maxNumber
  rw [List.getD_eq_getElem?_getD, List.getElem?_eq_getElem hl, Option.getD_some]
  have h2 : (0 : ℤ) ≤ m.number[i] := by omega
  exact_mod_cast h2

theorem one_le_maxNumber {m : Model ℝ} {ae : Int} (hm : WellFormed m ae) {t : ℕ} (ht : t < m.nTypes) : 1 ≤ maxNumber m t := by
  have hl : t < m.number.length := by rw [hm.num]; exact ht
  have := hm.numPos _ (List.getElem_mem hl)
  unfold maxNumber
  rw [List.getD_eq_getElem?_getD, List.getElem?_eq_getElem hl, Option.getD_some]
  exact_mod_cast this

/-- the free propagator is at most `1 / eta` -/
theorem g0_norm_le {delta omega a eta t : ℝ} (he : 0 < eta) (h : t = 0 ∨ ∃ n : ℕ, |delta * a| = n) :
    ‖realPhys.g0 delta omega a eta t‖ ≤ 1 / eta := by
  show ‖g0R delta omega a eta t‖ ≤ 1 / eta
  by_cases ht : t = 0
  · unfold g0R
    rw [if_pos ht]
    split
    · rw [norm_zero]; positivity
    · rw [norm_div, norm_one]
      exact one_div_le_one_div_of_le he (norm_freq omega eta he)
  · obtain ⟨n, hn⟩ := h.resolve_left ht
    have hB : 0 < 2 * |t| := by have := abs_pos.2 ht; linarith
    rw [g0R_nat ht hn, norm_mul, norm_pow, norm_div, norm_neg, Complex.norm_I]
    have h1 : ‖-(((omega : ℂ) + eta * I) / ((2 * |t| : ℝ) : ℂ)) +
        I * Complex.sqrt (1 - (((omega : ℂ) + eta * I) / ((2 * |t| : ℝ) : ℂ)) ^ 2)‖ ^ n ≤ 1 :=
      pow_le_one₀ (norm_nonneg _) (norm_yRoot_lt (xOf_im (omega := omega) he ht)).le
    have h2 : 1 / ‖Complex.sqrt (((2 * |t| : ℝ) : ℂ) ^ 2 - ((omega : ℂ) + eta * I) ^ 2)‖ ≤ 1 / eta :=
      one_div_le_one_div_of_le he ((csqrt_re_ge (2 * |t|) omega he hB.le).trans (Complex.re_le_norm _))
    calc _ ≤ 1 * (1 / eta) := mul_le_mul h1 h2 (by positivity) zero_le_one
      _ = _ := one_mul _

theorem norm_freq_le (omega eta : ℝ) (he : 0 < eta) : ‖(omega : ℂ) + eta * I‖ ≤ |omega| + eta := by
  refine (norm_add_le _ _).trans ?_
  rw [norm_mul, Complex.norm_I, mul_one, Complex.norm_real, Complex.norm_real, Real.norm_eq_abs, Real.norm_eq_abs,
    abs_of_pos he]

theorem norm_freq_sq (omega eta : ℝ) : ‖(omega : ℂ) + eta * I‖ ^ 2 = omega ^ 2 + eta ^ 2 := by
  rw [← Complex.normSq_eq_norm_sq, Complex.normSq_apply]
  simp
  ring

/-- **C128** (the propagators). In an arithmetic with unit roundoff `u`, the free propagator over a whole number of
at most `N` sites is computed with an error of at most `propError`, provided the roundoff is small compared with
the broadening: however close to the band edge the energy is. -/
theorem C128_propagator {u v : ℝ} {fl pw cs ex} (A : Arithmetic u v fl pw cs ex) {delta omega a eta t : ℝ} (he : 0 < eta)
    {N : ℕ} (hn : t = 0 ∨ ∃ n : ℕ, |delta * a| = n ∧ n ≤ N) {D : ℝ} (hD : 2 * |t| + |omega| + eta ≤ D)
    (h1 : 16 * u * D ^ 2 ≤ eta ^ 2) (h2 : t ≠ 0 → 18 * N * u * D ^ 2 ≤ 2 * |t| * eta) :
    ‖(floatPhys fl pw cs ex).g0 delta omega a eta t - realPhys.g0 delta omega a eta t‖ ≤
      propError N u v D (2 * |t|) eta := by
  show ‖g0F fl pw delta omega a eta t - g0R delta omega a eta t‖ ≤ _
  have hu := A.unit.1
  have hv := A.lib.1
  have hB : 0 ≤ 2 * |t| := by positivity
  have hDe : eta ≤ D := by have := abs_nonneg omega; linarith
  have hD0 : 0 < D := by linarith
  have hvD : 7 * v ≤ 7 * v * D / eta := by
    rw [le_div_iff₀ he]
    exact mul_le_mul_of_nonneg_left hDe (by positivity)
  unfold propError
  by_cases ht : t = 0
  · subst ht
    refine (g0F_sub_zero hu A.unit.2 A.op he).trans ?_
    gcongr
    have : 32 * u ≤ 32 * u * D ^ 2 / eta ^ 2 := by
      rw [le_div_iff₀ (by positivity)]
      exact mul_le_mul_of_nonneg_left (pow_le_pow_left₀ he.le hDe 2) (by positivity)
    have : 0 ≤ 81 * N * u * D ^ 2 / (2 * |(0 : ℝ)| * eta) := by positivity
    linarith
  · obtain ⟨n, hn1, hn2⟩ := hn.resolve_left ht
    have hB' : 0 < 2 * |t| := by have := abs_pos.2 ht; linarith
    have hnN : (n : ℝ) ≤ N := by exact_mod_cast hn2
    have hq : (2 * |t|) ^ 2 + ‖(omega : ℂ) + eta * I‖ ^ 2 ≤ D ^ 2 := by
      rw [norm_freq_sq, ← sq_abs omega]
      have := pow_le_pow_left₀ (by positivity) hD 2
      nlinarith [mul_nonneg hB (abs_nonneg omega), mul_nonneg hB he.le, mul_nonneg (abs_nonneg omega) he.le]
    have hmul : n * u * D ^ 2 ≤ N * u * D ^ 2 := by gcongr
    have h2' : 18 * n * u * D ^ 2 ≤ 2 * |t| * eta := by
      have := h2 ht
      linarith
    refine (g0F_sub hu A.unit.2 A.op A.lib.2 A.pow he ht hn1 hq h1 h2').trans ?_
    have h3 : 81 * n * u * D ^ 2 / (2 * |t| * eta) ≤ 81 * N * u * D ^ 2 / (2 * |t| * eta) := by gcongr
    gcongr

/-- C128, in momentum space -/
theorem C128_momentum {u v : ℝ} {fl pw cs ex} (A : Arithmetic u v fl pw cs ex) {k omega a eta t : ℝ} (he : 0 < eta)
    (N : ℕ) {D : ℝ} (hD : 2 * |t| + |omega| + eta ≤ D) (h1 : 2 * ((9 / 4 * u + 2 * v) * D) ≤ eta) :
    ‖(floatPhys fl pw cs ex).G0 k omega a eta t - realPhys.G0 k omega a eta t‖ ≤ propError N u v D (2 * |t|) eta := by
  show ‖G0F fl cs k omega a eta t - G0R k omega a eta t‖ ≤ _
  have hu := A.unit.1
  have hv := A.lib.1
  have hDe : eta ≤ D := by have := abs_nonneg omega; have := abs_nonneg t; linarith
  have hD0 : 0 < D := by linarith
  have := norm_freq_le omega eta he
  refine (G0F_sub hu A.unit.2 A.op A.cos he (r := D) (by linarith) h1).trans ?_
  unfold propError
  gcongr
  have a1 : 7 * u * D / eta ≤ 32 * u * D ^ 2 / eta ^ 2 := by
    rw [div_le_div_iff₀ he (by positivity)]
    have := mul_le_mul_of_nonneg_left hDe (by positivity : 0 ≤ u * D * eta)
    nlinarith [mul_nonneg (mul_nonneg hu hD0.le) (mul_nonneg he.le he.le)]
  have a2 : 4 * v * D / eta ≤ 7 * v * D / eta := by gcongr; norm_num
  have a3 : 0 ≤ 81 * N * u * D ^ 2 / (2 * |t| * eta) := by positivity
  have a4 : (7 * u + 4 * v) * D / eta = 7 * u * D / eta + 4 * v * D / eta := by ring
  linarith

/-- C128, each coefficient: with shifts of at most `s` half-sites and `|g_h| N_h ≤ P`, the computed coefficients are
those in exact arithmetic up to `P (v / eta + (1 + v) propError)`; the latter are at most `P / eta`. -/
theorem C128_terms (σ : SetOrder) (m : Model ℝ) (ae : Int) (hm : WellFormed m ae) (b : Built ℝ)
    (hb : buildSystem σ m = .ok b) (hp : Physical m) (p : Point ℝ) (heta : 0 < p.eta)
    {u v : ℝ} {fl pw cs ex} (A : Arithmetic u v fl pw cs ex) (s : ℕ)
    (hs : ∀ h ∈ m.ham.terms, |h.phi.tw| ≤ s ∧ |h.psi.tw| ≤ s) (P : ℝ)
    (hP : ∀ h ∈ m.ham.terms, |h.coupling| * maxNumber m h.phononIndex ≤ P)
    (h1 : 16 * u * energyScale m p ^ 2 ≤ p.eta ^ 2)
    (h2 : m.ham.hopping ≠ 0 → 18 * hopBound s ae * u * energyScale m p ^ 2 ≤ 2 * |m.ham.hopping| * p.eta)
    (h3 : 2 * ((9 / 4 * u + 2 * v) * energyScale m p) ≤ p.eta) (err : ℝ)
    (herr : err = propError (hopBound s ae) u v (energyScale m p) (2 * |m.ham.hopping|) p.eta) :
    (∀ e ∈ allEqs b.eqs, ∀ t ∈ e.terms, ∀ c c', t.coefficient realPhys m p = .ok c →
      t.coefficient (floatPhys fl pw cs ex) m p = .ok c' → ‖c' - c‖ ≤ P * (v / p.eta + (1 + v) * err) ∧ ‖c‖ ≤ P / p.eta) ∧
    ‖(floatPhys fl pw cs ex).G0 p.k p.w m.latticeConstant p.eta m.ham.hopping -
      realPhys.G0 p.k p.w m.latticeConstant p.eta m.ham.hopping‖ ≤ err := by
  have hv := A.lib.1
  have hE := topEnergy_nonneg hm
  have hG0 : ‖(floatPhys fl pw cs ex).G0 p.k p.w m.latticeConstant p.eta m.ham.hopping -
      realPhys.G0 p.k p.w m.latticeConstant p.eta m.ham.hopping‖ ≤ err := by
    rw [herr]
    exact C128_momentum A heta _ (by unfold energyScale; linarith) h3
  refine ⟨?_, hG0⟩
  have herr0 : 0 ≤ err := (norm_nonneg _).trans hG0
  -- products
  have prod : ∀ (r x : ℝ) (g g' : ℂ), |r| ≤ P → ‖g‖ ≤ 1 / p.eta → ‖g' - g‖ ≤ err →
      ‖(r : ℂ) * (ex x * g') - (r : ℂ) * (Complex.exp (I * x) * g)‖ ≤ P * (v / p.eta + (1 + v) * err) ∧
        ‖(r : ℂ) * (Complex.exp (I * x) * g)‖ ≤ P / p.eta := by
    intro r x g g' hr hg hgg
    have hP0 : 0 ≤ P := (abs_nonneg _).trans hr
    refine ⟨?_, ?_⟩
    swap
    · rw [norm_mul, norm_mul, Complex.norm_real, Real.norm_eq_abs, mul_comm I, Complex.norm_exp_ofReal_mul_I, one_mul,
        div_eq_mul_one_div]
      exact mul_le_mul hr hg (norm_nonneg _) hP0
    rw [← mul_sub, norm_mul, Complex.norm_real, Real.norm_eq_abs]
    refine mul_le_mul hr ?_ (norm_nonneg _) hP0
    have hx1 : ‖Complex.exp (I * x)‖ ≤ 1 := by rw [mul_comm, Complex.norm_exp_ofReal_mul_I]
    have hg' : ‖g'‖ ≤ 1 / p.eta + err := by
      have := norm_le_norm_add_norm_sub' g' g
      linarith
    have := mul_sub_le (A.exp x) hgg hx1 hg'
    refine this.trans (le_of_eq ?_)
    ring
  intro e he t ht c c' hc hc'
  by_cases hg : e.green = true
  · -- the Green's function equation
    obtain ⟨b', L, k1, hL, hd⟩ := buildSystem_ok σ hm
    rw [hb] at k1; cases k1
    obtain ⟨a, ha, δ, -, rfl⟩ := (hL.mem_allEqs hm.toListsOk hd e).1 he
    rcases ha with rfl | ha
    · simp only [full, hL.eqn_vac, List.mem_map] at ht
      obtain ⟨t', ht', rfl⟩ := ht
      obtain ⟨h, hh, rfl⟩ := List.mem_map.1 ht'
      have hh := (List.mem_filter.1 hh).1
      have hk : incr δ (eomOf m h) = eomOf m h := rfl
      rw [hk] at hc hc'
      unfold Term.coefficient at hc hc'
      simp only [eomOf] at hc hc'
      cases hc; cases hc'
      have hr : |h.coupling| ≤ P := by
        refine le_trans ?_ (hP h hh)
        exact le_mul_of_one_le_right (abs_nonneg _) (one_le_maxNumber hm (hm.index h hh))
      have := prod h.coupling (p.k * (m.latticeConstant * (h.psi.sub h.phi).val)) _ _ hr
        (G0_norm_le p.k p.w m.latticeConstant p.eta m.ham.hopping heta) hG0
      refine ⟨le_trans (le_of_eq ?_) this.1, le_trans (le_of_eq ?_) this.2⟩
      · congr 1
        show (h.coupling : ℂ) * _ * ex _ - (h.coupling : ℂ) * _ * Complex.exp (I * _) = _
        ring
      · congr 1
        show (h.coupling : ℂ) * _ * Complex.exp (I * _) = _
        ring
    · obtain ⟨ts, e1, -⟩ := hL.eqn a ha
      rw [e1] at hg
      cases hg
  · have hg : e.green = false := by simpa using hg
    obtain ⟨hin, δ, hδ, hall⟩ := C14_term_arguments σ m ae hm b hb e he hg
    obtain ⟨h, hh, γ, hpos, hpref, ⟨g, hg1, hg2⟩, hfr, -, -⟩ := hall t ht
    obtain ⟨cc, hcc⟩ := hp.shifts
    -- the distance
    have hdist : |g.tw| ≤ 3 * s + 4 * (ae - 1) ∧ g.tw % 2 = 0 := by
      obtain ⟨b', L, k1, hL, hd⟩ := buildSystem_ok σ hm
      rw [hb] at k1; cases k1
      obtain ⟨a, ha, δ', hδ', rfl⟩ := (hL.mem_allEqs hm.toListsOk hd e).1 he
      rcases ha with rfl | ha
      · rw [hL.eqn_vac] at hg; cases hg
      have hδe : δ' = δ := by simpa [full] using hδ
      subst hδe
      obtain ⟨q, hq1, hq2⟩ := Finset.mem_image.1 (hL.delta_near hm.toShaped ha hδ')
      obtain ⟨hq3, hq4⟩ := Finset.mem_product.1 hq1
      obtain ⟨h', hh', hq5⟩ := List.mem_map.1 (List.mem_toFinset.1 hq3)
      have hq6 := Finset.mem_Icc.1 hq4
      have a1 := (hs h hh)
      have a2 := (hs h' hh').1
      rw [abs_le] at a1 a2
      rw [abs_le (a := h.psi.tw)] at a1
      have c1 := hcc h hh
      have c2 := hcc h' hh'
      have a3 : 1 - ae ≤ γ ∧ γ ≤ ae - 1 := by
        cases hd' : h.dag with
        | plus => exact possible_plus hin hd' hpos
        | minus =>
          have := possible_minus hin hd' hpos
          have := hm.aePos
          omega
      rw [abs_le]
      omega
    have hnat : m.ham.hopping = 0 ∨ ∃ n : ℕ, |(g.val : ℝ) * m.latticeConstant| = n ∧ n ≤ hopBound s ae := by
      rcases hp.lattice with h0 | ⟨-, h0⟩
      · exact Or.inl h0
      · refine Or.inr ⟨(g.tw / 2).natAbs, ?_, ?_⟩
        · rw [h0, mul_one]
          unfold Num.val
          have : (g.tw : ℝ) = 2 * ((g.tw / 2 : ℤ) : ℝ) := by
            have h2 : g.tw = 2 * (g.tw / 2) := by omega
            exact_mod_cast h2
          rw [this, mul_div_cancel_left₀ _ (two_ne_zero), Nat.cast_natAbs, Int.cast_abs]
        · unfold hopBound
          have := hdist.1
          rw [abs_le] at this
          have := hm.aePos
          omega
    have hle := energy_le hin
    have hgc : ‖(floatPhys fl pw cs ex).g0 g.val (p.w - t.freqShift) m.latticeConstant p.eta m.ham.hopping -
        realPhys.g0 g.val (p.w - t.freqShift) m.latticeConstant p.eta m.ham.hopping‖ ≤ err := by
      rw [herr, hfr]
      refine C128_propagator A heta hnat ?_ h1 h2
      have := abs_sub p.w (energy m e.config)
      unfold energyScale
      linarith
    have hgn : ‖realPhys.g0 g.val (p.w - t.freqShift) m.latticeConstant p.eta m.ham.hopping‖ ≤ 1 / p.eta :=
      g0_norm_le heta (hnat.imp id (fun ⟨n, h, _⟩ => ⟨n, h⟩))
    have hr : |t.pref| ≤ P := by
      refine le_trans ?_ (hP h hh)
      rw [hpref]
      have hi := hm.index h hh
      cases h.dag with
      | plus => exact le_mul_of_one_le_right (abs_nonneg _) (one_le_maxNumber hm hi)
      | minus =>
        simp only
        rw [abs_mul]
        refine mul_le_mul_of_nonneg_left ?_ (abs_nonneg _)
        rw [abs_of_nonneg (by exact_mod_cast chain_nonneg hin.2.2.toProper _ _)]
        exact chain_le_number hin hi γ
    have hcoef : ∀ F : Phys ℝ ℂ, ∀ z, t.kind ≠ .eom → t.coefficient F m p = .ok z →
        z = F.ofReal t.pref * F.expI (p.k * (m.latticeConstant * t.expShift.val)) *
          F.g0 g.val (p.w - t.freqShift) m.latticeConstant p.eta m.ham.hopping := by
      intro F z hk hz
      unfold Term.coefficient at hz
      rw [hg1] at hz
      cases hkk : t.kind with
      | eom => exact absurd hkk hk
      | ann => rw [hkk] at hz; cases hz; rfl
      | cre => rw [hkk] at hz; cases hz; rfl
    by_cases hk : t.kind = .eom
    · unfold Term.coefficient at hc hc'
      rw [hk] at hc hc'
      cases hc; cases hc'
      have := prod t.pref (p.k * (m.latticeConstant * t.expShift.val)) _ _ hr
        (G0_norm_le p.k p.w m.latticeConstant p.eta m.ham.hopping heta) hG0
      refine ⟨le_trans (le_of_eq ?_) this.1, le_trans (le_of_eq ?_) this.2⟩
      · congr 1
        show (t.pref : ℂ) * _ * ex _ - (t.pref : ℂ) * _ * Complex.exp (I * _) = _
        ring
      · congr 1
        show (t.pref : ℂ) * _ * Complex.exp (I * _) = _
        ring
    · rw [hcoef _ _ hk hc, hcoef _ _ hk hc']
      have := prod t.pref (p.k * (m.latticeConstant * t.expShift.val)) _ _ hr hgn hgc
      refine ⟨le_trans (le_of_eq ?_) this.1, le_trans (le_of_eq ?_) this.2⟩
      · congr 1
        show (t.pref : ℂ) * ex _ * _ - (t.pref : ℂ) * Complex.exp (I * _) * _ = _
        ring
      · congr 1
        show (t.pref : ℂ) * Complex.exp (I * _) * _ = _
        ring

theorem exists_shift (l : List (SingleTerm ℝ)) : ∃ s : ℕ, ∀ h ∈ l, |h.phi.tw| ≤ s ∧ |h.psi.tw| ≤ s := by
  induction l with
  | nil => exact ⟨0, by simp⟩
  | cons a l ih =>
    obtain ⟨s, hs⟩ := ih
    refine ⟨s + a.phi.tw.natAbs + a.psi.tw.natAbs, ?_⟩
    intro h hh
    rcases List.mem_cons.1 hh with rfl | hh
    · rw [Int.abs_eq_natAbs, Int.abs_eq_natAbs]
      omega
    · have := hs h hh
      omega

theorem exists_strength (m : Model ℝ) (l : List (SingleTerm ℝ)) :
    ∃ P : ℝ, 0 ≤ P ∧ ∀ h ∈ l, |h.coupling| * maxNumber m h.phononIndex ≤ P := by
  induction l with
  | nil => exact ⟨0, le_rfl, by simp⟩
  | cons a l ih =>
    obtain ⟨P, hP0, hP⟩ := ih
    refine ⟨max P (|a.coupling| * maxNumber m a.phononIndex), le_max_of_le_left hP0, ?_⟩
    intro h hh
    rcases List.mem_cons.1 hh with rfl | hh
    · exact le_max_right _ _
    · exact (hP h hh).trans (le_max_left _ _)

theorem exists_small (cs : List ℝ) : ∃ u0 : ℝ, 0 < u0 ∧ u0 ≤ 1 / 8 ∧ ∀ c ∈ cs, c * u0 ≤ 1 := by
  induction cs with
  | nil => exact ⟨1 / 8, by norm_num, le_rfl, by simp⟩
  | cons a l ih =>
    obtain ⟨u, h1, h2, h3⟩ := ih
    refine ⟨min u (1 / (|a| + 1)), lt_min h1 (by positivity), (min_le_left _ _).trans h2, ?_⟩
    intro c hc
    have hm0 : 0 < min u (1 / (|a| + 1)) := lt_min h1 (by positivity)
    rcases List.mem_cons.1 hc with rfl | hc
    · have e1 : min u (1 / (|c| + 1)) ≤ 1 / (|c| + 1) := min_le_right _ _
      rw [le_div_iff₀ (by positivity)] at e1
      have := le_abs_self c
      nlinarith
    · rcases le_total c 0 with h | h
      · have := mul_nonpos_of_nonpos_of_nonneg h hm0.le
        linarith
      · exact (mul_le_mul_of_nonneg_left (min_le_left _ _) h).trans (h3 c hc)

set_option maxHeartbeats 800000 in
/-- **C128** (the result). At every point with positive broadening there is a precision `u0` from which on the
computation succeeds and the error of the Green's function is at most a constant times the precision: with
propagators, powers, cosine and phases evaluated to precision `u` and the system stored to precision `u`, every exact
sparse solver returns one value, within `C u` of the result in exact arithmetic. `u0` and `C` depend on the model and
the point only. -/
theorem C128_linear (σ : SetOrder) (m : Model ℝ) (ae : Int) (hm : WellFormed m ae) (b : Built ℝ)
    (hb : buildSystem σ m = .ok b) (hp : Physical m) (p : Point ℝ) (heta : 0 < p.eta) (G : ℂ) (hG : Returned m b p G) :
    ∃ u0 C : ℝ, 0 < u0 ∧ ∀ u ≤ u0, ∀ fl pw cs ex, Arithmetic u u fl pw cs ex → ∀ rnd, Rounds u u rnd →
      ∃ G', (∀ spsolve, Exact spsolve →
        sparseSolveStored rnd (floatPhys fl pw cs ex) m p (fullBasis b.eqs) b.eqs spsolve = .ok G') ∧ ‖G' - G‖ ≤ C * u := by
  obtain ⟨s, hs⟩ := exists_shift m.ham.terms
  obtain ⟨P, hP0, hP⟩ := exists_strength m m.ham.terms
  obtain ⟨ls, -, hls, -⟩ := C22_nonsingular σ m ae hm b hb hp p heta
  have hE := topEnergy_nonneg hm
  have hD0 : 0 < energyScale m p := by unfold energyScale; positivity
  have hsens := sensitivity_nonneg m heta
  have hM : 0 ≤ matNorm ls (allEqs b.eqs).length := Real.sqrt_nonneg _
  generalize hD : energyScale m p = D at hD0
  generalize hMe : matNorm ls (allEqs b.eqs).length = M at hM
  -- constants
  obtain ⟨e1, he1⟩ : ∃ e1, e1 = propError (hopBound s ae) 1 1 D (2 * |m.ham.hopping|) p.eta := ⟨_, rfl⟩
  have he10 : 0 ≤ e1 := by rw [he1]; unfold propError; positivity
  obtain ⟨g1, hg1⟩ : ∃ g1, g1 = P * (1 / p.eta + 2 * e1) := ⟨_, rfl⟩
  have hg10 : 0 ≤ g1 := by rw [hg1]; positivity
  obtain ⟨b1, hb1⟩ : ∃ b1 : ℝ, b1 = √(allEqs b.eqs).length * ((rowBound m ae - 1 : ℕ) * g1) := ⟨_, rfl⟩
  have hb10 : 0 ≤ b1 := by rw [hb1]; positivity
  obtain ⟨c1, hc1⟩ : ∃ c1 : ℝ, c1 = b1 + (M + b1 + (allEqs b.eqs).length) := ⟨_, rfl⟩
  have hc10 : 0 ≤ c1 := by rw [hc1]; positivity
  obtain ⟨a1, ha1⟩ : ∃ a1 : ℝ, a1 = e1 + (1 / p.eta + e1 + 1) := ⟨_, rfl⟩
  have ha10 : 0 ≤ a1 := by rw [ha1]; positivity
  obtain ⟨κ, hκ⟩ : ∃ κ, κ = √(factorials m) * sensitivity m p.eta := ⟨_, rfl⟩
  have hκ0 : 0 ≤ κ := by rw [hκ]; positivity
  obtain ⟨u0, hu0, hu8, hsm⟩ := exists_small [16 * D ^ 2 / p.eta ^ 2,
    18 * hopBound s ae * D ^ 2 / (2 * |m.ham.hopping| * p.eta), 17 / 2 * D / p.eta, 2 * κ * c1]
  refine ⟨u0, sensitivity m p.eta * (c1 * (κ * (1 / p.eta + a1) * 2) + a1), hu0, ?_⟩
  intro u hu fl pw cs ex A rnd hrnd
  have hu1 := A.unit.1
  have hsm' : ∀ c ∈ [16 * D ^ 2 / p.eta ^ 2, 18 * hopBound s ae * D ^ 2 / (2 * |m.ham.hopping| * p.eta),
      17 / 2 * D / p.eta, 2 * κ * c1], 0 ≤ c → c * u ≤ 1 := fun c hc h0 =>
    (mul_le_mul_of_nonneg_left hu h0).trans (hsm c hc)
  simp only [List.forall_mem_cons] at hsm'
  obtain ⟨q1, q2, q3, q4, -⟩ := hsm'
  have q1 := q1 (by positivity)
  have q2 := q2 (by positivity)
  have q3 := q3 (by positivity)
  have q4 := q4 (by positivity)
  have hu1' : u ≤ 1 := by linarith
  obtain ⟨err, herr⟩ : ∃ err, err = propError (hopBound s ae) u u D (2 * |m.ham.hopping|) p.eta := ⟨_, rfl⟩
  have herru : err = u * e1 := by rw [herr, he1]; unfold propError; ring
  obtain ⟨t1, t2⟩ := C128_terms σ m ae hm b hb hp p heta A s hs P hP
    (by
      rw [hD]
      rw [div_mul_eq_mul_div, div_le_one (by positivity)] at q1
      linarith)
    (by
      intro ht
      have : 0 < |m.ham.hopping| := abs_pos.2 ht
      rw [hD]
      rw [div_mul_eq_mul_div, div_le_one (by positivity)] at q2
      linarith)
    (by
      rw [hD]
      rw [div_mul_eq_mul_div, div_le_one heta] at q3
      linarith) err (by rw [hD]; exact herr)
  have hγ : P * (u / p.eta + (1 + u) * err) ≤ u * g1 := by
    rw [hg1, herru]
    have : (1 + u) * (u * e1) ≤ 2 * (u * e1) := mul_le_mul_of_nonneg_right (by linarith) (by positivity)
    have := mul_le_mul_of_nonneg_left (add_le_add (le_refl (u / p.eta)) this) hP0
    refine this.trans (le_of_eq ?_)
    ring
  have hε1 : u * b1 + (u * (M + u * b1) + (allEqs b.eqs).length * u) ≤ u * c1 := by
    have : u * (u * b1) ≤ 1 * (u * b1) := mul_le_mul_of_nonneg_right hu1' (by positivity)
    rw [hc1]
    linarith
  have hε01 : u * e1 + (u * (1 / p.eta + u * e1) + u) ≤ u * a1 := by
    have : u * (u * e1) ≤ 1 * (u * e1) := mul_le_mul_of_nonneg_right hu1' (by positivity)
    rw [ha1]
    linarith
  have hhalf : κ * (u * c1) ≤ 1 / 2 := by linarith
  have hκε : κ * (u * b1 + (u * (M + u * b1) + (allEqs b.eqs).length * u)) ≤ 1 / 2 :=
    (mul_le_mul_of_nonneg_left hε1 hκ0).trans hhalf
  obtain ⟨G', k1, k2⟩ := C128_coefficients σ m ae hm b hb hp p heta ls hls G hG (floatPhys fl pw cs ex) (u * g1) (u * e1)
    (fun e he t ht c c' hc hc' => (t1 e he t ht c c' hc hc').1.trans hγ) (by rw [← herru]; exact t2) u u rnd hrnd κ (u * b1)
    (u * b1 + (u * (M + u * b1) + (allEqs b.eqs).length * u)) (u * e1 + (u * (1 / p.eta + u * e1) + u)) hκ
    (by rw [hb1]; ring) (by positivity) (by rw [hMe]) rfl (by linarith)
  refine ⟨G', k1, k2.trans ?_⟩
  rw [mul_assoc]
  refine mul_le_mul_of_nonneg_left ?_ hsens
  have hfrac : κ * (1 / p.eta + (u * e1 + (u * (1 / p.eta + u * e1) + u))) /
      (1 - κ * (u * b1 + (u * (M + u * b1) + (allEqs b.eqs).length * u))) ≤ κ * (1 / p.eta + a1) * 2 := by
    rw [div_le_iff₀ (by linarith)]
    have h1 : u * e1 + (u * (1 / p.eta + u * e1) + u) ≤ a1 :=
      hε01.trans (mul_le_of_le_one_left ha10 hu1')
    have h2 : κ * (1 / p.eta + (u * e1 + (u * (1 / p.eta + u * e1) + u))) ≤ κ * (1 / p.eta + a1) :=
      mul_le_mul_of_nonneg_left (by linarith) hκ0
    have h3 : 0 ≤ κ * (1 / p.eta + a1) * 2 := by positivity
    have h4 := mul_le_mul_of_nonneg_left (show (1 / 2 : ℝ) ≤ 1 - κ * (u * b1 + (u * (M + u * b1) +
      (allEqs b.eqs).length * u)) by linarith) h3
    linarith
  have hprod := mul_le_mul hε1 hfrac (by
    apply div_nonneg
    · positivity
    · linarith) (by positivity)
  linarith

/-- C128, from the user's side -/
theorem C128_assembled (σ : SetOrder) (hopping lattice T : ℝ)
    (hl : hopping = 0 ∨ (0 < hopping ∧ lattice = 1)) (cap : Option Int) (hcap : ∀ c, cap = some c → 1 ≤ c)
    (as : List (AddArgs ℝ)) (hne : as ≠ []) (hc : Clean realPrims hopping T as)
    (hf : ((modes T as).map (·.freq)).Nodup)
    (hb : (∀ a ∈ as, a.ctype = "BondPeierls") ∨ (∀ a ∈ as, a.ctype ≠ "BondPeierls")) :
    ∃ m b, (Model.fromParameters hopping lattice T cap 1).adds realPrims as = .ok m ∧ buildSystem σ m = .ok b ∧
      ∀ k w eta : ℝ, 0 < eta → ∃ G, Gives m b ⟨k, w, eta⟩ G ∧ ∃ u0 C : ℝ, 0 < u0 ∧
        ∀ u ≤ u0, ∀ fl pw cs ex, Arithmetic u u fl pw cs ex → ∀ rnd, Rounds u u rnd →
          ∃ G', (∀ spsolve, Exact spsolve →
            sparseSolveStored rnd (floatPhys fl pw cs ex) m ⟨k, w, eta⟩ (fullBasis b.eqs) b.eqs spsolve = .ok G') ∧
            ‖G' - G‖ ≤ C * u := by
  obtain ⟨m, b, h1, ⟨ae, h2⟩, h3⟩ := C16_assembled σ realPrims C42_names hopping lattice T cap hcap as hne hc hf hb
  refine ⟨m, b, h1, h3, ?_⟩
  intro k w eta heta
  have hp := physical_assembled h1 hb hl
  obtain ⟨ls, G, k1, -, -, -, k5, k6⟩ := C22_nonsingular σ m ae h2 b h3 hp ⟨k, w, eta⟩ heta
  exact ⟨G, ⟨k5, k6⟩, C128_linear σ m ae h2 b h3 hp ⟨k, w, eta⟩ heta G (Or.inr k6)⟩

/-- the principal root of a positive number -/
theorem csqrt_ofReal {r : ℝ} (hr : 0 < r) : Complex.sqrt (r : ℂ) = (√r : ℝ) := by
  have h1 : Complex.sqrt (r : ℂ) ^ 2 = ((√r : ℝ) : ℂ) ^ 2 := by
    rw [csqrt_sq, ← Complex.ofReal_pow, Real.sq_sqrt hr.le]
  rcases sq_eq_sq_iff_eq_or_eq_neg.1 h1 with h2 | h2
  · exact h2
  · exfalso
    have h3 := csqrt_re_nonneg (r : ℂ)
    rw [h2, neg_re, ofReal_re] at h3
    have := Real.sqrt_pos.2 hr
    linarith

/-- C128 needs the hopping to be large compared with the roundoff: at every precision there is a non-zero hopping, and
an arithmetic of that precision, for which the propagator to the next site is off by more than its largest possible
value `1 / eta = 1`. (One rounding of the inner root suffices: `-x + i √(1 - x²)` cancels for large `x`.) -/
theorem C128_small_hopping_fails (u : ℝ) (h0 : 0 < u) (h1 : u ≤ 1 / 8) : ∃ t : ℝ, 0 < t ∧ ∃ fl pw cs ex,
    Arithmetic u u fl pw cs ex ∧ ‖realPhys.g0 1 0 1 1 t‖ ≤ 1 ∧
    1 < ‖(floatPhys fl pw cs ex).g0 1 0 1 1 t - realPhys.g0 1 0 1 1 t‖ := by
  refine ⟨u / 8, by positivity, fun i z => if i = 9 then (1 + u : ℝ) * z else z, fun b x => b ^ (x : ℂ), Real.cos,
    fun x => Complex.exp (I * x), ?_, ?_, ?_⟩
  · refine ⟨⟨h0.le, h1⟩, ⟨h0.le, by linarith⟩, ?_, ?_, ?_, ?_⟩
    · intro i z
      split
      · rw [show ((1 + u : ℝ) : ℂ) * z - z = (u : ℂ) * z by push_cast; ring, norm_mul, Complex.norm_real,
          Real.norm_eq_abs, abs_of_pos h0]
      · rw [sub_self, norm_zero]; positivity
    · intro z n
      rw [show ((n : ℝ) : ℂ) = (n : ℂ) by push_cast; rfl, Complex.cpow_natCast, sub_self, norm_zero]
      positivity
    · intro x
      rw [sub_self, abs_zero]; exact h0.le
    · intro x
      rw [sub_self, norm_zero]; exact h0.le
  · exact (g0_norm_le one_pos (Or.inr ⟨1, by norm_num⟩)).trans (by norm_num)
  · have hle : ‖realPhys.g0 1 0 1 1 (u / 8)‖ ≤ 1 := (g0_norm_le one_pos (Or.inr ⟨1, by norm_num⟩)).trans (by norm_num)
    have hbig : 2 < ‖(floatPhys (fun i z => if i = 9 then ((1 + u : ℝ) : ℂ) * z else z) (fun b x => b ^ (x : ℂ)) Real.cos
        (fun x => Complex.exp (I * x))).g0 1 0 1 1 (u / 8)‖ := by
      show 2 < ‖g0F _ _ 1 0 1 1 (u / 8)‖
      unfold g0F
      have hB : 2 * |u / 8| = u / 4 := by rw [abs_of_pos (by positivity)]; ring
      rw [if_neg (by positivity), hB]
      simp only [Nat.reduceEqDiff, if_false, if_true]
      have hx : 1 - ((((0 : ℝ) : ℂ) + ((1 : ℝ) : ℂ) * I) / ((u / 4 : ℝ) : ℂ)) ^ 2 = ((1 + (4 / u) ^ 2 : ℝ) : ℂ) := by
        have : (u : ℂ) ≠ 0 := by exact_mod_cast h0.ne'
        push_cast
        rw [zero_add, one_mul, div_pow, Complex.I_sq]
        field_simp
        ring
      have hS : (((u / 4 : ℝ) : ℂ)) ^ 2 - (((0 : ℝ) : ℂ) + ((1 : ℝ) : ℂ) * I) ^ 2 = (((u / 4) ^ 2 + 1 : ℝ) : ℂ) := by
        push_cast
        rw [zero_add, one_mul, Complex.I_sq]
        ring
      rw [hx, hS, csqrt_ofReal (by positivity), csqrt_ofReal (by positivity)]
      have hone : ((|(1 : ℝ) * 1| : ℝ) : ℂ) = 1 := by norm_num
      rw [hone, Complex.cpow_one, norm_mul, norm_div, norm_neg, Complex.norm_I, Complex.norm_real, Real.norm_eq_abs,
        abs_of_nonneg (Real.sqrt_nonneg _)]
      have hy : 4 / u ≤ √(1 + (4 / u) ^ 2) := Real.le_sqrt_of_sq_le (by linarith)
      have hb : -((((0 : ℝ) : ℂ) + ((1 : ℝ) : ℂ) * I) / ((u / 4 : ℝ) : ℂ)) +
          I * (((1 + u : ℝ) : ℂ) * ((√(1 + (4 / u) ^ 2) : ℝ) : ℂ)) =
          (((1 + u) * √(1 + (4 / u) ^ 2) - 4 / u : ℝ) : ℂ) * I := by
        push_cast
        rw [zero_add, one_mul]
        have : (u : ℂ) ≠ 0 := by exact_mod_cast h0.ne'
        field_simp
        ring
      rw [hb, norm_mul, Complex.norm_I, mul_one, Complex.norm_real, Real.norm_eq_abs]
      have h4 : 4 ≤ (1 + u) * √(1 + (4 / u) ^ 2) - 4 / u := by
        have := mul_le_mul_of_nonneg_left hy h0.le
        rw [mul_div_cancel₀ _ h0.ne'] at this
        linarith
      have hs : √((u / 4) ^ 2 + 1) < 2 := by
        rw [Real.sqrt_lt' (by norm_num)]
        nlinarith
      have hs0 : 0 < √((u / 4) ^ 2 + 1) := Real.sqrt_pos.2 (by positivity)
      rw [mul_one_div, lt_div_iff₀ hs0]
      have := le_abs_self ((1 + u) * √(1 + (4 / u) ^ 2) - 4 / u)
      linarith
    have := norm_sub_norm_le ((floatPhys (fun i z => if i = 9 then ((1 + u : ℝ) : ℂ) * z else z) (fun b x => b ^ (x : ℂ))
      Real.cos (fun x => Complex.exp (I * x))).g0 1 0 1 1 (u / 8)) (realPhys.g0 1 0 1 1 (u / 8))
    linarith

/-! ### the hypotheses are met -/

/-- an arithmetic that makes everything larger by a factor `1 + u` -/
theorem inflate_arithmetic {u : ℝ} (h0 : 0 ≤ u) (h1 : u ≤ 1 / 8) :
    Arithmetic u u (fun _ z => (1 + u : ℝ) * z) (fun b x => (1 + u : ℝ) * b ^ (x : ℂ)) (fun x => Real.cos x + u)
      (fun x => (1 + u : ℝ) * Complex.exp (I * x)) := by
  have key : ∀ z : ℂ, ((1 + u : ℝ) : ℂ) * z - z = (u : ℂ) * z := by intro z; push_cast; ring
  refine ⟨⟨h0, h1⟩, ⟨h0, by linarith⟩, ?_, ?_, ?_, ?_⟩
  · intro _ z
    rw [key, norm_mul, Complex.norm_real, Real.norm_eq_abs, abs_of_nonneg h0]
  · intro z n
    rw [show ((n : ℝ) : ℂ) = (n : ℂ) by push_cast; rfl, Complex.cpow_natCast, key, norm_mul, Complex.norm_real,
      Real.norm_eq_abs, abs_of_nonneg h0]
  · intro x
    rw [add_sub_cancel_left, abs_of_nonneg h0]
  · intro x
    rw [key, norm_mul, Complex.norm_real, Real.norm_eq_abs, abs_of_nonneg h0, mul_comm I, Complex.norm_exp_ofReal_mul_I,
      mul_one]

theorem inflate_rounds {u : ℝ} (h0 : 0 ≤ u) : Rounds u u (fun z => (1 + u : ℝ) * z) := by
  refine ⟨h0, h0, fun z => ?_⟩
  rw [show ((1 + u : ℝ) : ℂ) * z - z = (u : ℂ) * z by push_cast; ring, norm_mul, Complex.norm_real, Real.norm_eq_abs,
    abs_of_nonneg h0]
  linarith

/-- the propagator over ten sites, at the band edge with `t = 1`, `eta = 1/10`, in double precision: eight digits -/
example : ‖g0F (fun _ z => (1 + (1 / 2 ^ 52 : ℝ) : ℝ) * z) (fun b x => (1 + (1 / 2 ^ 52 : ℝ) : ℝ) * b ^ (x : ℂ)) 10 (-2) 1 (1 / 10) 1 -
    g0R 10 (-2) 1 (1 / 10) 1‖ ≤ 1 / 10 ^ 8 := by
  refine (C128_propagator (inflate_arithmetic (u := 1 / 2 ^ 52) (by norm_num) (by norm_num)) (delta := 10) (omega := -2) (a := 1)
    (eta := 1 / 10) (t := 1) (by norm_num) (N := 10) (Or.inr ⟨10, by norm_num, le_rfl⟩) (D := 41 / 10) (by norm_num) (by norm_num)
    (fun _ => by norm_num)).trans ?_
  unfold propError
  norm_num

/-- a Holstein–Peierls model -/
example (σ : SetOrder) : ∃ m b, (Model.fromParameters (1 : ℝ) 1 0 none 1).adds realPrims exCalls = .ok m ∧
    buildSystem σ m = .ok b ∧ ∃ G, Gives m b ⟨0, -2, 1 / 10⟩ G ∧ ∃ u C : ℝ, 0 < u ∧
      Arithmetic u u (fun _ z => (1 + u : ℝ) * z) (fun b x => (1 + u : ℝ) * b ^ (x : ℂ)) (fun x => Real.cos x + u)
        (fun x => (1 + u : ℝ) * Complex.exp (I * x)) ∧ ∃ G', (∀ spsolve, Exact spsolve →
        sparseSolveStored (fun z : ℂ => (1 + u : ℝ) * z) (floatPhys (fun _ z => (1 + u : ℝ) * z)
          (fun b x => (1 + u : ℝ) * b ^ (x : ℂ)) (fun x => Real.cos x + u) (fun x => (1 + u : ℝ) * Complex.exp (I * x)))
          m ⟨0, -2, 1 / 10⟩ (fullBasis b.eqs) b.eqs spsolve = .ok G') ∧ ‖G' - G‖ ≤ C * u := by
  obtain ⟨h1, h2, h3⟩ := exCalls_clean
  obtain ⟨m, b, k1, k2, k3⟩ := C128_assembled σ 1 1 0 (Or.inr ⟨one_pos, rfl⟩) none (by simp) exCalls (by simp [exCalls])
    h1 h2 (Or.inr h3)
  obtain ⟨G, hG, u0, C, q1, q2⟩ := k3 0 (-2) (1 / 10) (by norm_num)
  have hu : 0 < min u0 (1 / 8) := lt_min q1 (by norm_num)
  have hA := inflate_arithmetic hu.le (min_le_right _ _)
  obtain ⟨G', r1, r2⟩ := q2 _ (min_le_left _ _) _ _ _ _ hA _ (inflate_rounds hu.le)
  exact ⟨m, b, k1, k2, G, hG, _, C, hu, hA, G', r1, r2⟩

end GGCE.Props
