import Verif.Proofs.Spectral

/-!
Properties C22, C23 and C52: with the physical propagators, the linear system is never singular, the
spectral function is positive, and the Green's function is bounded by `1 / eta`.
-/

set_option linter.unusedSectionVars false

namespace GGCE.Props
open Spec Arr Complex

/-- The matrix of a square system with exactly one solution is nonsingular. -/
theorem det_ne_zero {K : Type} [Field K] (ls : LinSys K) (n : Nat) (hx : ∃ x, Solution ls n x)
    (hu : ∀ x y, Solution ls n x → Solution ls n y → ∀ i < n, x i = y i) :
    (Matrix.of (fun i j : Fin n => cooEntry ls.triples i j)).det ≠ 0 := by
  intro hdet
  obtain ⟨v, hv0, hv⟩ := Matrix.exists_mulVec_eq_zero_iff.2 hdet
  obtain ⟨x, hx⟩ := hx
  apply hv0
  let y : Nat → K := fun i => x i + if h : i < n then v ⟨i, h⟩ else 0
  have hy : Solution ls n y := by
    intro i hi
    rw [← hx i hi]
    simp only [y, mul_add, Finset.sum_add_distrib]
    have h1 := congrFun hv ⟨i, hi⟩
    simp only [Matrix.mulVec, dotProduct, Matrix.of_apply, Pi.zero_apply] at h1
    rw [Finset.sum_range (f := fun j => cooEntry ls.triples i j * if h : j < n then v ⟨j, h⟩ else 0)]
    simp only [Fin.is_lt, dite_true, Fin.eta]
    rw [h1, add_zero]
  funext i
  have h2 := hu y x hy hx i i.isLt
  simpa [y] using h2

/-- A model for which the two properties are proved: built-in shifts, self-adjoint coupling, physical
lattice. -/
structure Physical (m : Model ℝ) : Prop where
  /-- boson operators act at whole sites, and either all or no electron moves by a half-integer -/
  shifts : ∃ c, ShiftsOk m c
  /-- the coupling operator is its own adjoint -/
  adj : (m.ham.terms.map adjoint).Perm m.ham.terms
  lattice : m.ham.hopping = 0 ∨ (0 < m.ham.hopping ∧ m.latticeConstant = 1)

/-- C22, for a well-formed model: the assembled matrix is nonsingular, so the linear system has exactly
one solution; every exact sparse solver and the dense solver return the same value. -/
theorem C22_nonsingular (σ : SetOrder) (m : Model ℝ) (ae : Int) (hm : WellFormed m ae) (b : Built ℝ)
    (hb : buildSystem σ m = .ok b) (hp : Physical m) (p : Point ℝ) (heta : 0 < p.eta) :
    ∃ ls G, scaffold realPhys m p (fullBasis b.eqs) b.eqs = .ok ls ∧
      (Matrix.of (fun i j : Fin (allEqs b.eqs).length => cooEntry ls.triples i j)).det ≠ 0 ∧
      (∃ x, Solution ls (allEqs b.eqs).length x) ∧
      (∀ x y, Solution ls (allEqs b.eqs).length x → Solution ls (allEqs b.eqs).length y →
        ∀ i < (allEqs b.eqs).length, x i = y i) ∧
      (∀ spsolve, Exact spsolve → sparseSolve realPhys m p (fullBasis b.eqs) b.eqs spsolve = .ok G) ∧
      denseSolve realPhys m p (localBasis b.eqs) b.eqs = .ok (some G) := by
  obtain ⟨b', L, h1, hL, hd⟩ := buildSystem_ok σ hm
  rw [hb] at h1; cases h1
  obtain ⟨c, hs⟩ := hp.shifts
  have S : Setting m ae L c p := ⟨hm, hL, hs, hp.adj, heta, hp.lattice⟩
  obtain ⟨G, hG⟩ := (ready_of_built hm hb).dense_ok realPhys p (S.definite hd) (total_pos m ae hm)
  obtain ⟨ls, k1, k2, k3, k4⟩ := (C21_sparse_dense_agree σ m ae hm b hb realPhys p).2 G hG
  have hu := fun x y hx hy => (k3 x hx).2 y hy
  exact ⟨ls, G, k1, det_ne_zero ls _ k2 hu, k2, hu, k4, hG⟩

/-- C23, for a well-formed model: the spectral function `-Im G / π` of the value returned by either
solver is positive. -/
theorem C23_spectral_positive (σ : SetOrder) (m : Model ℝ) (ae : Int) (hm : WellFormed m ae) (b : Built ℝ)
    (hb : buildSystem σ m = .ok b) (hp : Physical m) (p : Point ℝ) (heta : 0 < p.eta) (G : ℂ)
    (hG : (∃ spsolve, Exact spsolve ∧ sparseSolve realPhys m p (fullBasis b.eqs) b.eqs spsolve = .ok G) ∨
      denseSolve realPhys m p (localBasis b.eqs) b.eqs = .ok (some G)) :
    0 < -G.im / Real.pi ∧ p.eta * normSq G ≤ -G.im := by
  obtain ⟨b', L, h1, hL, hd⟩ := buildSystem_ok σ hm
  rw [hb] at h1; cases h1
  obtain ⟨c, hs⟩ := hp.shifts
  have S : Setting m ae L c p := ⟨hm, hL, hs, hp.adj, heta, hp.lattice⟩
  have hG' : denseSolve realPhys m p (localBasis b.eqs) b.eqs = .ok (some G) := by
    rcases hG with ⟨sp, e1, e2⟩ | hG
    · obtain ⟨ls, G', -, -, -, -, k1, k2⟩ := C22_nonsingular σ m ae hm b hb hp p heta
      rw [k1 sp e1] at e2
      cases e2
      exact k2
    · exact hG
  obtain ⟨⟨U, hU⟩, hall⟩ := (ready_of_built hm hb).dense realPhys p (total_pos m ae hm) hG'
  obtain ⟨k1, k2⟩ := S.im_neg hd hb hU
  rw [(hall U hU).1] at k1 k2
  have hn : 0 < p.eta * normSq G := mul_pos heta (normSq_pos.2 k2)
  exact ⟨div_pos (by linarith) Real.pi_pos, by linarith⟩

/-- C52, for a well-formed model: the value returned by either solver is at most `1 / eta` in modulus,
and so the spectral function is at most `1 / (π eta)`. -/
theorem C52_bounded (σ : SetOrder) (m : Model ℝ) (ae : Int) (hm : WellFormed m ae) (b : Built ℝ)
    (hb : buildSystem σ m = .ok b) (hp : Physical m) (p : Point ℝ) (heta : 0 < p.eta) (G : ℂ)
    (hG : (∃ spsolve, Exact spsolve ∧ sparseSolve realPhys m p (fullBasis b.eqs) b.eqs spsolve = .ok G) ∨
      denseSolve realPhys m p (localBasis b.eqs) b.eqs = .ok (some G)) :
    ‖G‖ ≤ 1 / p.eta ∧ -G.im / Real.pi ≤ 1 / (Real.pi * p.eta) := by
  obtain ⟨k1, k2⟩ := C23_spectral_positive σ m ae hm b hb hp p heta G hG
  have h1 : -G.im ≤ ‖G‖ := le_trans (neg_le_abs _) (Complex.abs_im_le_norm G)
  have h3 : 0 < -G.im := by
    have := mul_pos k1 Real.pi_pos
    rwa [div_mul_cancel₀ _ Real.pi_pos.ne'] at this
  have h2 : 0 < ‖G‖ := lt_of_lt_of_le h3 h1
  rw [normSq_eq_norm_sq] at k2
  have h4 : ‖G‖ ≤ 1 / p.eta := by
    rw [le_div_iff₀ heta]
    by_contra hc
    have := mul_lt_mul_of_pos_right (not_le.1 hc) h2
    nlinarith
  refine ⟨h4, ?_⟩
  rw [div_le_div_iff₀ Real.pi_pos (mul_pos Real.pi_pos heta), ← mul_assoc, mul_comm _ p.eta, ← mul_assoc, one_mul]
  have h5 : p.eta * -G.im ≤ 1 := by
    have := mul_le_mul_of_nonneg_left (h1.trans h4) heta.le
    rwa [mul_one_div_cancel heta.ne'] at this
  nlinarith [Real.pi_pos]

/-- What a user assembles is physical. -/
theorem physical_assembled {P : Prims ℝ} {hopping lattice T : ℝ} {cap : Option Int} {dim : Nat}
    {as : List (AddArgs ℝ)} {m : Model ℝ}
    (h : (Model.fromParameters hopping lattice T cap dim).adds P as = .ok m)
    (hb : (∀ a ∈ as, a.ctype = "BondPeierls") ∨ (∀ a ∈ as, a.ctype ≠ "BondPeierls"))
    (hl : hopping = 0 ∨ (0 < hopping ∧ lattice = 1)) : Physical m := by
  obtain ⟨-, h1, -, -, -, h2⟩ := adds_fixed as h
  refine ⟨shiftsOk_assembled h hb, C40_hermitian P hopping lattice T cap dim as m h, ?_⟩
  rw [h1, h2]
  exact hl

/-- C22, from the user's side: for every sequence of valid `add_` calls with built-in couplings on a
model with positive hopping and unit lattice constant (or no hopping), the system is built, the matrix is
nonsingular at every real `k` and `w` and every `eta > 0`, and both solvers return the one answer. -/
theorem C22_assembled (σ : SetOrder) (hopping lattice T : ℝ)
    (hl : hopping = 0 ∨ (0 < hopping ∧ lattice = 1)) (cap : Option Int) (hcap : ∀ c, cap = some c → 1 ≤ c)
    (as : List (AddArgs ℝ)) (hne : as ≠ []) (hc : Clean realPrims hopping T as)
    (hf : ((modes T as).map (·.freq)).Nodup)
    (hb : (∀ a ∈ as, a.ctype = "BondPeierls") ∨ (∀ a ∈ as, a.ctype ≠ "BondPeierls")) :
    ∃ m b, (Model.fromParameters hopping lattice T cap 1).adds realPrims as = .ok m ∧
      buildSystem σ m = .ok b ∧ ∀ k w eta : ℝ, 0 < eta →
      ∃ ls G, scaffold realPhys m ⟨k, w, eta⟩ (fullBasis b.eqs) b.eqs = .ok ls ∧
        (Matrix.of (fun i j : Fin (allEqs b.eqs).length => cooEntry ls.triples i j)).det ≠ 0 ∧
        (∀ spsolve, Exact spsolve →
          sparseSolve realPhys m ⟨k, w, eta⟩ (fullBasis b.eqs) b.eqs spsolve = .ok G) ∧
        denseSolve realPhys m ⟨k, w, eta⟩ (localBasis b.eqs) b.eqs = .ok (some G) := by
  obtain ⟨m, b, h1, ⟨ae, h2⟩, h3⟩ := C16_assembled σ realPrims C42_names hopping lattice T cap hcap as hne hc hf hb
  refine ⟨m, b, h1, h3, ?_⟩
  intro k w eta heta
  obtain ⟨ls, G, k1, k2, -, -, k3, k4⟩ :=
    C22_nonsingular σ m ae h2 b h3 (physical_assembled h1 hb hl) ⟨k, w, eta⟩ heta
  exact ⟨ls, G, k1, k2, k3, k4⟩

/-- C23 and C52, from the user's side: whatever a solver returns for the system of a model assembled by
valid calls, its spectral function is positive and its modulus at most `1 / eta`. -/
theorem C23_assembled (σ : SetOrder) (hopping lattice T : ℝ)
    (hl : hopping = 0 ∨ (0 < hopping ∧ lattice = 1)) (cap : Option Int) (hcap : ∀ c, cap = some c → 1 ≤ c)
    (as : List (AddArgs ℝ)) (hne : as ≠ []) (hc : Clean realPrims hopping T as)
    (hf : ((modes T as).map (·.freq)).Nodup)
    (hb : (∀ a ∈ as, a.ctype = "BondPeierls") ∨ (∀ a ∈ as, a.ctype ≠ "BondPeierls"))
    (m : Model ℝ) (b : Built ℝ) (hm : (Model.fromParameters hopping lattice T cap 1).adds realPrims as = .ok m)
    (hs : buildSystem σ m = .ok b) (k w eta : ℝ) (heta : 0 < eta) (G : ℂ)
    (hG : (∃ spsolve, Exact spsolve ∧
        sparseSolve realPhys m ⟨k, w, eta⟩ (fullBasis b.eqs) b.eqs spsolve = .ok G) ∨
      denseSolve realPhys m ⟨k, w, eta⟩ (localBasis b.eqs) b.eqs = .ok (some G)) :
    0 < -G.im / Real.pi ∧ ‖G‖ ≤ 1 / eta := by
  obtain ⟨m', b', h1, ⟨ae, h2⟩, h3⟩ := C16_assembled σ realPrims C42_names hopping lattice T cap hcap as hne hc hf hb
  rw [hm] at h1; cases h1
  rw [hs] at h3; cases h3
  have hp := physical_assembled hm hb hl
  exact ⟨(C23_spectral_positive σ m ae h2 b hs hp ⟨k, w, eta⟩ heta G hG).1,
    (C52_bounded σ m ae h2 b hs hp ⟨k, w, eta⟩ heta G hG).1⟩

/-- Exact solvers exist. -/
theorem exists_exact (K : Type) [Field K] : ∃ spsolve : LinSys K → Py (Nat → K), Exact spsolve := by
  classical
  refine ⟨fun ls => if h : ∃ x, Solution ls (cooRows ls.triples) x then .ok h.choose
    else .error .linAlgError, ?_⟩
  intro ls n hr _ _ hx _
  rw [← hr] at hx ⊢
  exact ⟨_, dif_pos hx, hx.choose_spec⟩

/-- The hypotheses are met by a Holstein–Peierls model and by a BondPeierls model at finite
temperature. -/
example (σ : SetOrder) : (∃ m b, (Model.fromParameters (1 : ℝ) 1 0 none 1).adds realPrims exCalls = .ok m ∧
      buildSystem σ m = .ok b ∧ ∃ G, denseSolve realPhys m ⟨0, -2, 1 / 10⟩ (localBasis b.eqs) b.eqs =
        .ok (some G) ∧ 0 < -G.im / Real.pi) ∧
    (∃ m b, (Model.fromParameters (1 : ℝ) 1 1 none 1).adds realPrims exBondCalls = .ok m ∧
      buildSystem σ m = .ok b ∧ ∃ G, denseSolve realPhys m ⟨0, -2, 1 / 10⟩ (localBasis b.eqs) b.eqs =
        .ok (some G) ∧ 0 < -G.im / Real.pi) := by
  constructor
  · obtain ⟨h1, h2, h3⟩ := exCalls_clean
    obtain ⟨m, b, k1, k2, k3⟩ := C22_assembled σ 1 1 0 (Or.inr ⟨one_pos, rfl⟩) none (by simp) exCalls
      (by simp [exCalls]) h1 h2 (Or.inr h3)
    obtain ⟨ls, G, -, -, -, k4⟩ := k3 0 (-2) (1 / 10) (by norm_num)
    exact ⟨m, b, k1, k2, G, k4, (C23_assembled σ 1 1 0 (Or.inr ⟨one_pos, rfl⟩) none (by simp) exCalls
      (by simp [exCalls]) h1 h2 (Or.inr h3) m b k1 k2 0 (-2) (1 / 10) (by norm_num) G (Or.inr k4)).1⟩
  · obtain ⟨h1, h2, h3⟩ := exBondCalls_clean
    obtain ⟨m, b, k1, k2, k3⟩ := C22_assembled σ 1 1 1 (Or.inr ⟨one_pos, rfl⟩) none (by simp) exBondCalls
      (by simp [exBondCalls]) h1 h2 (Or.inl h3)
    obtain ⟨ls, G, -, -, -, k4⟩ := k3 0 (-2) (1 / 10) (by norm_num)
    exact ⟨m, b, k1, k2, G, k4, (C23_assembled σ 1 1 1 (Or.inr ⟨one_pos, rfl⟩) none (by simp) exBondCalls
      (by simp [exBondCalls]) h1 h2 (Or.inl h3) m b k1 k2 0 (-2) (1 / 10) (by norm_num) G (Or.inr k4)).1⟩

end GGCE.Props
