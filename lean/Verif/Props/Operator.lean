import Verif.Props.Exact
import Verif.Proofs.FrameResolvent
import Verif.Proofs.Moments

/-!
Properties C56–C59: the solvers evaluate the resolvent of one bounded self-adjoint operator, and what follows
for the numbers they return.
-/

set_option linter.unusedSectionVars false

namespace GGCE.Props
open Spec Arr Complex ComplexConjugate Filter Topology MeasureTheory
open scoped InnerProductSpace

theorem energyAt_im (w eta : ℝ) : (energyAt w eta).im = eta := by
  unfold energyAt; simp

theorem inner_bare (f : States) : ⟪bare, f⟫_ℂ = f 0 := by
  classical
  unfold bare
  rw [lp.inner_single_left]
  simp

open Classical in
theorem bare_apply (n : Occ) : (bare : States) n = if n = 0 then 1 else 0 := by
  unfold bare
  rw [lp.single_apply]
  by_cases e : n = 0
  · subst e; simp
  · rw [Pi.single_eq_of_ne e, if_neg e]

theorem norm_bare : ‖bare‖ = 1 := by
  classical
  unfold bare
  rw [lp.norm_single (by norm_num)]
  simp

/-- `G` is what one of the solvers returns for the system `b` of the model `m` at the point `p` -/
def Returned (m : Model ℝ) (b : Built ℝ) (p : Point ℝ) (G : ℂ) : Prop :=
  (∃ spsolve, Exact spsolve ∧ sparseSolve realPhys m p (fullBasis b.eqs) b.eqs spsolve = .ok G) ∨
    denseSolve realPhys m p (localBasis b.eqs) b.eqs = .ok (some G)

/-- C56, for a well-formed model: at every crystal momentum, the restricted Hamiltonian is a bounded
self-adjoint operator `H`, given by its action on the phonon occupations seen from the electron, and for every
frequency and positive broadening both solvers return `⟨bare| (w + i eta - H)⁻¹ |bare⟩`. -/
theorem C56_operator (σ : SetOrder) (m : Model ℝ) (ae : Int) (hm : WellFormed m ae) (b : Built ℝ)
    (hb : buildSystem σ m = .ok b) (hp : Physical m) (k : ℝ) :
    ∃ H : States →L[ℂ] States, IsSelfAdjoint H ∧ (∀ f n, H f n = frame m ae k f n) ∧
      ∀ w eta : ℝ, 0 < eta → energyAt w eta ∈ resolventSet ℂ H ∧
        (∀ spsolve, Exact spsolve → sparseSolve realPhys m ⟨k, w, eta⟩ (fullBasis b.eqs) b.eqs spsolve =
          .ok ⟪bare, resolvent H (energyAt w eta) bare⟫_ℂ) ∧
        denseSolve realPhys m ⟨k, w, eta⟩ (localBasis b.eqs) b.eqs =
          .ok (some ⟪bare, resolvent H (energyAt w eta) bare⟫_ℂ) := by
  classical
  obtain ⟨c, hs⟩ := hp.shifts
  have hsa : IsSelfAdjoint (hamOp m ae k) := hamOp_selfAdjoint hm.toListsOk hs hp.adj
  refine ⟨hamOp m ae k, hsa, hamOp_apply hm.toListsOk, ?_⟩
  intro w eta heta
  have hz := mem_resolventSet_of_im hsa (z := energyAt w eta) (by rw [energyAt_im]; exact heta.ne')
  refine ⟨hz, ?_⟩
  set u : States := resolvent (hamOp m ae k) (energyAt w eta) bare with hu
  have hmot : ∀ n, energyAt w eta * u n - frame m ae k u n = if n = 0 then 1 else 0 := by
    intro n
    have h1 := congrArg (fun f : States => f n) (resolvent_apply hz bare)
    have h2 : energyAt w eta * u n - hamOp m ae k u n = (bare : States) n := h1
    rw [hamOp_apply hm.toListsOk] at h2
    rw [h2, bare_apply]
  have hR := unframe_resolvent (m := m) (ae := ae) (k := k) (w := w) (eta := eta) (u := u)
    ⟨‖u‖, fun n => lp.norm_apply_le_norm (by norm_num) u n⟩ (fun n _ => hmot n)
  have h0 : unframe m ae k u 0 0 = ⟪bare, u⟫_ℂ := by
    rw [inner_bare]
    unfold unframe
    rw [if_pos (allowed_zero hm.toShaped), occFact_zero]
    simp
  obtain ⟨Ψ, -, h2, h3, h4⟩ := C55_exact σ m ae hm b hb hp ⟨k, w, eta⟩ heta
  have h5 := h2 _ hR
  rw [← h5, h0] at h4
  refine ⟨fun sp hsp => ?_, h4⟩
  have := h3 sp hsp
  rw [← h5, h0] at this
  exact this


/-- C56 in short: every returned number is the matrix element of the resolvent. -/
theorem C56_returned (σ : SetOrder) (m : Model ℝ) (ae : Int) (hm : WellFormed m ae) (b : Built ℝ)
    (hb : buildSystem σ m = .ok b) (hp : Physical m) (k : ℝ) :
    ∃ H : States →L[ℂ] States, IsSelfAdjoint H ∧ (∀ f n, H f n = frame m ae k f n) ∧
      ∀ w eta : ℝ, 0 < eta → ∀ G, Returned m b ⟨k, w, eta⟩ G → G = green H bare (energyAt w eta) := by
  obtain ⟨H, h1, h2, h3⟩ := C56_operator σ m ae hm b hb hp k
  refine ⟨H, h1, h2, fun w eta heta G hG => ?_⟩
  obtain ⟨-, h4, h5⟩ := h3 w eta heta
  rcases hG with ⟨sp, e1, e2⟩ | hG
  · rw [h4 sp e1] at e2; cases e2; rfl
  · rw [h5] at hG; cases hG; rfl

/-- C56, from the user's side. -/
theorem C56_assembled (σ : SetOrder) (hopping lattice T : ℝ)
    (hl : hopping = 0 ∨ (0 < hopping ∧ lattice = 1)) (cap : Option Int) (hcap : ∀ c, cap = some c → 1 ≤ c)
    (as : List (AddArgs ℝ)) (hne : as ≠ []) (hc : Clean realPrims hopping T as)
    (hf : ((modes T as).map (·.freq)).Nodup)
    (hb : (∀ a ∈ as, a.ctype = "BondPeierls") ∨ (∀ a ∈ as, a.ctype ≠ "BondPeierls")) :
    ∃ m b ae, (Model.fromParameters hopping lattice T cap 1).adds realPrims as = .ok m ∧
      m.absExtent = some ae ∧ buildSystem σ m = .ok b ∧ ∀ k : ℝ,
      ∃ H : States →L[ℂ] States, IsSelfAdjoint H ∧ (∀ f n, H f n = frame m ae k f n) ∧
        ∀ w eta : ℝ, 0 < eta → energyAt w eta ∈ resolventSet ℂ H ∧
          (∀ spsolve, Exact spsolve → sparseSolve realPhys m ⟨k, w, eta⟩ (fullBasis b.eqs) b.eqs spsolve =
            .ok ⟪bare, resolvent H (energyAt w eta) bare⟫_ℂ) ∧
          denseSolve realPhys m ⟨k, w, eta⟩ (localBasis b.eqs) b.eqs =
            .ok (some ⟪bare, resolvent H (energyAt w eta) bare⟫_ℂ) := by
  obtain ⟨m, b, h1, ⟨ae, h2⟩, h3⟩ := C16_assembled σ realPrims C42_names hopping lattice T cap hcap as hne hc hf hb
  exact ⟨m, b, ae, h1, h2.absExtent, h3, fun k => C56_operator σ m ae h2 b h3 (physical_assembled h1 hb hl) k⟩

/-! ### C57 -/

theorem frame_conj (m : Model ℝ) (ae : ℤ) (k : ℝ) (f : Occ → ℂ) (n : Occ) :
    frame m ae (-k) (fun n => conj (f n)) n = conj (frame m ae k f n) := by
  unfold frame
  by_cases hn : Allowed m ae n
  · rw [if_pos hn, if_pos hn]
    simp only [map_add, map_sub, map_mul, Complex.conj_ofReal, ← Complex.exp_conj, Complex.conj_I, map_neg,
      map_list_sum, List.map_map]
    congr 1
    · congr 3
      · congr 2
        push_cast
        ring
      · congr 2
        push_cast
        ring
    · congr 1
      apply List.map_congr_left
      intro h _
      simp only [Function.comp, map_mul, Complex.conj_ofReal, ← Complex.exp_conj, Complex.conj_I, map_neg, map_intCast]
      congr 1
      · congr 2
        push_cast
        ring
      · split
        · rfl
        · rw [map_zero]
  · rw [if_neg hn, if_neg hn, map_zero]

/-- **C57**. Momenta `k` and `-k` give the same Green's function. -/
theorem C57_symmetric (σ : SetOrder) (m : Model ℝ) (ae : Int) (hm : WellFormed m ae) (b : Built ℝ)
    (hb : buildSystem σ m = .ok b) (hp : Physical m) (k w eta : ℝ) (heta : 0 < eta) (G G' : ℂ)
    (hG : Returned m b ⟨k, w, eta⟩ G) (hG' : Returned m b ⟨-k, w, eta⟩ G') : G' = G := by
  obtain ⟨H, h1, h2, h3⟩ := C56_returned σ m ae hm b hb hp k
  obtain ⟨H', h1', h2', h3'⟩ := C56_returned σ m ae hm b hb hp (-k)
  rw [h3 w eta heta G hG, h3' w eta heta G' hG']
  set z := energyAt w eta
  have hz : z.im ≠ 0 := by rw [energyAt_im]; exact heta.ne'
  have hzc : (conj z).im ≠ 0 := by rw [Complex.conj_im]; exact neg_ne_zero.2 hz
  set u : States := resolvent H (conj z) bare with hu
  have hmot := resolvent_apply (mem_resolventSet_of_im h1 hzc) bare
  have hstar : z • star u - H' (star u) = bare := by
    ext n
    have e1 : conj z * u n - H u n = (bare : States) n := congrArg (fun f : States => f n) hmot
    show z * conj (u n) - H' (star u) n = _
    rw [h2']
    have e2 : frame m ae (-k) (star u : States) n = conj (frame m ae k u n) := frame_conj m ae k u n
    rw [e2, ← h2, ← Complex.conj_conj z, ← map_mul, ← map_sub, e1, bare_apply]
    split <;> simp
  have h4 := resolvent_unique (mem_resolventSet_of_im h1' hz) hstar
  have h5 : green H' bare z = conj (green H bare (conj z)) := by
    unfold green
    rw [← h4, inner_bare, inner_bare]
    rfl
  rw [h5, green_conj h1 bare hz, Complex.conj_conj]

/-! ### C58 -/

/-- **C58**. The Green's function is Lipschitz in frequency and broadening, with a constant that depends on the
broadenings only: on a frequency grid of step `δ`, neighbouring values differ by at most `δ / eta²`. -/
theorem C58_lipschitz (σ : SetOrder) (m : Model ℝ) (ae : Int) (hm : WellFormed m ae) (b : Built ℝ)
    (hb : buildSystem σ m = .ok b) (hp : Physical m) (k w w' eta eta' : ℝ) (heta : 0 < eta) (heta' : 0 < eta') (G G' : ℂ)
    (hG : Returned m b ⟨k, w, eta⟩ G) (hG' : Returned m b ⟨k, w', eta'⟩ G') :
    ‖G - G'‖ ≤ Real.sqrt ((w - w') ^ 2 + (eta - eta') ^ 2) / (eta * eta') := by
  obtain ⟨H, h1, h2, h3⟩ := C56_returned σ m ae hm b hb hp k
  rw [h3 w eta heta G hG, h3 w' eta' heta' G' hG']
  have h := green_lipschitz h1 norm_bare (z := energyAt w eta) (z' := energyAt w' eta')
    (by rw [energyAt_im]; exact heta.ne') (by rw [energyAt_im]; exact heta'.ne')
  rw [energyAt_im, energyAt_im, abs_of_pos heta, abs_of_pos heta'] at h
  refine h.trans (le_of_eq ?_)
  congr 1
  have : energyAt w eta - energyAt w' eta' = ((w - w' : ℝ) : ℂ) + ((eta - eta' : ℝ) : ℂ) * I := by
    unfold energyAt; push_cast; ring
  rw [this, Complex.norm_add_mul_I]

/-- C58 on a grid: at fixed broadening, the spectral function `-Im G / π` changes by at most
`|w - w'| / (π eta²)`. -/
theorem C58_grid (σ : SetOrder) (m : Model ℝ) (ae : Int) (hm : WellFormed m ae) (b : Built ℝ)
    (hb : buildSystem σ m = .ok b) (hp : Physical m) (k w w' eta : ℝ) (heta : 0 < eta) (G G' : ℂ)
    (hG : Returned m b ⟨k, w, eta⟩ G) (hG' : Returned m b ⟨k, w', eta⟩ G') :
    |-G.im / Real.pi - -G'.im / Real.pi| ≤ |w - w'| / (Real.pi * eta ^ 2) := by
  have h := C58_lipschitz σ m ae hm b hb hp k w w' eta eta heta heta G G' hG hG'
  rw [sub_self, zero_pow two_ne_zero, add_zero, Real.sqrt_sq_eq_abs] at h
  have h1 := (Complex.abs_im_le_norm (G - G')).trans h
  rw [Complex.sub_im] at h1
  have hpi := Real.pi_pos
  rw [show -G.im / Real.pi - -G'.im / Real.pi = -(G.im - G'.im) / Real.pi by ring, abs_div, abs_neg, abs_of_pos hpi]
  rw [div_le_iff₀ hpi]
  refine h1.trans (le_of_eq ?_)
  field_simp

/-! ### C59 -/

theorem energyAt_eq (w eta : ℝ) : energyAt w eta = w + eta * I := by unfold energyAt; ring

/-- **C59**, spectral weight. At every momentum, broadening and truncation, the spectral function computed from
the returned numbers integrates to one. -/
theorem C59_weight (σ : SetOrder) (m : Model ℝ) (ae : Int) (hm : WellFormed m ae) (b : Built ℝ)
    (hb : buildSystem σ m = .ok b) (hp : Physical m) (k eta : ℝ) (heta : 0 < eta) (G : ℝ → ℂ)
    (hG : ∀ w, Returned m b ⟨k, w, eta⟩ (G w)) :
    Integrable (fun w => -(G w).im / Real.pi) ∧ ∫ w, -(G w).im / Real.pi = 1 := by
  obtain ⟨H, h1, h2, h3⟩ := C56_returned σ m ae hm b hb hp k
  have e : G = fun w : ℝ => green H bare (w + eta * I) := by
    funext w
    rw [h3 w eta heta _ (hG w), energyAt_eq]
  subst e
  obtain ⟨h4, h5⟩ := green_weight h1 norm_bare heta
  refine ⟨h4.neg.div_const _, ?_⟩
  rw [integral_div, integral_neg, h5, neg_neg, div_self Real.pi_ne_zero]

theorem jump_zero_ne (h : SingleTerm ℝ) : jump h 0 ≠ 0 := by
  intro e
  have h1 := congrArg (fun n : Occ => n.shift (electronSite h 0)) e
  unfold jump at h1
  simp only [shift_shift, neg_add_cancel, shift_zero, zero_shift] at h1
  have h2 : (0 : ℤ) + (if h.phononIndex = h.phononIndex ∧ bosonSite h 0 = bosonSite h 0 then Dag.delta h.dag else 0) = 0 :=
    congrFun (congrFun h1 h.phononIndex) (bosonSite h 0)
  rw [if_pos ⟨rfl, rfl⟩] at h2
  cases hd : h.dag <;> rw [hd] at h2 <;> simp [Dag.delta] at h2

theorem mean_energy {m : Model ℝ} {ae : ℤ} (hm : Shaped m ae) {k : ℝ} {H : States →L[ℂ] States}
    (h2 : ∀ f n, H f n = frame m ae k f n) :
    ⟪bare, H bare⟫_ℂ = ((-(2 * m.ham.hopping * Real.cos (k * m.latticeConstant)) : ℝ) : ℂ) := by
  rw [inner_bare, h2]
  unfold frame
  rw [if_pos (allowed_zero hm)]
  have e1 : occEnergy m 0 = 0 := by unfold occEnergy; simp
  have e2 : (m.ham.terms.map (fun h : SingleTerm ℝ => (h.coupling : ℂ) * (ladder h 0 : ℂ) *
        exp (-(I * (k * m.latticeConstant * electronSite h 0))) *
        open Classical in if Allowed m ae (jump h 0) then (bare : States) (jump h 0) else 0)).sum = 0 := by
    apply List.sum_eq_zero
    intro x hx
    obtain ⟨h, -, rfl⟩ := List.mem_map.1 hx
    rw [bare_apply, if_neg (jump_zero_ne h), ite_self, mul_zero]
  rw [e2, e1, zero_shift, zero_shift, bare_apply, if_pos rfl]
  push_cast
  rw [Complex.cos, mul_comm I, ← neg_mul]
  ring

/-- **C59**, first moment. The mean frequency of the spectral function is the energy `-2 t cos(k a)` of the free
electron, whatever the coupling and the truncation. (A Lorentzian has no first moment in the strict sense: the
integral is over symmetric intervals.) -/
theorem C59_moment (σ : SetOrder) (m : Model ℝ) (ae : Int) (hm : WellFormed m ae) (b : Built ℝ)
    (hb : buildSystem σ m = .ok b) (hp : Physical m) (k eta : ℝ) (heta : 0 < eta) (G : ℝ → ℂ)
    (hG : ∀ w, Returned m b ⟨k, w, eta⟩ (G w)) :
    Tendsto (fun L : ℝ => ∫ w in (-L)..L, w * (-(G w).im / Real.pi)) atTop
      (𝓝 (-(2 * m.ham.hopping * Real.cos (k * m.latticeConstant)))) := by
  obtain ⟨H, h1, h2, h3⟩ := C56_returned σ m ae hm b hb hp k
  have e : G = fun w : ℝ => green H bare (w + eta * I) := by
    funext w
    rw [h3 w eta heta _ (hG w), energyAt_eq]
  subst e
  have h4 := (green_moment h1 norm_bare heta (mean_energy hm.toShaped h2)).const_mul (-(1 / Real.pi))
  have hpi := Real.pi_ne_zero
  rw [show -(1 / Real.pi) * -(Real.pi * -(2 * m.ham.hopping * Real.cos (k * m.latticeConstant))) =
    -(2 * m.ham.hopping * Real.cos (k * m.latticeConstant)) by field_simp] at h4
  refine h4.congr (fun L => ?_)
  rw [← intervalIntegral.integral_const_mul]
  congr 1
  funext x
  ring

/-- The hypotheses of C56–C59 are met by a Holstein–Peierls model and by a BondPeierls model at finite temperature. -/
example (σ : SetOrder) (k eta : ℝ) (heta : 0 < eta) :
    (∃ (m : Model ℝ) (b : Built ℝ) (ae : ℤ) (G : ℝ → ℂ), (Model.fromParameters (1 : ℝ) 1 0 none 1).adds realPrims exCalls = .ok m ∧
      WellFormed m ae ∧ Physical m ∧ buildSystem σ m = .ok b ∧ ∀ w, Returned m b ⟨k, w, eta⟩ (G w)) ∧
    (∃ (m : Model ℝ) (b : Built ℝ) (ae : ℤ) (G : ℝ → ℂ), (Model.fromParameters (1 : ℝ) 1 1 none 1).adds realPrims exBondCalls = .ok m ∧
      WellFormed m ae ∧ Physical m ∧ buildSystem σ m = .ok b ∧ ∀ w, Returned m b ⟨k, w, eta⟩ (G w)) := by
  constructor
  · obtain ⟨h1, h2, h3⟩ := exCalls_clean
    obtain ⟨m, b, k1, ⟨ae, k2⟩, k3⟩ := C16_assembled σ realPrims C42_names 1 1 0 none (by simp) exCalls
      (by simp [exCalls]) h1 h2 (Or.inr h3)
    have hp := physical_assembled k1 (Or.inr h3) (Or.inr ⟨one_pos, rfl⟩)
    obtain ⟨H, -, -, k4⟩ := C56_operator σ m ae k2 b k3 hp k
    exact ⟨m, b, ae, _, k1, k2, hp, k3, fun w => Or.inr (k4 w eta heta).2.2⟩
  · obtain ⟨h1, h2, h3⟩ := exBondCalls_clean
    obtain ⟨m, b, k1, ⟨ae, k2⟩, k3⟩ := C16_assembled σ realPrims C42_names 1 1 1 none (by simp) exBondCalls
      (by simp [exBondCalls]) h1 h2 (Or.inl h3)
    have hp := physical_assembled k1 (Or.inl h3) (Or.inr ⟨one_pos, rfl⟩)
    obtain ⟨H, -, -, k4⟩ := C56_operator σ m ae k2 b k3 hp k
    exact ⟨m, b, ae, _, k1, k2, hp, k3, fun w => Or.inr (k4 w eta heta).2.2⟩

end GGCE.Props
