import Verif.Proofs.Field

/-! The linear equations of the code and the field equations of the clouds have the same solutions. -/

set_option linter.unusedSectionVars false

namespace GGCE
open Spec Arr Complex ComplexConjugate

/-- a bounded amplitude without source vanishes -/
theorem bounded_zero {z : ℂ} {t : ℝ} {g f : ℤ → ℂ} (hg : Props.Propagates z t g)
    (hs : Summable (fun d => ‖g d‖)) {C : ℝ} (hC : ∀ j, ‖f j‖ ≤ C)
    (hf : ∀ j, z * f j + t * (f (j - 1) + f (j + 1)) = 0) (i : ℤ) : f i = 0 := by
  have hsum : ∀ (a b : ℤ), Summable (fun j => g (j + a) * f (i - j + b)) := by
    intro a b
    refine Summable.of_norm_bounded (g := fun j => ‖g (j + a)‖ * C)
      (((Equiv.addRight a).summable_iff.2 hs).mul_right C) ?_
    intro j
    rw [norm_mul]
    exact mul_le_mul_of_nonneg_left (hC _) (norm_nonneg _)
  have h1 : f i = ∑' j, (z * g j + t * (g (j - 1) + g (j + 1))) * f (i - j) := by
    rw [tsum_eq_single 0]
    · rw [hg 0, if_pos rfl]; simp
    · intro j hj
      rw [hg j, if_neg hj, zero_mul]
  have h2 : ∀ a : ℤ, ∑' j, g (j + a) * f (i - j) = ∑' j, g j * f (i - j + a) := by
    intro a
    rw [← (Equiv.addRight a).tsum_eq (fun j => g j * f (i - j + a))]
    apply tsum_congr
    intro j
    simp only [Equiv.coe_addRight]
    rw [show i - (j + a) + a = i - j by ring]
  have e1 : ∑' j, (z * g j + t * (g (j - 1) + g (j + 1))) * f (i - j) =
      z * ∑' j, g j * f (i - j) + t * (∑' j, g (j + -1) * f (i - j) + ∑' j, g (j + 1) * f (i - j)) := by
    have s0 := hsum 0 0
    have s1 := hsum (-1) 0
    have s2 := hsum 1 0
    simp only [add_zero] at s0 s1 s2
    rw [← Summable.tsum_add s1 s2, ← tsum_mul_left, ← tsum_mul_left,
      ← Summable.tsum_add (s0.mul_left z) ((s1.add s2).mul_left _)]
    apply tsum_congr
    intro j
    rw [sub_eq_add_neg j 1]; ring
  have e2 : z * ∑' j, g j * f (i - j) + t * (∑' j, g j * f (i - j + -1) + ∑' j, g j * f (i - j + 1)) = 0 := by
    have s0 := hsum 0 0
    have s1 := hsum 0 (-1)
    have s2 := hsum 0 1
    simp only [add_zero] at s0 s1 s2
    rw [← Summable.tsum_add s1 s2, ← tsum_mul_left, ← tsum_mul_left,
      ← Summable.tsum_add (s0.mul_left z) ((s1.add s2).mul_left _)]
    rw [show (fun j => z * (g j * f (i - j)) + t * (g j * f (i - j + -1) + g j * f (i - j + 1))) =
      fun _ => 0 from ?_]
    · simp
    · funext j
      have := hf (i - j)
      rw [sub_eq_add_neg (i - j) 1] at this
      linear_combination g j * this
  rw [h1, e1, h2, h2, e2]

variable {m : Model ℝ} {ae : ℤ} {L : Layout ℝ} {c : ℤ} {p : Point ℝ} {U : PyStr → ℂ} {ψ : Arr → ℤ → ℂ}

open Classical in
/-- the unknowns of the code are the amplitudes of the clouds -/
def Reads (m : Model ℝ) (ae : ℤ) (L : Layout ℝ) (U : PyStr → ℂ) (ψ : Arr → ℤ → ℂ) : Prop :=
  ∀ a, Node m ae a → ∀ t ∈ (L.eqn a).terms,
    U t.id = if t.config = vac m then ψ (vac m) 0 else ψ t.config t.fArg.tw

theorem Reads.amp_cloud (hr : Reads m ae L U ψ) (hpl : ∀ d, ψ (vac m) d = ph m p d * ψ (vac m) 0) {a : Arr}
    (ha : InTruncation m ae a) {t : Term ℝ} (ht : t ∈ (L.eqn a).terms) {h : SingleTerm ℝ} {γ : ℤ}
    (hp : Produced m ae a h γ t) :
    amp m p U t = (h.coupling : ℂ) * (factor h a γ : ℂ) * ph m p (-(2 * offT t)) *
      ψ t.config (h.phi.tw - 2 * γ + 2 * offT t) := by
  have hk' : t.kind ≠ .eom := by rw [hp.kind]; cases h.dag <;> simp
  have hpref : (t.pref : ℂ) = (h.coupling : ℂ) * (factor h a γ : ℂ) := by
    rw [hp.pref]
    unfold factor
    cases h.dag <;> simp
  unfold amp
  rw [hpref, hr a (Or.inr ha) t ht]
  rcases hp.cloud with ⟨k0, o, k3, k1, k2⟩ | ⟨k0, k3, k1, k2⟩
  · have ho : offT t = o := by
      unfold offT; rw [if_neg (not_or.2 ⟨total_ne_zero k0, hk'⟩)]; omega
    have hv : t.config ≠ vac m := fun e => total_ne_zero k0 (e ▸ vac_total m)
    rw [ho, k1, k2, if_neg hv]
  · have ho : offT t = 0 := if_pos (Or.inl (total_of_vacuum k0))
    have hv : t.config = vac m := vacuum_eq k0 (by rw [k3.1, ha.2.1])
    rw [ho, if_pos hv, k2, hv, mul_zero, add_zero, hpl (h.phi.tw - 2 * γ), neg_zero, ph_zero]
    ring

theorem Reads.amp_vac (hr : Reads m ae L U ψ) (hm : Shaped m ae) {h : SingleTerm ℝ} (hh : h ∈ m.ham.terms)
    (ht : eomOf m h ∈ (L.eqn (vac m)).terms) :
    amp m p U (eomOf m h) = (h.coupling : ℂ) * ph m p (h.psi.tw - h.phi.tw) *
      ψ (eomOf m h).config h.phi.tw := by
  have hcl : InTruncation m ae (eomOf m h).config := single_bounded hm.bounded (hm.index h hh)
  have hv : (eomOf m h).config ≠ vac m := fun e => total_ne_zero hcl (e ▸ vac_total m)
  unfold amp
  rw [hr _ (Or.inl rfl) _ ht, if_neg hv]
  rfl

/-- the sum of the terms of the Green's function's equation -/
theorem Reads.sum_vac (hr : Reads m ae L U ψ) (S : Setting m ae L c p) :
    ((L.eqn (vac m)).terms.map (amp m p U)).sum =
      (m.ham.terms.map (fun h => ∑ q ∈ links m ae (vac m) h,
        (h.coupling : ℂ) * ph m p (h.psi.tw - h.phi.tw) * ψ q.2.1 h.phi.tw)).sum := by
  refine S.hL.sum_terms S.hm.toShaped (Or.inl rfl) (amp m p U)
    (fun h _ b _ => (h.coupling : ℂ) * ph m p (h.psi.tw - h.phi.tw) * ψ b h.phi.tw) ?_
  rintro h hh γ t ht (⟨e, -⟩ | ⟨-, -, -, rfl⟩)
  · exact absurd e not_truncation_vac
  · exact hr.amp_vac S.hm.toShaped hh ht

/-- the sources of a cloud -/
theorem Reads.sum_cloud (hr : Reads m ae L U ψ) (hpl : ∀ d, ψ (vac m) d = ph m p d * ψ (vac m) 0)
    (S : Setting m ae L c p) {a : Arr} (ha : InTruncation m ae a) (j : ℤ) :
    ((L.eqn a).terms.map (fun t => if j + (c + gtw t) / 2 = 0 then amp m p U t else 0)).sum =
      (m.ham.terms.map (fun h => ∑ q ∈ links m ae a h,
        if c + 2 * j = h.phi.tw - h.psi.tw - 2 * q.1 then
          (h.coupling : ℂ) * (factor h a q.1 : ℂ) * ph m p (-(2 * q.2.2)) *
            ψ q.2.1 (h.phi.tw - 2 * q.1 + 2 * q.2.2) else 0)).sum := by
  refine S.hL.sum_terms S.hm.toShaped (Or.inr ha) _
    (fun h γ b o => if c + 2 * j = h.phi.tw - h.psi.tw - 2 * γ then
          (h.coupling : ℂ) * (factor h a γ : ℂ) * ph m p (-(2 * o)) *
            ψ b (h.phi.tw - 2 * γ + 2 * o) else 0) ?_
  rintro h hh γ t ht (⟨-, hp⟩ | ⟨e, -⟩)
  · obtain ⟨g, hg, hg'⟩ := hp.gArg
    have hgt : gtw t = g.tw := by unfold gtw; rw [hg]; rfl
    have hpar := S.gtw_parity ha ht
    have hiff : j + (c + gtw t) / 2 = 0 ↔ c + 2 * j = h.phi.tw - h.psi.tw - 2 * γ := by omega
    simp only [hiff]
    rw [hr.amp_cloud hpl ha ht hp]
  · exact absurd (e ▸ ha) not_truncation_vac

/-- the amplitude produced by the sources of a cloud -/
noncomputable def emitted (m : Model ℝ) (L : Layout ℝ) (p : Point ℝ) (c : ℤ) (U : PyStr → ℂ) (a : Arr) (j : ℤ) : ℂ :=
  -((L.eqn a).terms.map (fun t => amp m p U t *
    realPhys.g0 ((j + (c + gtw t) / 2 : ℤ) : ℝ) (p.w - energy m a) m.latticeConstant p.eta m.ham.hopping)).sum

theorem Setting.emitted_summable (S : Setting m ae L c p) (a : Arr) :
    Summable (fun j => ‖emitted m L p c U a j‖) := by
  obtain ⟨-, hsum⟩ := g0_good (w := p.w - energy m a) (a := m.latticeConstant) S.eta S.lattice
  have : ∀ l : List (Term ℝ), Summable (fun j : ℤ => ‖(l.map (fun t => amp m p U t *
    realPhys.g0 ((j + (c + gtw t) / 2 : ℤ) : ℝ) (p.w - energy m a) m.latticeConstant p.eta m.ham.hopping)).sum‖) := by
    intro l
    induction l with
    | nil => simp
    | cons t l ih =>
      simp only [List.map_cons, List.sum_cons]
      have h1 : Summable (fun j : ℤ => ‖amp m p U t * realPhys.g0 ((j + (c + gtw t) / 2 : ℤ) : ℝ)
          (p.w - energy m a) m.latticeConstant p.eta m.ham.hopping‖) := by
        simp only [norm_mul]
        exact ((Equiv.addRight ((c + gtw t) / 2)).summable_iff.2 hsum).mul_left _
      exact Summable.of_nonneg_of_le (fun _ => norm_nonneg _) (fun _ => norm_add_le _ _) (h1.add ih)
  refine (this (L.eqn a).terms).congr (fun j => ?_)
  unfold emitted
  rw [norm_neg]

theorem Setting.emitted_motion (S : Setting m ae L c p) (a : Arr) (j : ℤ) :
    ((((p.w - energy m a : ℝ) : ℂ)) + p.eta * I) * emitted m L p c U a j +
      m.ham.hopping * (emitted m L p c U a (j - 1) + emitted m L p c U a (j + 1)) =
    -((L.eqn a).terms.map (fun t => if j + (c + gtw t) / 2 = 0 then amp m p U t else 0)).sum := by
  obtain ⟨hprop, -⟩ := g0_good (w := p.w - energy m a) (a := m.latticeConstant) S.eta S.lattice
  unfold emitted
  generalize (L.eqn a).terms = l
  induction l with
  | nil => simp
  | cons t l ih =>
    simp only [List.map_cons, List.sum_cons]
    have h1 := hprop (j + (c + gtw t) / 2)
    have h2 : (if j + (c + gtw t) / 2 = 0 then amp m p U t else 0) =
        amp m p U t * (if j + (c + gtw t) / 2 = 0 then 1 else 0) := by split <;> simp
    simp only at h1
    rw [h2, ← h1, show j - 1 + (c + gtw t) / 2 = j + (c + gtw t) / 2 - 1 by ring,
      show j + 1 + (c + gtw t) / 2 = j + (c + gtw t) / 2 + 1 by ring]
    linear_combination ih

/-- the extended unknowns of the code -/
theorem Setting.psi_eq_emitted (S : Setting m ae L c p) {a : Arr} (ha : InTruncation m ae a) (j : ℤ) :
    psi m L p (fun _ => True) U a (c + 2 * j) = emitted m L p c U a j := by
  have hv : a ≠ vac m := fun e => total_ne_zero ha (e ▸ vac_total m)
  unfold psi emitted
  rw [if_neg hv, if_pos trivial]
  congr 2
  apply List.map_congr_left
  intro t ht
  have hpar := S.gtw_parity ha ht
  rw [show c + 2 * j + gtw t = 2 * (j + (c + gtw t) / 2) by omega]
  congr 2
  push_cast; ring

/-- amplitudes that satisfy the field equations are those produced by the sources -/
theorem FieldEq.eq_emitted (hF : FieldEq m ae c p ψ) (hr : Reads m ae L U ψ) (S : Setting m ae L c p) {a : Arr}
    (ha : InTruncation m ae a) (j : ℤ) : ψ a (c + 2 * j) = emitted m L p c U a j := by
  obtain ⟨hprop, hsum⟩ := g0_good (w := p.w - energy m a) (a := m.latticeConstant) S.eta S.lattice
  obtain ⟨C, hC⟩ := hF.bounded a ha
  have hs := S.emitted_summable (U := U) a
  have hb : ∀ j, ‖ψ a (c + 2 * j) - emitted m L p c U a j‖ ≤ C + ∑' i, ‖emitted m L p c U a i‖ := by
    intro j
    refine (norm_sub_le _ _).trans (add_le_add (hC j) ?_)
    exact hs.le_tsum j (fun _ _ => norm_nonneg _)
  have h0 := bounded_zero hprop hsum (f := fun j => ψ a (c + 2 * j) - emitted m L p c U a j) hb (by
    intro j
    have e1 := hF.cloud a ha j
    have e2 := S.emitted_motion (U := U) a j
    rw [hr.sum_cloud hF.plane S ha j] at e2
    push_cast at e1 e2 ⊢
    linear_combination e1 - e2) j
  exact sub_eq_zero.1 h0

/-- the code's equation of the Green's function -/
theorem Setting.vac_iff (S : Setting m ae L c p) {δ : Num} (hδ : δ ∈ L.deltas (vac m)) :
    (U (full (L.eqn (vac m)) δ).id +
      ((full (L.eqn (vac m)) δ).terms.map (fun t => coefV realPhys m p t * U t.id)).sum =
      realPhys.G0 p.k p.w m.latticeConstant p.eta m.ham.hopping) ↔
    (p.w + I * p.eta + 2 * m.ham.hopping * Real.cos (p.k * m.latticeConstant)) * U "{G}[0.0]".toList +
      ((L.eqn (vac m)).terms.map (amp m p U)).sum = 1 := by
  have hn : Node m ae (vac m) := Or.inl rfl
  obtain ⟨-, h4, -⟩ := Props.C25_free_weight p.k p.w m.latticeConstant m.ham.hopping p.eta S.eta
  have hsum : ((full (L.eqn (vac m)) δ).terms.map (fun t => coefV realPhys m p t * U t.id)).sum =
      realPhys.G0 p.k p.w m.latticeConstant p.eta m.ham.hopping *
        ((L.eqn (vac m)).terms.map (amp m p U)).sum := by
    rw [show (full (L.eqn (vac m)) δ).terms = (L.eqn (vac m)).terms.map (incr δ) from rfl, List.map_map,
      ← List.sum_map_mul_left]
    congr 1
    apply List.map_congr_left
    intro t ht
    obtain ⟨h, hh, γ, hf⟩ := S.from_mem hn ht
    rcases hf with ⟨e, -⟩ | ⟨-, -, -, rfl⟩
    · exact absurd (vac_total m) (total_ne_zero e)
    · simp only [Function.comp, incr_id]
      show _ = _ * ((h.coupling : ℂ) * ph m p (h.psi.tw - h.phi.tw) * U (eomOf m h).id)
      have : coefV realPhys m p (incr δ (eomOf m h)) = (h.coupling : ℂ) *
          realPhys.G0 p.k p.w m.latticeConstant p.eta m.ham.hopping * ph m p (h.psi.tw - h.phi.tw) := rfl
      rw [this]; ring
  rw [S.vac_id hδ, hsum]
  set G0 := realPhys.G0 p.k p.w m.latticeConstant p.eta m.ham.hopping
  have hG0 : G0 ≠ 0 := G0_ne_zero m p S.eta
  constructor
  · intro h
    apply mul_left_cancel₀ hG0
    linear_combination h + U "{G}[0.0]".toList * h4
  · intro h
    linear_combination G0 * h - U "{G}[0.0]".toList * h4

/-- solutions of the code's equations satisfy the field equations -/
theorem Setting.field (S : Setting m ae L c p) {b : Built ℝ} (hd : L.Describes m b)
    (hU : SolvesAll (coefV realPhys m p) (fun e => e.bias realPhys m p) (allEqs b.eqs) U) :
    FieldEq m ae c p (psi m L p (fun _ => True) U) ∧ Reads m ae L U (psi m L p (fun _ => True) U) := by
  have hs := S.solves hd hU
  have h0 : psi m L p (fun _ => True) U (vac m) 0 = U "{G}[0.0]".toList := by
    unfold psi; rw [if_pos rfl, ph_zero, one_mul]
  have hpl : ∀ d, psi m L p (fun _ => True) U (vac m) d = ph m p d * psi m L p (fun _ => True) U (vac m) 0 := by
    intro d
    rw [h0]; unfold psi; rw [if_pos rfl]
  have hr : Reads m ae L U (psi m L p (fun _ => True) U) := by
    intro a ha t ht
    by_cases hv : t.config = vac m
    · rw [if_pos hv, h0, S.term_vac (U := U) ha ht hv]
    · rw [if_neg hv]
      have hn := S.hL.term_node S.hm.toShaped ha ht
      exact S.term_cloud hs ha ht (hn.resolve_left hv)
  refine ⟨⟨hpl, ?_, ?_, ?_⟩, hr⟩
  · intro a ha
    have hs := S.emitted_summable (U := U) a
    refine ⟨∑' i, ‖emitted m L p c U a i‖, fun j => ?_⟩
    rw [S.psi_eq_emitted ha]
    exact hs.le_tsum j (fun _ _ => norm_nonneg _)
  · intro a ha j
    rw [S.psi_eq_emitted ha, S.psi_eq_emitted ha, S.psi_eq_emitted ha, ← hr.sum_cloud hpl S ha j]
    have := S.emitted_motion (U := U) a j
    push_cast at this ⊢
    linear_combination this
  · rw [← hr.sum_vac S, h0]
    obtain ⟨δ, hδ⟩ := List.exists_mem_of_ne_nil _
      (S.hL.deltas_ne_nil S.hm.toShaped (Or.inl rfl : Node m ae (vac m)))
    have := hs.green trivial δ hδ
    rw [one_mul] at this
    exact (S.vac_iff hδ).1 this

/-- amplitudes that satisfy the field equations give a solution of the code's equations -/
theorem FieldEq.solution (hF : FieldEq m ae c p ψ) (S : Setting m ae L c p) {b : Built ℝ}
    (hd : L.Describes m b) : ∃ U, SolvesAll (coefV realPhys m p) (fun e => e.bias realPhys m p) (allEqs b.eqs) U ∧
      Reads m ae L U ψ ∧ U "{G}[0.0]".toList = ψ (vac m) 0 := by
  classical
  let U : PyStr → ℂ := fun i =>
    if h : ∃ q : Arr × Num, Node m ae q.1 ∧ i = termId q.1 (some q.2) then
      (if h.choose.1 = vac m then ψ (vac m) 0 else ψ h.choose.1 h.choose.2.tw) else 0
  have hUi : ∀ a, Node m ae a → ∀ f : Num, U (termId a (some f)) = if a = vac m then ψ (vac m) 0 else ψ a f.tw := by
    intro a ha f
    have hex : ∃ q : Arr × Num, Node m ae q.1 ∧ termId a (some f) = termId q.1 (some q.2) := ⟨(a, f), ha, rfl⟩
    show (if h : _ then _ else _) = _
    rw [dif_pos hex]
    obtain ⟨k1, k2⟩ := hex.choose_spec
    generalize hex.choose = q at k1 k2
    obtain ⟨k3, k4⟩ := (termId_eq_iff ha.wf k1.wf).1 k2
    have hq : a = q.1 := by
      rcases k3 with ⟨e1, e2⟩ | e
      · rcases ha with rfl | ha
        · rcases k1 with k1 | k1
          · exact k1.symm
          · exact absurd e2 (total_ne_zero k1)
        · exact absurd e1 (total_ne_zero ha)
      · exact e
    have ht : f.tw = q.2.tw := by simpa using k4
    rw [← hq, ← ht]
  have hr : Reads m ae L U ψ := by
    intro a ha t ht
    exact hUi t.config (S.hL.term_node S.hm.toShaped ha ht) t.fArg
  have hG : U "{G}[0.0]".toList = ψ (vac m) 0 := by
    rw [← green_id m (f := ⟨false, 0⟩) rfl, hUi _ (Or.inl rfl), if_pos rfl]
  refine ⟨U, ?_, hr, hG⟩
  intro e he
  obtain ⟨a, ha, δ, hδ, rfl⟩ := (S.hL.mem_allEqs S.hm.toListsOk hd e).1 he
  rcases ha with rfl | ha
  · have hb : (full (L.eqn (vac m)) δ).bias realPhys m p =
        realPhys.G0 p.k p.w m.latticeConstant p.eta m.ham.hopping := by
      unfold Equation.bias; rw [S.hL.eqn_vac]; rfl
    beta_reduce
    rw [hb]
    apply (S.vac_iff hδ).2
    rw [hr.sum_vac S, hG]
    exact hF.green
  · have hv : a ≠ vac m := fun e => total_ne_zero ha (e ▸ vac_total m)
    have hb : (full (L.eqn a) δ).bias realPhys m p = 0 := by
      obtain ⟨ts, e1, -⟩ := S.hL.eqn a ha
      unfold Equation.bias
      rw [if_neg]
      rw [e1]; simp [full]
    beta_reduce
    rw [hb]
    have hid : U (full (L.eqn a) δ).id = ψ a δ.tw := by
      rw [Equation.id, full, S.hL.eqn_config (Or.inr ha), hUi a (Or.inr ha), if_neg hv]
    have hpar : δ.tw % 2 = c := by
      obtain ⟨b, hb, t, ht, k1, k2⟩ := S.hL.deltas_sub _ (Or.inr ha) δ hδ
      have hpar := S.fArg_parity hb ht (k1 ▸ ha)
      rwa [k2] at hpar
    rw [hid, show δ.tw = c + 2 * ((δ.tw - c) / 2) by omega, hF.eq_emitted hr S ha]
    have hsum : ((full (L.eqn a) δ).terms.map (fun t => coefV realPhys m p t * U t.id)).sum =
        -emitted m L p c U a ((δ.tw - c) / 2) := by
      unfold emitted
      rw [neg_neg, show (full (L.eqn a) δ).terms = (L.eqn a).terms.map (incr δ) from rfl, List.map_map]
      congr 1
      apply List.map_congr_left
      intro t ht
      obtain ⟨h, hh, γ, hf⟩ := S.from_mem (Or.inr ha) ht
      have hpg := S.gtw_parity ha ht
      rcases hf with ⟨-, hp⟩ | ⟨e, -⟩
      · simp only [Function.comp, incr_id]
        rw [coefV_produced hp δ]
        congr 2
        rw [show δ.tw + gtw t = 2 * ((δ.tw - c) / 2 + (c + gtw t) / 2) by omega]
        push_cast; ring
      · exact absurd e hv
    rw [hsum]; ring

end GGCE
