import Verif.Proofs.Energy
import Verif.Proofs.Definite
import Verif.Props.Solver

/-! Consequences of the energy identity: no nonzero solution of the homogeneous equations, and the sign of
the imaginary part of the Green's function. -/

set_option linter.unusedSectionVars false

namespace GGCE
open Spec Arr Complex ComplexConjugate

variable {m : Model ℝ} {ae : Int} {L : Layout ℝ} {c : ℤ} {p : Point ℝ} {P : Arr → Prop} {r : ℂ}
  {U : PyStr → ℂ}

theorem weightS_nonneg (a : Arr) : 0 ≤ weightS m L p P U c a := by
  unfold weightS
  split
  · exact normSq_nonneg _
  · exact tsum_nonneg (fun j => normSq_nonneg _)

/-- the identifier of every unknown of the vacuum -/
theorem Setting.vac_id (S : Setting m ae L c p) {δ : Num} (hδ : δ ∈ L.deltas (vac m)) :
    (full (L.eqn (vac m)) δ).id = "{G}[0.0]".toList := by
  have hn : Node m ae (vac m) := Or.inl rfl
  obtain ⟨b, hb, t, ht, k1, k2⟩ := S.hL.deltas_sub _ hn δ hδ
  have h2 := S.hL.vac_term S.hm.toShaped hb ht k1
  rw [k2] at h2
  rw [Equation.id, full, S.hL.eqn_config hn]
  exact green_id m h2

open Classical in
/-- A solution with no imaginary part vanishes. -/
theorem Setting.zero_of (S : Setting m ae L c p) (hU : Solves m ae L p P r U)
    (hrhs : (if P (vac m) then (conj (U "{G}[0.0]".toList) * r).im else 0) = 0) {a : Arr}
    (ha : Node m ae a) {δ : Num} (hδ : δ ∈ L.deltas a) : U (full (L.eqn a) δ).id = 0 := by
  by_cases hP : P a
  swap
  · exact hU.zero a ha hP δ hδ
  have hid := S.identity hU
  rw [hrhs] at hid
  have hsum := (mul_eq_zero.1 hid).resolve_left S.eta.ne'
  have hpos : ∀ b ∈ nodesIn m L P, 0 ≤ ((fact b : ℝ))⁻¹ * weightS m L p P U c b := fun b _ =>
    mul_nonneg (inv_nonneg.2 (Nat.cast_nonneg _)) (weightS_nonneg b)
  have hz := (Finset.sum_eq_zero_iff_of_nonneg hpos).1 hsum a (S.mem_nodesIn.2 ⟨ha, hP⟩)
  have hf : ((fact a : ℝ))⁻¹ ≠ 0 := inv_ne_zero (by have := fact_pos a; positivity)
  have hw := (mul_eq_zero.1 hz).resolve_left hf
  by_cases hv : a = vac m
  · subst hv
    rw [S.vac_id hδ]
    unfold weightS at hw
    rw [if_pos rfl] at hw
    exact normSq_eq_zero.1 hw
  · have hat : InTruncation m ae a := ha.resolve_left hv
    obtain ⟨hs, -⟩ := S.cloud_node (U := U) hat hP
    have hs2 := summable_normSq hs
    unfold weightS at hw
    rw [if_neg hv] at hw
    have h0 := (hasSum_zero_iff_of_nonneg (fun j => normSq_nonneg _)).1 (hw ▸ hs2.hasSum)
    obtain ⟨b, hb, t, ht, k1, k2⟩ := S.hL.deltas_sub _ ha δ hδ
    have hpar := S.fArg_parity hb ht (k1 ▸ hat)
    rw [k2] at hpar
    have h1 := congrFun h0 ((δ.tw - c) / 2)
    simp only [Pi.zero_apply] at h1
    rw [show c + 2 * ((δ.tw - c) / 2) = δ.tw by omega] at h1
    rw [S.psi_delta hU hat hδ]
    exact normSq_eq_zero.1 h1

theorem Setting.definite (S : Setting m ae L c p) {b : Built ℝ} (hd : L.Describes m b) :
    Definite realPhys m p b.eqs := by
  intro n U hres hzero e he
  have hmem := S.hL.mem_allEqs S.hm.toListsOk hd
  have hcfg : ∀ a, Node m ae a → ∀ δ, (full (L.eqn a) δ).config = a := fun a ha δ => S.hL.eqn_config ha
  obtain ⟨a, ha, δ, hδ, rfl⟩ := (hmem e).1 he
  have hU : Solves m ae L p (fun a => (n : Int) ≤ a.total) 0 U :=
    { green := by
        intro hP δ hδ
        rw [zero_mul]
        exact hres _ ((hmem _).2 ⟨_, Or.inl rfl, δ, hδ, rfl⟩) (by rw [hcfg _ (Or.inl rfl)]; exact hP)
      cloud := by
        intro a ha hP δ hδ
        exact hres _ ((hmem _).2 ⟨_, Or.inr ha, δ, hδ, rfl⟩) (by rw [hcfg _ (Or.inr ha)]; exact hP)
      zero := by
        intro a ha hP δ hδ
        exact hzero _ ((hmem _).2 ⟨_, ha, δ, hδ, rfl⟩) (by rw [hcfg _ ha]; exact not_le.1 hP) }
  exact S.zero_of hU (by simp) ha hδ

/-- A solution of all equations solves them with right-hand side 1. -/
theorem Setting.solves (S : Setting m ae L c p) {b : Built ℝ} (hd : L.Describes m b)
    (hU : SolvesAll (coefV realPhys m p) (fun e => e.bias realPhys m p) (allEqs b.eqs) U) :
    Solves m ae L p (fun _ => True) 1 U := by
  have hmem := S.hL.mem_allEqs S.hm.toListsOk hd
  refine ⟨?_, ?_, fun a _ h => absurd trivial h⟩
  · intro _ δ hδ
    rw [hU _ ((hmem _).2 ⟨_, Or.inl rfl, δ, hδ, rfl⟩), one_mul]
    unfold Equation.bias
    rw [S.hL.eqn_vac]
    rfl
  · intro a ha _ δ hδ
    rw [hU _ ((hmem _).2 ⟨_, Or.inr ha, δ, hδ, rfl⟩)]
    simp only [Equation.bias]
    rw [if_neg]
    obtain ⟨ts, e1, -⟩ := S.hL.eqn a ha
    rw [e1]; simp [full]

theorem fact_vac (m : Model ℝ) : fact (vac m) = 1 := by
  unfold fact
  rw [← finprod_one (α := ℕ × ℤ) (M := ℕ)]
  apply finprod_congr
  intro q
  rw [chain_vac]; rfl

theorem G0_ne_zero (m : Model ℝ) (p : Point ℝ) (h : 0 < p.eta) :
    realPhys.G0 p.k p.w m.latticeConstant p.eta m.ham.hopping ≠ 0 := by
  show (1 : ℂ) / ((p.w : ℂ) + I * p.eta + 2 * m.ham.hopping * Real.cos (p.k * m.latticeConstant)) ≠ 0
  have hD : ((p.w : ℂ) + I * p.eta + 2 * m.ham.hopping * Real.cos (p.k * m.latticeConstant)).im = p.eta := by
    have : ((2 : ℂ) * m.ham.hopping * Real.cos (p.k * m.latticeConstant)).im = 0 := by
      rw [show (2 : ℂ) * m.ham.hopping * Real.cos (p.k * m.latticeConstant) =
        ((2 * m.ham.hopping * Real.cos (p.k * m.latticeConstant) : ℝ) : ℂ) by push_cast; rfl]
      exact ofReal_im _
    rw [add_im, add_im, this]; simp
  refine div_ne_zero one_ne_zero (fun h0 => ?_)
  rw [h0] at hD
  simp at hD
  exact h.ne hD

/-- The imaginary part of the Green's function is negative. -/
theorem Setting.im_neg (S : Setting m ae L c p) {b : Built ℝ} (hd : L.Describes m b) {σ : SetOrder}
    (hb : buildSystem σ m = .ok b)
    (hU : SolvesAll (coefV realPhys m p) (fun e => e.bias realPhys m p) (allEqs b.eqs) U) :
    (U "{G}[0.0]".toList).im ≤ - p.eta * normSq (U "{G}[0.0]".toList) ∧ U "{G}[0.0]".toList ≠ 0 := by
  classical
  have hs := S.solves hd hU
  have hid := S.identity hs
  rw [if_pos trivial, mul_one, conj_im] at hid
  have hpos : ∀ b ∈ nodesIn m L (fun _ => True), 0 ≤ ((fact b : ℝ))⁻¹ * weightS m L p (fun _ => True) U c b :=
    fun b _ => mul_nonneg (inv_nonneg.2 (Nat.cast_nonneg _)) (weightS_nonneg b)
  have hvac : vac m ∈ nodesIn m L (fun _ => True) := S.mem_nodesIn.2 ⟨Or.inl rfl, trivial⟩
  have hle := Finset.single_le_sum hpos hvac
  have hw : weightS m L p (fun _ => True) U c (vac m) = normSq (U "{G}[0.0]".toList) := if_pos rfl
  rw [hw, fact_vac, Nat.cast_one, inv_one, one_mul] at hle
  have h1 := mul_le_mul_of_nonneg_left hle S.eta.le
  refine ⟨by linarith, fun h0 => ?_⟩
  have hz := fun a ha δ hδ => S.zero_of hs (by rw [if_pos trivial, h0]; simp) (a := a) ha (δ := δ) hδ
  obtain ⟨δ, hδ⟩ := List.exists_mem_of_ne_nil _ (S.hL.deltas_ne_nil S.hm.toShaped (Or.inl rfl : Node m ae (vac m)))
  have h2 := hs.green trivial δ hδ
  have hmem := S.hL.mem_allEqs S.hm.toListsOk hd
  have hr := ready_of_built S.hm hb
  rw [hz _ (Or.inl rfl) _ hδ, zero_add, List.sum_eq_zero, one_mul] at h2
  · exact G0_ne_zero m p S.eta h2.symm
  · intro x hx
    obtain ⟨t, ht, rfl⟩ := List.mem_map.1 hx
    obtain ⟨e', he', k1, -⟩ := hr.closed _ ((hmem _).2 ⟨_, Or.inl rfl, δ, hδ, rfl⟩) t ht
    obtain ⟨a, ha, δ', hδ', rfl⟩ := (hmem _).1 he'
    rw [← k1, hz _ ha _ hδ', mul_zero]

end GGCE
