import Verif.Proofs.Frame
import Verif.Proofs.Blueprint
import Mathlib.Algebra.Group.Int.Units

/-! Signs that can be absorbed into the states: one for every phonon type and one for the odd sites. -/

set_option linter.unusedSectionVars false

namespace GGCE
open Spec Complex

/-- a sign as a complex number -/
def unitC (u : ℤˣ) : ℂ := ((u : ℤ) : ℂ)

theorem unitC_mul (u v : ℤˣ) : unitC (u * v) = unitC u * unitC v := by unfold unitC; push_cast; rfl

@[simp] theorem unitC_one : unitC 1 = 1 := by simp [unitC]

theorem unitC_norm (u : ℤˣ) : ‖unitC u‖ = 1 := by
  rcases Int.units_eq_one_or u with rfl | rfl <;> simp [unitC]

/-- the sign of an occupation: one factor `ε t` for every phonon of type `t` -/
noncomputable def occSign (k : ℕ) (ε : ℕ → ℤˣ) (n : Occ) : ℤˣ := ∏ t ∈ Finset.range k, ε t ^ (∑ᶠ x, n t x)

theorem occSign_shift (k : ℕ) (ε : ℕ → ℤˣ) (n : Occ) (s : ℤ) : occSign k ε (n.shift s) = occSign k ε n := by
  unfold occSign; simp only [finsum_shift]

theorem occSign_zero (k : ℕ) (ε : ℕ → ℤˣ) : occSign k ε 0 = 1 := by
  unfold occSign; simp

theorem sum_act_sign {n : Occ} (hn : ∀ t, (Function.support (n t)).Finite) (d : Dag) (t : ℕ) (x : ℤ) (t' : ℕ) :
    ∑ᶠ y, n.act d t x t' y = (∑ᶠ y, n t' y) + if t' = t then Dag.delta d else 0 := by
  have h2 : (Function.support (fun y : ℤ => if t' = t ∧ y = x then Dag.delta d else 0)).Finite := by
    refine (Set.finite_singleton x).subset (fun y hy => ?_)
    by_contra hc
    exact hy (if_neg (fun h => hc h.2))
  show ∑ᶠ y, (n t' y + if t' = t ∧ y = x then Dag.delta d else 0) = _
  rw [finsum_add_distrib (hn t') h2]
  congr 1
  by_cases h : t' = t
  · rw [if_pos h, finsum_eq_single _ x]
    · rw [if_pos ⟨h, rfl⟩]
    · intro y hy; rw [if_neg (fun hc => hy hc.2)]
  · rw [if_neg h]
    have : ∀ y : ℤ, (if t' = t ∧ y = x then Dag.delta d else 0) = 0 := fun y => if_neg (fun hc => h hc.1)
    simp only [this, finsum_zero]

theorem occSign_act {k : ℕ} {ε : ℕ → ℤˣ} {n : Occ} (hn : ∀ t, (Function.support (n t)).Finite) (d : Dag) {t : ℕ}
    (ht : t < k) (x : ℤ) : occSign k ε (n.act d t x) = ε t * occSign k ε n := by
  unfold occSign
  simp only [sum_act_sign hn, zpow_add, Finset.prod_mul_distrib]
  rw [mul_comm]
  congr 1
  rw [Finset.prod_eq_single t]
  · rw [if_pos rfl]
    cases d
    · simp [Dag.delta]
    · simp [Dag.delta, Int.units_inv_eq_self]
  · intro t' _ h; rw [if_neg h, zpow_zero]
  · intro h; exact absurd (Finset.mem_range.2 ht) h

/-- the term with its coupling multiplied by the sign of its phonon type and that of the electron's move -/
def gaugeTerm (ε : ℕ → ℤˣ) (c : ℤˣ) (h : SingleTerm ℝ) : SingleTerm ℝ :=
  { h with coupling := (((ε h.phononIndex * c ^ (h.psi.tw / 2) : ℤˣ) : ℤ) : ℝ) * h.coupling }

/-- the model with these terms, and the hopping multiplied by `c` -/
def gaugeModel (ε : ℕ → ℤˣ) (c : ℤˣ) (m : Model ℝ) : Model ℝ :=
  { m with ham := { m.ham with terms := m.ham.terms.map (gaugeTerm ε c), hopping := ((c : ℤ) : ℝ) * m.ham.hopping } }

/-- The states `±|n, e⟩` have the Hamiltonian with the signs, at a momentum that differs by `π/a` if the sites
have signs. -/
theorem resolvent_gauge {m : Model ℝ} {ae : ℤ} {p : Point ℝ} {k' : ℝ} (ε : ℕ → ℤˣ) (c : ℤˣ)
    (hidx : ∀ h ∈ m.ham.terms, h.phononIndex < m.nTypes)
    (hk : ∀ s : ℤ, exp (-(I * (k' * m.latticeConstant * s))) = unitC (c ^ s) * exp (-(I * (p.k * m.latticeConstant * s))))
    {Ψ : Occ → ℤ → ℂ} (hΨ : Resolvent m ae p Ψ) :
    Resolvent (gaugeModel ε c m) ae { p with k := k' }
      (fun n e => unitC (c ^ e * occSign m.nTypes ε n) * Ψ n e) where
  bloch n e s := by
    show unitC (c ^ (e + s) * occSign m.nTypes ε (n.shift s)) * Ψ (n.shift s) (e + s) =
      exp (-(I * (k' * m.latticeConstant * s))) * _
    rw [hΨ.bloch n e s, hk, occSign_shift, zpow_add]
    simp only [unitC_mul]
    ring
  bounded n := by
    obtain ⟨C, hC⟩ := hΨ.bounded n
    refine ⟨C, fun e => ?_⟩
    rw [norm_mul, unitC_norm, one_mul]; exact hC e
  outside n hn e := by
    rw [hΨ.outside n (fun h => hn ⟨h.1, h.2, h.3, h.4, h.5, h.6⟩) e, mul_zero]
  motion n hn e := by
    have hn' : Allowed m ae n := ⟨hn.1, hn.2, hn.3, hn.4, hn.5, hn.6⟩
    have hsq : ∀ u : ℤˣ, unitC u * unitC u = 1 := by
      intro u; rw [← unitC_mul, Int.units_mul_self, unitC_one]
    have hm := hΨ.motion n hn' e
    have hE : occEnergy (gaugeModel ε c m) n = occEnergy m n := rfl
    show (p.w + I * p.eta - (occEnergy (gaugeModel ε c m) n : ℂ)) * (unitC (c ^ e * occSign m.nTypes ε n) * Ψ n e) +
      (((((c : ℤ) : ℝ) * m.ham.hopping : ℝ)) : ℂ) * (unitC (c ^ (e - 1) * occSign m.nTypes ε n) * Ψ n (e - 1) +
        unitC (c ^ (e + 1) * occSign m.nTypes ε n) * Ψ n (e + 1)) -
      ((m.ham.terms.map (gaugeTerm ε c)).map (fun h : SingleTerm ℝ => (h.coupling : ℂ) *
        (occFactor h.dag n h.phononIndex (bosonSite h e) : ℂ) *
        (unitC (c ^ (electronSite h e) * occSign m.nTypes ε (n.act h.dag h.phononIndex (bosonSite h e))) *
          Ψ (n.act h.dag h.phononIndex (bosonSite h e)) (electronSite h e)))).sum =
      open Classical in if n = 0 then exp (-(I * (k' * m.latticeConstant * e))) else 0
    have hterms : ((m.ham.terms.map (gaugeTerm ε c)).map (fun h : SingleTerm ℝ => (h.coupling : ℂ) *
        (occFactor h.dag n h.phononIndex (bosonSite h e) : ℂ) *
        (unitC (c ^ (electronSite h e) * occSign m.nTypes ε (n.act h.dag h.phononIndex (bosonSite h e))) *
          Ψ (n.act h.dag h.phononIndex (bosonSite h e)) (electronSite h e)))).sum =
        unitC (c ^ e * occSign m.nTypes ε n) * (m.ham.terms.map (fun h : SingleTerm ℝ => (h.coupling : ℂ) *
        (occFactor h.dag n h.phononIndex (bosonSite h e) : ℂ) *
        Ψ (n.act h.dag h.phononIndex (bosonSite h e)) (electronSite h e))).sum := by
      rw [List.map_map, ← List.sum_map_mul_left]
      congr 1
      refine List.map_congr_left (fun h hh => ?_)
      show ((((((ε h.phononIndex * c ^ (h.psi.tw / 2) : ℤˣ) : ℤ) : ℝ) * h.coupling : ℝ)) : ℂ) *
        (occFactor h.dag n h.phononIndex (bosonSite h e) : ℂ) *
        (unitC (c ^ (e - h.psi.tw / 2) * occSign m.nTypes ε (n.act h.dag h.phononIndex (bosonSite h e))) *
          Ψ (n.act h.dag h.phononIndex (bosonSite h e)) (electronSite h e)) = _
      rw [occSign_act hn'.finite _ (hidx h hh)]
      have e1 : ((((((ε h.phononIndex * c ^ (h.psi.tw / 2) : ℤˣ) : ℤ) : ℝ) * h.coupling : ℝ)) : ℂ) =
          unitC (ε h.phononIndex) * unitC (c ^ (h.psi.tw / 2)) * h.coupling := by
        rw [← unitC_mul]; unfold unitC; push_cast; rfl
      have e2 : unitC (c ^ e) = unitC (c ^ (h.psi.tw / 2)) * unitC (c ^ (e - h.psi.tw / 2)) := by
        rw [← unitC_mul, ← zpow_add]; congr 2; ring
      rw [e1]
      simp only [unitC_mul]
      rw [e2]
      linear_combination (unitC (c ^ (h.psi.tw / 2)) * h.coupling * (occFactor h.dag n h.phononIndex (bosonSite h e) : ℂ) *
        unitC (c ^ (e - h.psi.tw / 2)) * unitC (occSign m.nTypes ε n) *
        Ψ (n.act h.dag h.phononIndex (bosonSite h e)) (electronSite h e)) * hsq (ε h.phononIndex)
    rw [hterms, hE]
    have e1 : unitC c * unitC (c ^ (e - 1)) = unitC (c ^ e) := by
      rw [← unitC_mul, zpow_sub_one, mul_comm (c ^ e), ← mul_assoc]; simp
    have e2 : unitC c * unitC (c ^ (e + 1)) = unitC (c ^ e) := by
      rw [← unitC_mul, zpow_add_one, mul_comm (c ^ e), ← mul_assoc, Int.units_mul_self, one_mul]
    have e3 : (((((c : ℤ) : ℝ) * m.ham.hopping : ℝ)) : ℂ) = unitC c * m.ham.hopping := by unfold unitC; push_cast; rfl
    rw [e3]
    have hr : (open Classical in if n = 0 then exp (-(I * (k' * m.latticeConstant * e))) else 0) =
        unitC (c ^ e * occSign m.nTypes ε n) *
          (open Classical in if n = 0 then exp (-(I * (p.k * m.latticeConstant * e))) else 0) := by
      split
      · rename_i h0
        rw [hk, h0, occSign_zero, mul_one]
      · rw [mul_zero]
    rw [hr, ← hm]
    simp only [unitC_mul]
    linear_combination (m.ham.hopping * unitC (occSign m.nTypes ε n) * Ψ n (e - 1)) * e1 +
      (m.ham.hopping * unitC (occSign m.nTypes ε n) * Ψ n (e + 1)) * e2

end GGCE
