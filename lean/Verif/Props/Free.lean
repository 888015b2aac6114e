import Verif.Props.Symmetry
import Verif.Proofs.Definite

/-!
Property C46, the part that holds: couplings of strength zero give the free propagator.
-/

set_option linter.unusedSectionVars false

namespace GGCE.Props
open Spec Arr Dict

variable {R K : Type} [Field R] [LinearOrder R] [Field K]

theorem coefV_zero {F : Phys R K} (hF : F.ofReal 0 = 0) (m : Model R) (p : Point R) (t : Term R)
    (ht : t.pref = 0) : coefV F m p t = 0 := by
  unfold coefV Term.coefficient
  rw [ht, hF]
  cases t.kind <;> cases t.gArg <;> simp

/-- C46, for models that have coupling terms, all of strength zero: the system is built, and the dense
solver and every exact sparse solver return the free propagator. What is missing: the model with no
coupling terms at all, which cannot be built (`C46_free_model_fails`). -/
theorem C46_zero_couplings_partial (σ : SetOrder) (m : Model R) (ae : Int) (hm : WellFormed m ae)
    (hz : ∀ h ∈ m.ham.terms, h.coupling = 0) (F : Phys R K) (hF : F.ofReal 0 = 0) (p : Point R) :
    ∃ b, buildSystem σ m = .ok b ∧
      denseSolve F m p (localBasis b.eqs) b.eqs =
        .ok (some (F.G0 p.k p.w m.latticeConstant p.eta m.ham.hopping)) ∧
      ∀ spsolve, Exact spsolve → sparseSolve F m p (fullBasis b.eqs) b.eqs spsolve =
        .ok (F.G0 p.k p.w m.latticeConstant p.eta m.ham.hopping) := by
  obtain ⟨b, L, hb, hL, hd⟩ := buildSystem_ok σ hm
  have hself : scaleModel 0 m = m := by
    unfold scaleModel
    have : m.ham.terms.map (scaleH 0) = m.ham.terms := by
      conv_rhs => rw [← List.map_id m.ham.terms]
      apply List.map_congr_left
      intro h hh
      unfold scaleH
      rw [zero_mul, ← hz h hh]
      rfl
    rw [this]
  have hsc : scaleEqs 0 b.eqs = b.eqs := by
    have := buildSystem_scale σ (0 : R) m
    rw [hself, hb] at this
    simp only [Except.map, Except.ok.injEq] at this
    exact (congrArg Built.eqs this).symm
  have hpref : ∀ e ∈ allEqs b.eqs, ∀ t ∈ e.terms, t.pref = 0 := by
    intro e he t ht
    rw [← hsc, allEqs_scale] at he
    obtain ⟨e', -, rfl⟩ := List.mem_map.1 he
    obtain ⟨t', -, rfl⟩ := List.mem_map.1 ht
    exact zero_mul _
  have hc : ∀ e ∈ allEqs b.eqs, ∀ U : PyStr → K, (e.terms.map (fun t => coefV F m p t * U t.id)).sum = 0 := by
    intro e he U
    apply List.sum_eq_zero
    intro x hx
    obtain ⟨t, ht, rfl⟩ := List.mem_map.1 hx
    rw [coefV_zero hF m p t (hpref e he t ht), zero_mul]
  have hdef : Definite F m p b.eqs := by
    intro n U h1 h2 e he
    by_cases hn : (n : Int) ≤ e.config.total
    · have := h1 e he hn
      rwa [hc e he, add_zero] at this
    · exact h2 e he (by omega)
  have hr := ready_of_built hm hb
  obtain ⟨G, hG⟩ := hr.dense_ok F p hdef (total_pos m ae hm)
  obtain ⟨⟨U, hU⟩, hall⟩ := hr.dense F p (total_pos m ae hm) hG
  have hval : G = F.G0 p.k p.w m.latticeConstant p.eta m.ham.hopping := by
    rw [← (hall U hU).1]
    obtain ⟨e, he, hid, hgr⟩ : ∃ e ∈ allEqs b.eqs, e.id = "{G}[0.0]".toList ∧ e.green = true := by
      obtain ⟨g, -, g1, g2, g3⟩ := hr.vals_zero
      exact ⟨g, g1, g3.1, g2⟩
    have := hU e he
    rw [hc e he, add_zero, hid] at this
    rw [this]
    simp [Equation.bias, hgr]
  subst hval
  obtain ⟨ls, k1, k2, k3, k4⟩ := (C21_sparse_dense_agree σ m ae hm b hb F p).2 _ hG
  exact ⟨b, hb, hG, k4⟩

/-- C46, from the user's side: any valid calls with `coupling=0.0` give the free propagator. -/
theorem C46_assembled_partial (σ : SetOrder) (P : Prims R) (hP : Names P) (hopping lattice T : R)
    (cap : Option Int) (hcap : ∀ c, cap = some c → 1 ≤ c) (as : List (AddArgs R)) (hne : as ≠ [])
    (hc : Clean P hopping T as) (hf : ((modes T as).map (·.freq)).Nodup)
    (hb : (∀ a ∈ as, a.ctype = "BondPeierls") ∨ (∀ a ∈ as, a.ctype ≠ "BondPeierls"))
    (hz : ∀ a ∈ as, a.g = some 0 ∧ a.lam = none) (F : Phys R K) (hF : F.ofReal 0 = 0) (p : Point R) :
    ∃ m b, (Model.fromParameters hopping lattice T cap 1).adds P as = .ok m ∧ buildSystem σ m = .ok b ∧
      denseSolve F m p (localBasis b.eqs) b.eqs = .ok (some (F.G0 p.k p.w lattice p.eta hopping)) := by
  obtain ⟨m, b, h1, ⟨ae, h2⟩, h3⟩ := C16_assembled σ P hP hopping lattice T cap hcap as hne hc hf hb
  obtain ⟨-, e1, -, -, -, e2⟩ := adds_fixed as h1
  have hs := adds_scale (0 : R) P hopping lattice T cap 1 as (fun a ha => (hz a ha).2)
  have has : as.map (scaleArgs 0) = as := by
    conv_rhs => rw [← List.map_id as]
    apply List.map_congr_left
    intro a ha
    have e := (hz a ha).1
    cases a
    simp only at e
    subst e
    simp [scaleArgs]
  rw [has, h1] at hs
  simp only [Except.map, Except.ok.injEq] at hs
  have hcoup : ∀ h ∈ m.ham.terms, h.coupling = 0 := by
    intro h hh
    rw [hs] at hh
    obtain ⟨h', -, rfl⟩ := List.mem_map.1 hh
    exact zero_mul _
  obtain ⟨b', k1, k2, -⟩ := C46_zero_couplings_partial σ m ae h2 hcoup F hF p
  rw [h3] at k1; cases k1
  rw [e1, e2] at k2
  exact ⟨m, b, h1, h3, k2⟩

/-- a Holstein coupling of strength zero -/
noncomputable def exZero : List (AddArgs ℝ) := [{ ctype := "Holstein", freq := 1, M := 2, N := 2, g := some 0 }]

theorem exZero_clean : Clean realPrims 1 0 exZero ∧ ((modes 0 exZero).map (·.freq)).Nodup ∧
    ∀ a ∈ exZero, a.ctype ≠ "BondPeierls" := by
  have hc : Clean realPrims 1 0 exZero := by
    constructor <;> intro a ha <;> simp only [exZero, List.mem_cons, List.not_mem_nil, or_false] at ha <;>
      subst ha
    all_goals first
      | rfl
      | (simp [Known]; done)
      | (simp [Defined]; done)
      | (constructor <;> simp [OneStrength])
  refine ⟨hc, ?_, ?_⟩
  · rw [modes_of_clean hc]
    simp [exZero, modesAt]
  · simp [exZero]

/-- The physical propagator of that model. -/
theorem exZero_value (σ : SetOrder) : ∃ m b, (Model.fromParameters (1 : ℝ) 1 0 none 1).adds realPrims exZero = .ok m ∧
    buildSystem σ m = .ok b ∧ ∀ p : Point ℝ, denseSolve realPhys m p (localBasis b.eqs) b.eqs =
      .ok (some (1 / ((p.w : ℂ) + Complex.I * p.eta + 2 * Real.cos p.k))) := by
  obtain ⟨h1, h2, h3⟩ := exZero_clean
  obtain ⟨m, b, k1, -, k2⟩ := C16_assembled σ realPrims C42_names 1 1 0 none (by simp) exZero (by simp [exZero]) h1 h2
    (Or.inr h3)
  refine ⟨m, b, k1, k2, fun p => ?_⟩
  obtain ⟨m', b', e1, e2, e3⟩ := C46_assembled_partial σ realPrims C42_names 1 1 0 none (by simp) exZero (by simp [exZero])
    h1 h2 (Or.inr h3) (by simp [exZero]) realPhys (by simp [realPhys]) p
  rw [k1] at e1; cases e1
  rw [k2] at e2; cases e2
  rw [e3]
  simp [realPhys, G0R]

end GGCE.Props
