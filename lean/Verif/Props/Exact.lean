import Verif.Proofs.FieldSystem
import Verif.Props.Spectral

/-!
Property C55: the number returned by the solvers is the Green's function of the Hamiltonian restricted to
the allowed phonon clouds. The specification (`Spec/Resolvent.lean`) knows nothing of identifiers,
equations, arguments or propagators.
-/

set_option linter.unusedSectionVars false

namespace GGCE.Props
open Spec Arr Complex

/-- The restricted Hamiltonian has at most one resolvent amplitude, and its value on the bare electron is a
solution of the code's linear system. -/
theorem resolvent_solution {σ : SetOrder} {m : Model ℝ} {ae : Int} (hm : WellFormed m ae) {b : Built ℝ}
    (hb : buildSystem σ m = .ok b) (hp : Physical m) {p : Point ℝ} (heta : 0 < p.eta)
    {Ψ : Occ → ℤ → ℂ} (hΨ : Resolvent m ae p Ψ) :
    ∃ U, SolvesAll (coefV realPhys m p) (fun e => e.bias realPhys m p) (allEqs b.eqs) U ∧
      U "{G}[0.0]".toList = Ψ 0 0 := by
  obtain ⟨b', L, h1, hL, hd⟩ := buildSystem_ok σ hm
  rw [hb] at h1; cases h1
  obtain ⟨c, hs⟩ := hp.shifts
  have S : Setting m ae L c p := ⟨hm, hL, hs, hp.adj, heta, hp.lattice⟩
  obtain ⟨ψ, hF, hsame⟩ := field_of_resolvent hΨ hm.toShaped hL hs
  obtain ⟨U, k1, -, k3⟩ := hF.solution S hd
  refine ⟨U, k1, ?_⟩
  rw [k3, hsame.zero 0, mul_zero, neg_zero, ph_zero, one_mul]

/-- C55, for a well-formed model: at every momentum, frequency and positive broadening, the Hamiltonian
restricted to the allowed occupations has exactly one resolvent amplitude, and both solvers return its value
on the bare electron. -/
theorem C55_exact (σ : SetOrder) (m : Model ℝ) (ae : Int) (hm : WellFormed m ae) (b : Built ℝ)
    (hb : buildSystem σ m = .ok b) (hp : Physical m) (p : Point ℝ) (heta : 0 < p.eta) :
    ∃ Ψ, Resolvent m ae p Ψ ∧ (∀ Ψ', Resolvent m ae p Ψ' → Ψ' = Ψ) ∧
      (∀ spsolve, Exact spsolve → sparseSolve realPhys m p (fullBasis b.eqs) b.eqs spsolve = .ok (Ψ 0 0)) ∧
      denseSolve realPhys m p (localBasis b.eqs) b.eqs = .ok (some (Ψ 0 0)) := by
  obtain ⟨b', L, h1, hL, hd⟩ := buildSystem_ok σ hm
  rw [hb] at h1; cases h1
  obtain ⟨c, hs⟩ := hp.shifts
  have S : Setting m ae L c p := ⟨hm, hL, hs, hp.adj, heta, hp.lattice⟩
  obtain ⟨ls, G, -, -, -, -, hsp, hG⟩ := C22_nonsingular σ m ae hm b hb hp p heta
  obtain ⟨⟨U, hU⟩, hall⟩ := (ready_of_built hm hb).dense realPhys p (total_pos m ae hm) hG
  have hval := (hall U hU).1
  obtain ⟨hF, hr⟩ := S.field hd hU
  obtain ⟨Ψ, hΨ, hsame⟩ := hF.resolvent hm.toShaped hL hs
  have h0 : Ψ 0 0 = G := by
    rw [hsame.zero 0, mul_zero, neg_zero, ph_zero, one_mul, ← hval]
    unfold psi; rw [if_pos rfl, ph_zero, one_mul]
  refine ⟨Ψ, hΨ, ?_, by rw [h0]; exact hsp, by rw [h0]; exact hG⟩
  intro Ψ' hΨ'
  obtain ⟨ψ', hF', hsame'⟩ := field_of_resolvent hΨ' hm.toShaped hL hs
  obtain ⟨U', hU', hr', hv'⟩ := hF'.solution S hd
  have hid := (hall U hU).2 U' hU'
  have hready := ready_of_built hm hb
  have hmem := hL.mem_allEqs hm.toListsOk hd
  have hterm : ∀ a, Node m ae a → ∀ t ∈ (L.eqn a).terms, U t.id = U' t.id := by
    intro a ha t ht
    obtain ⟨δ, hδ⟩ := List.exists_mem_of_ne_nil _ (hL.deltas_ne_nil hm.toShaped ha)
    obtain ⟨e', he', k1, -⟩ := hready.closed _ ((hmem _).2 ⟨a, ha, δ, hδ, rfl⟩) (incr δ t)
      (List.mem_map.2 ⟨t, ht, rfl⟩)
    rw [incr_id] at k1
    rw [← k1]; exact hid e' he'
  have hvac : psi m L p (fun _ => True) U (vac m) 0 = ψ' (vac m) 0 := by
    have e1 : psi m L p (fun _ => True) U (vac m) 0 = U "{G}[0.0]".toList := by
      unfold psi; rw [if_pos rfl, ph_zero, one_mul]
    rw [e1, hval, ← (hall U' hU').1, hv']
  have hcl : ∀ a, InTruncation m ae a → ∀ j,
      psi m L p (fun _ => True) U a (c + 2 * j) = ψ' a (c + 2 * j) := by
    intro a ha j
    rw [hF.eq_emitted hr S ha, hF'.eq_emitted hr' S ha]
    unfold emitted
    congr 2
    apply List.map_congr_left
    intro t ht
    unfold amp
    rw [hterm a (Or.inr ha) t ht]
  funext n e
  by_cases hn : Allowed m ae n
  · obtain ⟨a, s, ha, rfl⟩ := exists_placed hm.toShaped hn
    rw [hsame.inside a ha, hsame'.inside a ha]
    unfold amplitude
    congr 1
    rcases ha with rfl | ha
    · rw [hsame.plane, hsame'.plane, hvac]
    · exact (hcl a ha _).symm
  · rw [hsame.outside n hn, hsame'.outside n hn]

/-- C55, the other way round: any resolvent amplitude gives what the solvers return. -/
theorem C55_value (σ : SetOrder) (m : Model ℝ) (ae : Int) (hm : WellFormed m ae) (b : Built ℝ)
    (hb : buildSystem σ m = .ok b) (hp : Physical m) (p : Point ℝ) (heta : 0 < p.eta) (G : ℂ)
    (hG : (∃ spsolve, Exact spsolve ∧ sparseSolve realPhys m p (fullBasis b.eqs) b.eqs spsolve = .ok G) ∨
      denseSolve realPhys m p (localBasis b.eqs) b.eqs = .ok (some G))
    (Ψ : Occ → ℤ → ℂ) (hΨ : Resolvent m ae p Ψ) : G = Ψ 0 0 := by
  obtain ⟨Ψ', -, h2, h3, h4⟩ := C55_exact σ m ae hm b hb hp p heta
  rw [h2 Ψ hΨ]
  rcases hG with ⟨sp, e1, e2⟩ | hG
  · rw [h3 sp e1] at e2; cases e2; rfl
  · rw [h4] at hG; cases hG; rfl

/-- C55, from the user's side: for every sequence of valid `add_` calls with built-in couplings, the solvers
return the Green's function of the restricted Hamiltonian. -/
theorem C55_assembled (σ : SetOrder) (hopping lattice T : ℝ)
    (hl : hopping = 0 ∨ (0 < hopping ∧ lattice = 1)) (cap : Option Int) (hcap : ∀ c, cap = some c → 1 ≤ c)
    (as : List (AddArgs ℝ)) (hne : as ≠ []) (hc : Clean realPrims hopping T as)
    (hf : ((modes T as).map (·.freq)).Nodup)
    (hb : (∀ a ∈ as, a.ctype = "BondPeierls") ∨ (∀ a ∈ as, a.ctype ≠ "BondPeierls")) :
    ∃ m b ae, (Model.fromParameters hopping lattice T cap 1).adds realPrims as = .ok m ∧
      m.absExtent = some ae ∧ buildSystem σ m = .ok b ∧ ∀ k w eta : ℝ, 0 < eta →
      ∃ Ψ, Resolvent m ae ⟨k, w, eta⟩ Ψ ∧ (∀ Ψ', Resolvent m ae ⟨k, w, eta⟩ Ψ' → Ψ' = Ψ) ∧
        (∀ spsolve, Exact spsolve →
          sparseSolve realPhys m ⟨k, w, eta⟩ (fullBasis b.eqs) b.eqs spsolve = .ok (Ψ 0 0)) ∧
        denseSolve realPhys m ⟨k, w, eta⟩ (localBasis b.eqs) b.eqs = .ok (some (Ψ 0 0)) := by
  obtain ⟨m, b, h1, ⟨ae, h2⟩, h3⟩ := C16_assembled σ realPrims C42_names hopping lattice T cap hcap as hne hc hf hb
  refine ⟨m, b, ae, h1, h2.absExtent, h3, ?_⟩
  intro k w eta heta
  exact C55_exact σ m ae h2 b h3 (physical_assembled h1 hb hl) ⟨k, w, eta⟩ heta

/-- The hypotheses are met by a Holstein–Peierls model and by a BondPeierls model at finite temperature; the
resolvent amplitude is not zero. -/
example (σ : SetOrder) : (∃ m b ae Ψ, (Model.fromParameters (1 : ℝ) 1 0 none 1).adds realPrims exCalls = .ok m ∧
      buildSystem σ m = .ok b ∧ Resolvent m ae ⟨0, -2, 1 / 10⟩ Ψ ∧
      denseSolve realPhys m ⟨0, -2, 1 / 10⟩ (localBasis b.eqs) b.eqs = .ok (some (Ψ 0 0)) ∧ Ψ 0 0 ≠ 0) ∧
    (∃ m b ae Ψ, (Model.fromParameters (1 : ℝ) 1 1 none 1).adds realPrims exBondCalls = .ok m ∧
      buildSystem σ m = .ok b ∧ Resolvent m ae ⟨0, -2, 1 / 10⟩ Ψ ∧
      denseSolve realPhys m ⟨0, -2, 1 / 10⟩ (localBasis b.eqs) b.eqs = .ok (some (Ψ 0 0)) ∧ Ψ 0 0 ≠ 0) := by
  constructor
  · obtain ⟨h1, h2, h3⟩ := exCalls_clean
    obtain ⟨m, b, ae, k1, -, k2, k3⟩ := C55_assembled σ 1 1 0 (Or.inr ⟨one_pos, rfl⟩) none (by simp) exCalls
      (by simp [exCalls]) h1 h2 (Or.inr h3)
    obtain ⟨Ψ, k4, -, -, k5⟩ := k3 0 (-2) (1 / 10) (by norm_num)
    have hpos := (C23_assembled σ 1 1 0 (Or.inr ⟨one_pos, rfl⟩) none (by simp) exCalls
      (by simp [exCalls]) h1 h2 (Or.inr h3) m b k1 k2 0 (-2) (1 / 10) (by norm_num) _ (Or.inr k5)).1
    exact ⟨m, b, ae, Ψ, k1, k2, k4, k5, fun e => by rw [e] at hpos; simp at hpos⟩
  · obtain ⟨h1, h2, h3⟩ := exBondCalls_clean
    obtain ⟨m, b, ae, k1, -, k2, k3⟩ := C55_assembled σ 1 1 1 (Or.inr ⟨one_pos, rfl⟩) none (by simp) exBondCalls
      (by simp [exBondCalls]) h1 h2 (Or.inl h3)
    obtain ⟨Ψ, k4, -, -, k5⟩ := k3 0 (-2) (1 / 10) (by norm_num)
    have hpos := (C23_assembled σ 1 1 1 (Or.inr ⟨one_pos, rfl⟩) none (by simp) exBondCalls
      (by simp [exBondCalls]) h1 h2 (Or.inl h3) m b k1 k2 0 (-2) (1 / 10) (by norm_num) _ (Or.inr k5)).1
    exact ⟨m, b, ae, Ψ, k1, k2, k4, k5, fun e => by rw [e] at hpos; simp at hpos⟩

end GGCE.Props
