import Verif.Proofs.TextbookLimit
import Verif.Props.Textbook
import Verif.Props.Limit

/-!
Property C131: as the limits grow, the numbers converge to the Green's function of the Hamiltonian of the literature.
-/

namespace GGCE.Props
open Spec Arr Complex Filter Topology

/-- **C131**. Fix the couplings and let the limits (`M`, `N`, the limits of the fictitious phonons, the cap) grow in whatever
way. The Hamiltonian of the literature, without limits and with any signs of the coupling constants, has exactly one
`⟨k| (ω + iη - H)⁻¹`, and the numbers returned by the solvers converge to `⟨k| (ω + iη - H)⁻¹ c†_0 |0⟩`. -/
theorem C131_limit (hopping lattice T : ℝ) (hl : hopping = 0 ∨ (0 < hopping ∧ lattice = 1))
    (as : List (AddArgs ℝ)) (hne : as ≠ []) (hc : Clean realPrims hopping T as)
    (hf : ((modes T as).map (·.freq)).Nodup)
    (hb : (∀ a ∈ as, a.ctype = "BondPeierls") ∨ (∀ a ∈ as, a.ctype ≠ "BondPeierls"))
    (hpos : 0 < T → ∀ a ∈ as, 0 < a.freq) (bs : List Branch) (hbs : Requested hopping T as bs)
    (k w eta : ℝ) (heta : 0 < eta) :
    ∃ F, ExactPropagator (textbook hopping bs) bs.length lattice ⟨k, w, eta⟩ F ∧
      (∀ F', ExactPropagator (textbook hopping bs) bs.length lattice ⟨k, w, eta⟩ F' → F' = F) ∧
      ∀ ε > 0, ∃ B : ℤ, ∀ (σ : SetOrder) (cap : Option Int) (as' : List (AddArgs ℝ)),
        (∀ c, cap = some c → 1 ≤ c ∧ B ≤ c) → List.Forall₂ SameCall as as' →
        (∀ a ∈ as', Valid T a ∧ CallAtLeast B a) →
        ∃ m b, (Model.fromParameters hopping lattice T cap 1).adds realPrims as' = .ok m ∧
          buildSystem σ m = .ok b ∧ (∃ G, Returned m b ⟨k, w, eta⟩ G) ∧
          ∀ G, Returned m b ⟨k, w, eta⟩ G → ‖G - F (ket 0 0)‖ ≤ ε := by
  obtain ⟨m, u, h1, hu, huniq, hlim⟩ := C60_assembled hopping lattice T hl as hne hc hf hb k w eta heta
  rw [fromParameters_blueprint hopping lattice T none as hc hf] at h1
  cases h1
  obtain ⟨ds', hd, hD⟩ := exists_denoted (parts_requests hc hpos) hbs
  have hlen : bs.length = ds'.length := hD.length_eq.symm
  have hfr : ds'.map (·.freq) = (parts realPrims hopping T as).map (·.freq) ∧
      ds'.map (·.M) = (parts realPrims hopping T as).map (·.M) ∧
      ds'.map (·.N) = (parts realPrims hopping T as).map (·.N) ∧
      ds'.length = (parts realPrims hopping T as).length := by
    generalize parts realPrims hopping T as = ds at hd
    clear hD hlen
    induction hd with
    | nil => simp
    | cons h _ ih => rcases h with rfl | rfl <;> simp [ih]
  obtain ⟨ε, hε⟩ := partTerms_signs hd 0
  have hm : blueprint hopping lattice T none ds' =
      gaugeModel ε 1 (blueprint hopping lattice T none (parts realPrims hopping T as)) := by
    unfold gaugeModel blueprint
    simp only [hfr, hε, Units.val_one, Int.cast_one, one_mul]
  have hm' : blueprint hopping lattice T none (parts realPrims hopping T as) =
      gaugeModel ε 1 (blueprint hopping lattice T none ds') := by
    rw [hm]
    unfold gaugeModel
    simp only [List.map_map, Function.comp_def, gaugeTerm_twice, List.map_id', Units.val_one, Int.cast_one, one_mul]
  have hidx : ∀ ds : List (Part ℝ), ∀ h ∈ (blueprint hopping lattice T none ds).ham.terms,
      h.phononIndex < (blueprint hopping lattice T none ds).nTypes := by
    intro ds h hh
    have := (index_partTerms (show h ∈ partTerms ds 0 from hh)).2
    show h.phononIndex < ds.length
    simpa using this
  obtain ⟨u', hu', hval⟩ := untruncated_gauge ε (hidx _) hu
  rw [← hm] at hu'
  have hF := untruncated_exact hD rfl hu'
  rw [hlen]
  refine ⟨onChain lattice k u', hF, fun F' hF' => ?_, fun δ hδ => ?_⟩
  · obtain ⟨v, hv, hva⟩ := exact_untruncated hD (rfl : blueprint hopping lattice T none ds' = _) hF'
    obtain ⟨v', hv', hval'⟩ := untruncated_gauge ε (hidx _) hv
    rw [← hm'] at hv'
    have hvu := huniq _ hv'
    refine fock_ext (fun e n => ?_)
    rw [onChain_ket, ket_amplitudes hF'.bloch e n, ← hva, hval, ← hvu, hval']
    show _ = _ * (unitC (occSign (parts realPrims hopping T as).length ε _) * (unitC (occSign ds'.length ε _) * _))
    rw [hfr.2.2.2, ← mul_assoc (unitC _), ← unitC_mul, ← pow_two, Int.units_sq, unitC_one, one_mul]
  · obtain ⟨B, hB⟩ := hlim δ hδ
    refine ⟨B, fun σ cap as' e1 e2 e3 => ?_⟩
    have h00 : onChain lattice k u' (ket 0 0) = u 0 := by
      rw [onChain_ket]
      have h0 : (0 : Occ).shift (-0) = 0 := rfl
      rw [h0, hval, occSign_zero, occFact_zero]
      simp
    rw [h00]
    exact hB σ cap as' e1 e2 e3

/-- The two-branch model of the other examples: the exact propagator exists, is unique, and is approached. -/
example (σ : SetOrder) : ∃ F, ExactPropagator (textbook 1 [⟨"Holstein", 2, 1⟩, ⟨"Peierls", 1, 1 / 2⟩]) 2 1 ⟨0, -2, 1 / 10⟩ F ∧
    (∀ F', ExactPropagator (textbook 1 [⟨"Holstein", 2, 1⟩, ⟨"Peierls", 1, 1 / 2⟩]) 2 1 ⟨0, -2, 1 / 10⟩ F' → F' = F) ∧
    ∃ (m : Model ℝ) (b : Built ℝ) (G : ℂ), buildSystem σ m = .ok b ∧
      Returned m b ⟨0, -2, 1 / 10⟩ G ∧ ‖G - F (ket 0 0)‖ ≤ 1 / 1000 := by
  obtain ⟨h1, h2, h3⟩ := exCalls_clean
  obtain ⟨F, f1, f2, f3⟩ := C131_limit 1 1 0 (Or.inr ⟨one_pos, rfl⟩) exCalls (by simp [exCalls])
    h1 h2 (Or.inr h3) (fun h => absurd h (lt_irrefl _)) [⟨"Holstein", 2, 1⟩, ⟨"Peierls", 1, 1 / 2⟩]
    (by
      have : requests 1 0 exCalls = [("Holstein", 2, 1 ^ 2), ("Peierls", 1, (1 / 2) ^ 2)] := by
        simp [requests, exCalls, strengthSq]
      unfold Requested
      rw [this]
      exact .cons ⟨rfl, rfl, rfl⟩ (.cons ⟨rfl, rfl, rfl⟩ .nil)) 0 (-2) (1 / 10) (by norm_num)
  refine ⟨F, f1, f2, ?_⟩
  obtain ⟨B, hB⟩ := f3 (1 / 1000) (by norm_num)
  have hj : 1 ≤ max 1 B.toNat := le_max_left _ _
  obtain ⟨m, b, -, g2, ⟨G, g3⟩, g4⟩ := hB σ none (exCalls.map (withLimits ((max 1 B.toNat : ℕ) : ℤ))) (by simp)
    (by
      rw [List.forall₂_map_right_iff, List.forall₂_same]
      exact fun a _ => ⟨rfl, rfl, rfl, rfl, rfl⟩)
    (by
      intro a ha
      refine ⟨valid_withLimits h1 hj a ha, ?_⟩
      obtain ⟨x, hx, rfl⟩ := List.mem_map.1 ha
      have hjB : B ≤ ((max 1 B.toNat : ℕ) : ℤ) := (Int.self_le_toNat B).trans (by exact_mod_cast le_max_right _ _)
      exact ⟨hjB, hjB, fun y h => by rw [map_const h]; exact hjB, fun y h => by rw [map_const h]; exact hjB⟩)
  exact ⟨m, b, G, g2, g3, g4 G g3⟩

end GGCE.Props
