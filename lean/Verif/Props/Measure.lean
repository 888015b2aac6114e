import Verif.Spec.Measure
import Verif.Proofs.HopsMeasure
import Verif.Props.Thermal

/-!
Property C101: the results have a spectral measure, and as the limits grow they converge to the Stieltjes transform of the
one probability measure that has the moments of the Hamiltonian (at finite temperature, of the thermal ensemble).
-/

set_option linter.unusedSectionVars false

namespace GGCE.Props
open Spec Arr Complex Filter Topology MeasureTheory
open scoped InnerProductSpace Nat

variable {m m' : Model ℝ} {ae : ℤ} {k w eta : ℝ}

theorem moment_growth (hp : Physical m) (k : ℝ) : ∃ A : ℝ, 0 < A ∧ ∀ j : ℕ, ‖moment m k j‖ ≤ A ^ j * j ! := by
  obtain ⟨c, hsh⟩ := hp.shifts
  obtain ⟨A, hA, h⟩ := Hops.iter_factorial (hops_ok (k := k) hsh hp.adj)
  refine ⟨A, hA, fun j => ?_⟩
  have := h j
  rw [iter_powers] at this
  exact this

/-- the spectral measure of the Hamiltonian without limits -/
theorem exists_measure (hp : Physical m) (k : ℝ) :
    ∃ ρ : Measure ℝ, IsProbabilityMeasure ρ ∧ HasMoments ρ (moment m k) ∧
      (∀ ρ' : Measure ℝ, IsProbabilityMeasure ρ' → HasMoments ρ' (moment m k) → ρ' = ρ) ∧
      ∀ (w eta : ℝ) (u : States), 0 < eta → Untruncated m k w eta u → u 0 = stieltjes ρ (energyAt w eta) := by
  obtain ⟨c, hsh⟩ := hp.shifts
  obtain ⟨ρ, h1, h2, h3⟩ := Hops.exists_measure (hops_ok (k := k) hsh hp.adj) (v := bare) (bare_iter m k) inner_bare norm_bare
  have h2' : HasMoments ρ (moment m k) := by
    intro j
    refine ⟨(h2 j).1, (h2 j).2.trans ?_⟩
    show (hops m k).iter j 0 = powers m k j 0
    rw [iter_powers]
  obtain ⟨A, hA, hg⟩ := moment_growth hp k
  refine ⟨ρ, h1, h2', fun ρ' hρ' h => hasMoments_unique hA hg h h2', fun w eta u heta hu => ?_⟩
  exact (h3 _ u (by rw [energyAt_im]; exact heta.ne') ((untruncated_iff u).1 hu)).symm

/-- **C101**, whatever the limits. For given couplings, limits and momentum there is one probability measure `ρ` on the
energies such that the number returned at every `w` and `eta` is `∫ dρ(x) / (w + i eta - x)`; if all limits are at least
`J + 1`, its moments through `2 J + 1` are those of the Hamiltonian without limits. -/
theorem C101_finite (σ : SetOrder) (hopping lattice T : ℝ) (hl : hopping = 0 ∨ (0 < hopping ∧ lattice = 1))
    (as : List (AddArgs ℝ)) (hne : as ≠ []) (hc : Clean realPrims hopping T as)
    (hf : ((modes T as).map (·.freq)).Nodup)
    (hb : (∀ a ∈ as, a.ctype = "BondPeierls") ∨ (∀ a ∈ as, a.ctype ≠ "BondPeierls")) :
    ∃ m : Model ℝ, (Model.fromParameters hopping lattice T none 1).adds realPrims as = .ok m ∧
      ∀ (J : ℕ) (cap : Option Int) (as' : List (AddArgs ℝ)), (∀ c, cap = some c → (J + 1 : ℤ) ≤ c) →
        List.Forall₂ SameCall as as' → (∀ a ∈ as', Valid T a ∧ CallAtLeast (J + 1) a) →
        ∃ m' b, (Model.fromParameters hopping lattice T cap 1).adds realPrims as' = .ok m' ∧
          buildSystem σ m' = .ok b ∧ ∀ k : ℝ, ∃ ρ : Measure ℝ, IsProbabilityMeasure ρ ∧
            (∀ j ≤ 2 * J + 1, Integrable (fun x : ℝ => x ^ j) ρ ∧ ((∫ x, x ^ j ∂ρ : ℝ) : ℂ) = moment m k j) ∧
            ∀ w eta : ℝ, 0 < eta → Gives m' b ⟨k, w, eta⟩ (stieltjes ρ (energyAt w eta)) := by
  obtain ⟨m, -, h1, -, -⟩ := assembled C42_names.known hopping lattice T none (by simp) as hne hc hf
  refine ⟨m, h1, fun J cap as' hcap hs hv => ?_⟩
  obtain ⟨m', b, ae, k1, k2, k3, k4, k5, k6⟩ := same_assembled σ hne hc hf hb
    (fun c h => le_trans (by omega) (hcap c h)) hs (fun a ha => (hv a ha).1) h1
  refine ⟨m', b, k1, k2, fun k => ?_⟩
  have hp := physical_assembled h1 hb hl
  obtain ⟨c, hsh⟩ := hp.shifts
  have hQ := hops_ok (k := k) hsh hp.adj
  obtain ⟨H, q1, q2, q3⟩ := C56_operator σ m' ae k3 b k2 (physical_assembled k1 k6 hl) k
  have hsub := hops_sub (k := k) k3.toListsOk (allowed_zero k3.toShaped)
  rw [hops_same k4] at hsub
  have hop : H = (hops m k).op (Allowed m' ae) := by
    ext f n
    rw [q2, Hops.op_apply hQ hsub, ← hops_same k4, hops_act_allowed]
  obtain ⟨ρ, p1, p2, p3⟩ := spectral_measure q1 norm_bare
  refine ⟨ρ, p1, fun j hj => ⟨(p2 j).1, (p2 j).2.trans ?_⟩, fun w eta heta => ?_⟩
  · rw [hop, Hops.moment_eq hQ hsub (bare_iter m k) inner_bare
      (fun n h => reach_allowed hQ (adjacent_assembled hc hf h1) k4.types (k5 _ hcap (fun a ha => (hv a ha).2)) h) hj, iter_powers]
    rfl
  · have := p3 (energyAt w eta) (by rw [energyAt_im]; exact heta.ne')
    unfold stieltjes
    rw [this]
    exact ⟨(q3 w eta heta).2.1, (q3 w eta heta).2.2⟩

/-- **C101**, as the limits grow. For given couplings and momentum, exactly one probability measure `ρ` has the moments of
the Hamiltonian without limits, and the returned numbers converge to `∫ dρ(x) / (w + i eta - x)` as the limits grow in
whatever way; so the spectral function converges to `ρ` broadened by a Lorentzian of half width `eta`. -/
theorem C101_limit (hopping lattice T : ℝ) (hl : hopping = 0 ∨ (0 < hopping ∧ lattice = 1))
    (as : List (AddArgs ℝ)) (hne : as ≠ []) (hc : Clean realPrims hopping T as)
    (hf : ((modes T as).map (·.freq)).Nodup)
    (hb : (∀ a ∈ as, a.ctype = "BondPeierls") ∨ (∀ a ∈ as, a.ctype ≠ "BondPeierls")) :
    ∃ m : Model ℝ, (Model.fromParameters hopping lattice T none 1).adds realPrims as = .ok m ∧
      ∀ k : ℝ, ∃ ρ : Measure ℝ, IsProbabilityMeasure ρ ∧ HasMoments ρ (moment m k) ∧
        (∀ ρ' : Measure ℝ, IsProbabilityMeasure ρ' → HasMoments ρ' (moment m k) → ρ' = ρ) ∧
        ∀ w eta : ℝ, 0 < eta → ∀ ε > 0, ∃ B : ℤ, ∀ (σ : SetOrder) (cap : Option Int) (as' : List (AddArgs ℝ)),
          (∀ c, cap = some c → 1 ≤ c ∧ B ≤ c) → List.Forall₂ SameCall as as' →
          (∀ a ∈ as', Valid T a ∧ CallAtLeast B a) →
          ∃ m' b, (Model.fromParameters hopping lattice T cap 1).adds realPrims as' = .ok m' ∧
            buildSystem σ m' = .ok b ∧ (∃ G, Returned m' b ⟨k, w, eta⟩ G) ∧
            ∀ G, Returned m' b ⟨k, w, eta⟩ G →
              ‖G - stieltjes ρ (energyAt w eta)‖ ≤ ε ∧ |-G.im / Real.pi - broadened ρ w eta| ≤ ε := by
  obtain ⟨m, -, h1, -, -⟩ := assembled C42_names.known hopping lattice T none (by simp) as hne hc hf
  refine ⟨m, h1, fun k => ?_⟩
  obtain ⟨ρ, p1, p2, p3, p4⟩ := exists_measure (physical_assembled h1 hb hl) k
  refine ⟨ρ, p1, p2, p3, fun w eta heta ε hε => ?_⟩
  obtain ⟨m2, u, q1, q2, -, q3⟩ := C60_assembled hopping lattice T hl as hne hc hf hb k w eta heta
  rw [h1] at q1
  cases q1
  obtain ⟨B, hB⟩ := q3 ε hε
  refine ⟨B, fun σ cap as' hcap hs hv => ?_⟩
  obtain ⟨m', b, r1, r2, r3, r4⟩ := hB σ cap as' hcap hs hv
  refine ⟨m', b, r1, r2, r3, fun G hG => ?_⟩
  have h := r4 G hG
  rw [p4 w eta u heta q2] at h
  refine ⟨h, ?_⟩
  have e1 : broadened ρ w eta = -(stieltjes ρ (energyAt w eta)).im / Real.pi := by
    rw [← stieltjes_im heta]
    unfold energyAt
    rw [mul_comm I]
  rw [e1, ← sub_div, ← neg_sub', abs_div, abs_neg, ← Complex.sub_im, abs_of_pos Real.pi_pos]
  have h2 := (Complex.abs_im_le_norm (G - stieltjes ρ (energyAt w eta))).trans h
  rw [div_le_iff₀ Real.pi_pos]
  have := Real.two_le_pi
  nlinarith

/-- **C101**, at finite temperature, for couplings to the displacement of the phonons (Holstein, Peierls, BondPeierls).
Exactly one probability measure `ρ` has the moments of the thermal ensemble, and the returned numbers converge to
`∫ dρ(x) / (w + i eta - x)` as the limits (those of the fictitious phonons too) grow in whatever way. -/
theorem C101_thermal (hopping lattice T : ℝ) (hT : 0 < T) (hl : hopping = 0 ∨ (0 < hopping ∧ lattice = 1))
    (as : List (AddArgs ℝ)) (hne : as ≠ []) (hc : Clean realPrims hopping T as)
    (hf : ((modes T as).map (·.freq)).Nodup)
    (hb : (∀ a ∈ as, a.ctype = "BondPeierls") ∨ (∀ a ∈ as, a.ctype ≠ "BondPeierls")) (hpos : ∀ a ∈ as, 0 < a.freq)
    (hd : ∀ a ∈ as, Displacement a.ctype) :
    ∃ m₀ : Model ℝ, (Model.fromParameters hopping lattice 0 none 1).adds realPrims as = .ok m₀ ∧
      ∀ k : ℝ, ∃ ρ : Measure ℝ, IsProbabilityMeasure ρ ∧ HasMoments ρ (thermalMoment m₀ T k) ∧
        (∀ ρ' : Measure ℝ, IsProbabilityMeasure ρ' → HasMoments ρ' (thermalMoment m₀ T k) → ρ' = ρ) ∧
        ∀ w eta : ℝ, 0 < eta → ∀ ε > 0, ∃ B : ℤ, ∀ (σ : SetOrder) (cap : Option Int) (as' : List (AddArgs ℝ)),
          (∀ c, cap = some c → 1 ≤ c ∧ B ≤ c) → List.Forall₂ SameCall as as' →
          (∀ a ∈ as', Valid T a ∧ CallAtLeast B a) →
          ∃ m' b, (Model.fromParameters hopping lattice T cap 1).adds realPrims as' = .ok m' ∧
            buildSystem σ m' = .ok b ∧ (∃ G, Returned m' b ⟨k, w, eta⟩ G) ∧
            ∀ G, Returned m' b ⟨k, w, eta⟩ G →
              ‖G - stieltjes ρ (energyAt w eta)‖ ≤ ε ∧ |-G.im / Real.pi - broadened ρ w eta| ≤ ε := by
  have h0 := fromParameters_blueprint hopping lattice 0 none as (clean_zero hc) (nodup_zero hT hc hf)
  obtain ⟨p1, p2, p3⟩ := thermal_hyp (hopping := hopping) (lattice := lattice) hT hpos
  obtain ⟨m, h1, h2⟩ := C101_limit hopping lattice T hl as hne hc hf hb
  rw [fromParameters_blueprint hopping lattice T none as hc hf] at h1
  cases h1
  refine ⟨_, h0, fun k => ?_⟩
  have key : moment (blueprint hopping lattice T none (parts realPrims hopping T as)) k =
      thermalMoment (blueprint hopping lattice 0 none (parts realPrims hopping 0 as)) T k := funext (fun j =>
    (moment_thermal (k := k) (doubles_code (hopping := hopping) (lattice := lattice) hT hd) hT p1 p2 p3 j).2)
  rw [← key]
  exact h2 k

/-! ### the hypotheses are met -/

/-- A Holstein–Peierls model at temperature one: the results with the limits of `exWarm`, and those with growing limits. -/
example (σ : SetOrder) : (∃ m b, (Model.fromParameters (1 : ℝ) 1 1 none 1).adds realPrims exWarm = .ok m ∧
      buildSystem σ m = .ok b ∧ ∃ ρ : Measure ℝ, IsProbabilityMeasure ρ ∧
        ∀ w eta : ℝ, 0 < eta → Gives m b ⟨1 / 2, w, eta⟩ (stieltjes ρ (energyAt w eta))) ∧
    ∃ m₀ : Model ℝ, (Model.fromParameters (1 : ℝ) 1 0 none 1).adds realPrims exWarm = .ok m₀ ∧
      ∃ ρ : Measure ℝ, IsProbabilityMeasure ρ ∧ HasMoments ρ (thermalMoment m₀ 1 (1 / 2)) ∧
        ∃ j : ℕ, 1 ≤ j ∧ ∃ m b, (Model.fromParameters (1 : ℝ) 1 1 none 1).adds realPrims (exWarm.map (withLimits j)) = .ok m ∧
          buildSystem σ m = .ok b ∧ ∃ G, Returned m b ⟨1 / 2, -3, 1 / 10⟩ G ∧
            |-G.im / Real.pi - broadened ρ (-3) (1 / 10)| ≤ 1 / 1000 := by
  obtain ⟨h1, h2, h3, h4⟩ := exWarm_clean (T := 1) one_pos
  have hb : (∀ a ∈ exWarm, a.ctype = "BondPeierls") ∨ (∀ a ∈ exWarm, a.ctype ≠ "BondPeierls") := Or.inr (by simp [exWarm])
  have hne : exWarm ≠ [] := by simp [exWarm]
  constructor
  · obtain ⟨_, -, h⟩ := C101_finite σ 1 1 1 (Or.inr ⟨one_pos, rfl⟩) exWarm hne h1 h2 hb
    obtain ⟨m, b, q1, q2, q3⟩ := h 0 none exWarm (by simp) (List.forall₂_same.2 (fun a _ => ⟨rfl, rfl, rfl, rfl, rfl⟩))
      (fun a ha => ⟨h1.valid a ha, by
        simp only [exWarm, List.mem_cons, List.not_mem_nil, or_false] at ha
        rcases ha with rfl | rfl <;> constructor <;> simp⟩)
    obtain ⟨ρ, r1, -, r2⟩ := q3 (1 / 2)
    exact ⟨m, b, q1, q2, ρ, r1, r2⟩
  · obtain ⟨m₀, e0, e1⟩ := C101_thermal 1 1 1 one_pos (Or.inr ⟨one_pos, rfl⟩) exWarm hne h1 h2 hb h3 h4
    obtain ⟨ρ, r1, r2, -, r3⟩ := e1 (1 / 2)
    refine ⟨m₀, e0, ρ, r1, r2, ?_⟩
    obtain ⟨B, hB⟩ := r3 (-3) (1 / 10) (by norm_num) (1 / 1000) (by norm_num)
    have hj : B ≤ ((B.toNat + 1 : ℕ) : ℤ) := by omega
    obtain ⟨m, b, q1, q2, ⟨G, q3⟩, q4⟩ := hB σ none (exWarm.map (withLimits (B.toNat + 1 : ℕ))) (by simp)
      (List.forall₂_map_right_iff.2 (List.forall₂_same.2 (fun a _ => ⟨rfl, rfl, rfl, rfl, rfl⟩)))
      (fun a ha => ⟨valid_withLimits h1 (by omega) a ha, by
        obtain ⟨x, -, rfl⟩ := List.mem_map.1 ha
        exact ⟨hj, hj, fun y h => by rw [map_const h]; exact hj, fun y h => by rw [map_const h]; exact hj⟩⟩)
    exact ⟨_, by omega, m, b, q1, q2, G, q3, (q4 G q3).2⟩

end GGCE.Props
