import Verif.Spec.Thermal
import Verif.Proofs.ThermalModel

/-!
Property C100: finite temperature means the thermal ensemble.

`thermalMoment m T k j` (`Spec/Thermal.lean`) is the `j`-th moment of the spectral function of the Hamiltonian of `m`, for
an electron added to phonons in thermal equilibrium at temperature `T`. It is defined for the model of the same calls at
zero temperature, `m₀`, and mentions no fictitious phonons.
-/

set_option linter.unusedSectionVars false

namespace GGCE.Props
open Spec Complex Filter Topology MeasureTheory

theorem thermal_hyp {hopping lattice T : ℝ} {as : List (AddArgs ℝ)} (hT : 0 < T) (hpos : ∀ a ∈ as, 0 < a.freq) :
    let m := blueprint hopping lattice 0 none (parts realPrims hopping 0 as)
    (∀ t < m.nTypes, 0 < m.ham.freqs.getD t 0) ∧
      (∀ t < m.nTypes, (bogo T as t).1 ^ 2 = 1 / (1 - ratio m T t)) ∧
      (∀ t < m.nTypes, (bogo T as t).2 ^ 2 = ratio m T t / (1 - ratio m T t)) := by
  intro m
  have hn : m.nTypes = as.length := by
    show (parts realPrims hopping 0 as).length = _
    rw [parts_zero, List.length_map]
  have hfr : m.ham.freqs = as.map (·.freq) := by
    show (parts realPrims hopping 0 as).map (·.freq) = _
    rw [parts_zero, List.map_map]; rfl
  have h := fun t (ht : t < m.nTypes) => bogo_squares hT hpos t (hn ▸ ht)
  unfold ratio
  rw [hfr]
  exact ⟨fun t ht => (h t ht).1, fun t ht => (h t ht).2.1, fun t ht => (h t ht).2.2⟩

/-- **C100**, for couplings to the displacement of the phonons (Holstein, Peierls, BondPeierls). The results at
temperature `T` are those of the electron in the thermal ensemble of the phonons: with all limits at least `J + 1`, the
expansion of every returned number in `1 / (w + i eta)` has the thermal moments `0, ..., 2 J + 1` as its coefficients.

The full statement is without `hd`. It is false for EdwardsFermionBoson couplings, see `C100_edwards_fails`. -/
theorem C100_ensemble_partial (hopping lattice T : ℝ) (hT : 0 < T) (hl : hopping = 0 ∨ (0 < hopping ∧ lattice = 1))
    (as : List (AddArgs ℝ)) (hne : as ≠ []) (hc : Clean realPrims hopping T as)
    (hf : ((modes T as).map (·.freq)).Nodup)
    (hb : (∀ a ∈ as, a.ctype = "BondPeierls") ∨ (∀ a ∈ as, a.ctype ≠ "BondPeierls")) (hpos : ∀ a ∈ as, 0 < a.freq)
    (hd : ∀ a ∈ as, Displacement a.ctype) :
    ∃ m₀ : Model ℝ, (Model.fromParameters hopping lattice 0 none 1).adds realPrims as = .ok m₀ ∧
      (∀ k j, Integrable (fun ν : Sample => onBackground m₀ k ν.occ j ν.occ 0) (gibbs m₀ T)) ∧
      ∀ (J : ℕ) (σ : SetOrder) (cap : Option Int) (as' : List (AddArgs ℝ)),
        (∀ c, cap = some c → (J + 1 : ℤ) ≤ c) → List.Forall₂ SameCall as as' →
        (∀ a ∈ as', Valid T a ∧ CallAtLeast (J + 1) a) →
        ∃ m b, (Model.fromParameters hopping lattice T cap 1).adds realPrims as' = .ok m ∧
          buildSystem σ m = .ok b ∧ ∀ k w eta : ℝ, 0 < eta → ∃ G, Gives m b ⟨k, w, eta⟩ G ∧
          ‖G - ∑ j ∈ Finset.range (2 * J + 2), thermalMoment m₀ T k j / energyAt w eta ^ (j + 1)‖ ≤
            (thermalMoment m₀ T k (2 * J + 2)).re / (‖energyAt w eta‖ ^ (2 * J + 2) * eta) := by
  have h0 := fromParameters_blueprint hopping lattice 0 none as (clean_zero hc) (nodup_zero hT hc hf)
  obtain ⟨p1, p2, p3⟩ := thermal_hyp (hopping := hopping) (lattice := lattice) hT hpos
  have key := fun (k : ℝ) (j : ℕ) => moment_thermal (k := k) (doubles_code (hopping := hopping) (lattice := lattice) hT hd)
    hT p1 p2 p3 j
  refine ⟨_, h0, fun k j => (key k j).1, ?_⟩
  obtain ⟨m, h1, h2⟩ := C79_moments hopping lattice T hl as hne hc hf hb
  rw [fromParameters_blueprint hopping lattice T none as hc hf] at h1
  cases h1
  intro J σ cap as' hcap hs hv
  obtain ⟨m', b, q1, q2, q3⟩ := h2 J σ cap as' hcap hs hv
  refine ⟨m', b, q1, q2, fun k w eta heta => ?_⟩
  obtain ⟨G, g1, g2⟩ := q3 k w eta heta
  refine ⟨G, g1, ?_⟩
  simp only [(key k _).2] at g2
  exact g2

/-- C100, the first three moments of the thermal ensemble in closed form, for all couplings: weight one, mean
`-2 t cos (k a)` and the textbook variance, with the emission vertex for `n + 1` and the absorption vertex for `n`. -/
theorem C100_textbook (hopping lattice T : ℝ) (hT : 0 < T) (as : List (AddArgs ℝ)) (hc : Clean realPrims hopping T as)
    (hf : ((modes T as).map (·.freq)).Nodup) (hpos : ∀ a ∈ as, 0 < a.freq) (m₀ : Model ℝ)
    (h0 : (Model.fromParameters hopping lattice 0 none 1).adds realPrims as = .ok m₀) (k : ℝ) :
    thermalMoment m₀ T k 0 = 1 ∧ thermalMoment m₀ T k 1 = ((-(2 * hopping * Real.cos (k * lattice)) : ℝ) : ℂ) ∧
      thermalMoment m₀ T k 2 =
        (((-(2 * hopping * Real.cos (k * lattice))) ^ 2 + textbookVariance hopping T (k * lattice) as : ℝ) : ℂ) := by
  rw [fromParameters_blueprint hopping lattice 0 none as (clean_zero hc) (nodup_zero hT hc hf)] at h0
  cases h0
  obtain ⟨p1, p2, p3⟩ := thermal_hyp (hopping := hopping) (lattice := lattice) hT hpos
  have hD := doubles_twin (hopping := hopping) (lattice := lattice) hT hc.known
  have key := fun (j : ℕ) => (moment_thermal (k := k) hD hT p1 p2 p3 j).2
  rw [← key 0, ← key 1, ← key 2]
  refine ⟨if_pos rfl, powers_one_zero _ k, ?_⟩
  rw [moment_two hD.index']
  have h2 : ((twinModel hopping lattice T as).ham.terms.map (fun h =>
      ((twinModel hopping lattice T as).ham.terms.map
        (pairWeight (k * (twinModel hopping lattice T as).latticeConstant) h)).sum)).sum = _ :=
    cross_twin (x := k * lattice) hT as 0 hc hpos
  rw [h2]
  push_cast
  rfl

/-- C100 fails for EdwardsFermionBoson couplings: the second moment of the returned numbers is not that of the thermal
ensemble. With one such coupling of strength `g` the returned numbers, whatever the limits, have
`z³ (G - 1/z - ε/z²)` tending to `ε² + 2 g² (2 n + 1)`, while the thermal second moment is
`ε² + 2 g² (n + 1) + 4 g² n cos² (k a)`. (The fictitious phonons are coupled with the terms of the physical ones; the
transformation asks for creation and annihilation to be exchanged.) -/
theorem C100_edwards_fails (σ : SetOrder) (hopping lattice T : ℝ) (hT : 0 < T)
    (hl : hopping = 0 ∨ (0 < hopping ∧ lattice = 1)) (cap : Option Int) (hcap : ∀ c, cap = some c → 1 ≤ c)
    (a : AddArgs ℝ) (ha : a.ctype = "EdwardsFermionBoson") (hc : Clean realPrims hopping T [a]) (hpos : 0 < a.freq) :
    ∃ m b m₀, (Model.fromParameters hopping lattice T cap 1).adds realPrims [a] = .ok m ∧ buildSystem σ m = .ok b ∧
      (Model.fromParameters hopping lattice 0 none 1).adds realPrims [a] = .ok m₀ ∧
      ∀ k eta ε : ℝ, 0 < eta → ε = -(2 * hopping * Real.cos (k * lattice)) →
        ∃ (G : ℝ → ℂ) (L : ℂ), (∀ w, Gives m b ⟨k, w, eta⟩ (G w)) ∧
          Tendsto (fun w => energyAt w eta ^ 3 * (G w - 1 / energyAt w eta - ε / energyAt w eta ^ 2)) (atBot ⊔ atTop) (𝓝 L) ∧
          L - thermalMoment m₀ T k 2 =
            ((-(2 * strengthSq hopping a * thermal T a.freq * Real.cos (2 * (k * lattice))) : ℝ) : ℂ) ∧
          (strengthSq hopping a ≠ 0 → Real.cos (2 * (k * lattice)) ≠ 0 → L ≠ thermalMoment m₀ T k 2) := by
  have hf : ((modes T [a]).map (·.freq)).Nodup := by
    rw [modes_of_clean hc]
    have : a.freq ≠ -a.freq := by linarith
    simp [modesAt, hT, this]
  have hp : ∀ x ∈ [a], 0 < x.freq := by simpa using hpos
  have hne : ∀ x ∈ [a], x.ctype ≠ "BondPeierls" := by simp [ha]
  obtain ⟨m, b, h1, h2, h3⟩ := width_assembled σ hopping lattice T hl cap hcap [a] (by simp) hc hf (Or.inr hne)
    (fun _ => hp)
  have h0 := fromParameters_blueprint hopping lattice 0 none [a] (clean_zero hc) (nodup_zero hT hc hf)
  refine ⟨m, b, _, h1, h2, h0, fun k eta ε heta hε => ?_⟩
  obtain ⟨G, g1, g2⟩ := h3 k eta ε heta hε
  have ht := (C100_textbook hopping lattice T hT [a] hc hf hp _ h0 k).2.2
  have hdiff : ((ε ^ 2 + variance hopping T (k * lattice) [a] : ℝ) : ℂ) - thermalMoment
      (blueprint hopping lattice 0 none (parts realPrims hopping 0 [a])) T k 2 =
      ((-(2 * strengthSq hopping a * thermal T a.freq * Real.cos (2 * (k * lattice))) : ℝ) : ℂ) := by
    rw [ht, ← Complex.ofReal_sub]
    congr 1
    simp only [variance, textbookVariance, spreadIn, spread, ha, List.map_cons, List.map_nil, List.sum_cons, List.sum_nil,
      add_zero, if_true]
    simp only [show ("EdwardsFermionBoson" = "Holstein") = False by simp, show ("EdwardsFermionBoson" = "Peierls") = False by simp,
      if_false]
    rw [Real.cos_two_mul, hε]
    ring
  refine ⟨G, _, g1, g2, hdiff, fun hs hcos heq => ?_⟩
  rw [heq, sub_self] at hdiff
  have hn : 0 < thermal T a.freq := by
    unfold thermal
    rw [if_pos hT]
    have : 1 < Real.exp (a.freq / T) := Real.one_lt_exp_iff.2 (div_pos hpos hT)
    exact one_div_pos.2 (by linarith)
  have h := Complex.ofReal_eq_zero.1 hdiff.symm
  rw [neg_eq_zero] at h
  exact (mul_ne_zero (mul_ne_zero (mul_ne_zero two_ne_zero hs) hn.ne') hcos) h

/-! ### the hypotheses are met -/

/-- a Holstein and a Peierls coupling -/
noncomputable def exWarm : List (AddArgs ℝ) :=
  [{ ctype := "Holstein", freq := 2, M := 3, N := 4, g := some 1, Mtfd := some 2, Ntfd := some 3 },
   { ctype := "Peierls", freq := 1, M := 3, N := 4, g := some (1 / 2), Mtfd := some 2, Ntfd := some 3 }]

theorem exWarm_clean {T : ℝ} (hT : 0 < T) : Clean realPrims 1 T exWarm ∧ ((modes T exWarm).map (·.freq)).Nodup ∧
    (∀ a ∈ exWarm, 0 < a.freq) ∧ ∀ a ∈ exWarm, Displacement a.ctype := by
  have hc : Clean realPrims 1 T exWarm := by
    constructor <;> intro a ha <;> simp only [exWarm, List.mem_cons, List.not_mem_nil, or_false] at ha <;>
      rcases ha with rfl | rfl
    all_goals first
      | rfl
      | (simp [Known]; done)
      | (simp [Defined]; done)
      | (constructor <;> simp [OneStrength])
  refine ⟨hc, ?_, ?_, ?_⟩
  · rw [modes_of_clean hc]
    simp [exWarm, modesAt, hT]
    norm_num
  · simp [exWarm]
  · simp [exWarm, Displacement]

/-- A Holstein–Peierls model at temperature one. -/
example : ∃ m₀ : Model ℝ, (Model.fromParameters (1 : ℝ) 1 0 none 1).adds realPrims exWarm = .ok m₀ ∧
    thermalMoment m₀ 1 0 0 = 1 ∧ thermalMoment m₀ 1 0 1 = -2 ∧
    ∀ σ : SetOrder, ∃ m b, (Model.fromParameters (1 : ℝ) 1 1 none 1).adds realPrims exWarm = .ok m ∧
      buildSystem σ m = .ok b ∧ ∀ k w eta : ℝ, 0 < eta → ∃ G, Gives m b ⟨k, w, eta⟩ G ∧
        ‖G - ∑ j ∈ Finset.range 4, thermalMoment m₀ 1 k j / energyAt w eta ^ (j + 1)‖ ≤
          (thermalMoment m₀ 1 k 4).re / (‖energyAt w eta‖ ^ 4 * eta) := by
  obtain ⟨h1, h2, h3, h4⟩ := exWarm_clean (T := 1) one_pos
  obtain ⟨m₀, e0, -, e1⟩ := C100_ensemble_partial 1 1 1 one_pos (Or.inr ⟨one_pos, rfl⟩) exWarm (by simp [exWarm]) h1 h2
    (Or.inr (by simp [exWarm])) h3 h4
  obtain ⟨t0, t1, -⟩ := C100_textbook 1 1 1 one_pos exWarm h1 h2 h3 m₀ e0 0
  refine ⟨m₀, e0, t0, by rw [t1]; simp, fun σ => ?_⟩
  refine e1 1 σ none exWarm (by simp) (List.forall₂_same.2 (fun a _ => ?_)) (fun a ha => ⟨h1.valid a ha, ?_⟩)
  · constructor <;> rfl
  · simp only [exWarm, List.mem_cons, List.not_mem_nil, or_false] at ha
    rcases ha with rfl | rfl <;> constructor <;> simp

/-- an EdwardsFermionBoson coupling -/
noncomputable def exFermionBoson : AddArgs ℝ :=
  { ctype := "EdwardsFermionBoson", freq := 1, M := 3, N := 4, g := some 1, Mtfd := some 3, Ntfd := some 4 }

/-- One EdwardsFermionBoson coupling at temperature one and momentum zero. -/
example (σ : SetOrder) : ∃ m b m₀, (Model.fromParameters (1 : ℝ) 1 1 none 1).adds realPrims [exFermionBoson] = .ok m ∧
    buildSystem σ m = .ok b ∧ (Model.fromParameters (1 : ℝ) 1 0 none 1).adds realPrims [exFermionBoson] = .ok m₀ ∧
    ∃ (G : ℝ → ℂ) (L : ℂ), (∀ w, Gives m b ⟨0, w, 1⟩ (G w)) ∧
      Tendsto (fun w => energyAt w 1 ^ 3 * (G w - 1 / energyAt w 1 - (-2 : ℝ) / energyAt w 1 ^ 2)) (atBot ⊔ atTop) (𝓝 L) ∧
      L ≠ thermalMoment m₀ 1 0 2 := by
  have hc : Clean realPrims 1 1 [exFermionBoson] := by
    constructor <;> intro a ha <;> simp only [List.mem_cons, List.not_mem_nil, or_false] at ha <;> subst ha <;> unfold exFermionBoson
    all_goals first
      | rfl
      | (simp [Known]; done)
      | (simp [Defined]; done)
      | (constructor <;> simp [OneStrength])
  obtain ⟨m, b, m₀, h1, h2, h3, h4⟩ := C100_edwards_fails σ 1 1 1 one_pos (Or.inr ⟨one_pos, rfl⟩) none (by simp) _ rfl hc one_pos
  obtain ⟨G, L, g1, g2, -, g3⟩ := h4 0 1 (-2) one_pos (by simp)
  exact ⟨m, b, m₀, h1, h2, h3, G, L, g1, g2, g3 (by simp [strengthSq, exFermionBoson]) (by simp)⟩

end GGCE.Props
