import Verif.Props.Fpu
import Verif.Props.Stability
import Verif.Proofs.Couplings

/-!
Property C134: the couplings of a model are themselves computed in floating-point arithmetic (the strength from the
dimensionless `λ` by a square root, the thermofield prefactors from the temperature by hyperbolic functions). Also with
this source of error the Green's function of the sparse solver is off by at most a multiple of the unit roundoff.
-/

set_option linter.unusedSectionVars false

namespace GGCE.Props
open Spec Complex

/-- **C134** (models). The sparse solver in floating-point arithmetic throughout, on a model whose couplings are off by
a relative error of at most `K u`, gives the Green's function of the exact model up to `C u`. -/
theorem C134_linear (σ : SetOrder) (m : Model ℝ) (ae : Int) (hm : WellFormed m ae) (b : Built ℝ)
    (hb : buildSystem σ m = .ok b) (hp : Physical m) (p : Point ℝ) (heta : 0 < p.eta) (G : ℂ) (hG : Returned m b p G)
    (K : ℝ) (hK : 0 ≤ K) :
    ∃ u0 C : ℝ, 0 < u0 ∧ 0 ≤ C ∧ ∀ u ≤ u0, ∀ m', CouplingsNear (K * u) m m' → WellFormed m' ae → Physical m' →
      ∀ σ' b', buildSystem σ' m' = .ok b' → ∀ fl pw cs ex, Arithmetic u u fl pw cs ex → ∀ M, FpuTo u M →
      ∀ rnd, Rounds u u rnd → ∀ spsolve, BackwardStable u spsolve →
      ∃ G', sparseSolveF M rnd (floatPhys fl pw cs ex) m' p (fullBasis b'.eqs) b'.eqs spsolve = .ok G' ∧
        ‖G' - G‖ ≤ C * u := by
  obtain ⟨s, hs⟩ := exists_shift m.ham.terms
  obtain ⟨P, hP0, hP⟩ := exists_strength m m.ham.terms
  obtain ⟨cs, hn, hcs⟩ := exists_clouds σ hm
  have hE := topEnergy_nonneg hm
  have hi : 0 ≤ interaction m := by
    unfold interaction
    refine List.sum_nonneg (fun x hx => ?_)
    obtain ⟨h, -, rfl⟩ := List.mem_map.1 hx
    positivity
  obtain ⟨u0, C, h1, h2, h3⟩ := linear_uniform p heta ae s (2 * P) (energyScale m p) m.ham.hopping
    (1 + 2 * interaction m / p.eta) (1 + cs.length * (argSet m ae).card) (rowBound m ae) (factorials m) (by positivity)
    (by unfold energyScale; positivity) (by positivity)
  refine ⟨min u0 (1 / (K + 1)), C + K * interaction m / p.eta ^ 2, lt_min h1 (by positivity), by positivity, ?_⟩
  intro u hu m' hnear hm' hp' σ' b' hb' fl pw cs' ex A M hM rnd hrnd sp hsp
  have hu0 := A.unit.1
  have hKu : K * u ≤ 1 := by
    have := hu.trans (min_le_right _ _)
    rw [le_div_iff₀ (by positivity)] at this
    linarith
  obtain ⟨ls, G1, k1, -, -, -, k5, k6⟩ := C22_nonsingular σ' m' ae hm' b' hb' hp' p heta
  have hmem := forall₂_right hnear.terms
  obtain ⟨G', e1, e2⟩ := h3 σ' m' hm' b' hb' hp' G1 (Or.inr k6)
    (fun h' hh' => by
      obtain ⟨h, hh, r⟩ := hmem h' hh'
      rw [r.1.1, r.1.2.1]
      exact hs h hh)
    (fun h' hh' => by
      obtain ⟨h, hh, r⟩ := hmem h' hh'
      rw [r.1.2.2.2, hnear.maxNumber_eq]
      have i1 := hP h hh
      have i2 : 0 ≤ maxNumber m h.phononIndex := maxNumber_nonneg hm.toListsOk (allowed_zero hm.toShaped) (hm.index h hh)
      have i3 := mul_le_mul_of_nonneg_right (near_abs hKu r.2) i2
      linarith)
    (hnear.energyScale_eq p) hnear.hopping
    (by
      unfold sensitivity
      have := div_le_div_of_nonneg_right (hnear.interaction_le hKu) heta.le
      linarith)
    (by
      have := (C113_unknowns σ' m' ae hm' b' hb' cs hn (fun a => (hcs a).trans (hnear.truncation ae a).symm)).2
      rwa [hnear.argSet_eq] at this)
    (hnear.rowBound_eq ae) hnear.factorials_eq u (hu.trans (min_le_left _ _)) fl pw cs' ex A M hM rnd hrnd sp hsp
  refine ⟨G', e1, ?_⟩
  have e3 := C66_parameters σ σ' m m' ae hm hm' b b' hb hb' hp hp' hnear.shape p.k p.w p.eta heta G G1 hG (Or.inr k6)
  have e4 := div_le_div_of_nonneg_right hnear.distance_le (by positivity : (0 : ℝ) ≤ p.eta ^ 2)
  have e5 := norm_sub_le_norm_sub_add_norm_sub G' G1 G
  rw [norm_sub_rev G1 G] at e5
  have e6 : K * u * interaction m / p.eta ^ 2 = K * interaction m / p.eta ^ 2 * u := by ring
  linarith

/-- **C134** (the result). The user's calls, with the coupling strengths converted inexactly: from some precision on the
model is accepted, the system is built, the sparse solver answers, and its answer differs from the exact Green's
function of the exact model by at most `C u`. -/
theorem C134_assembled (σ : SetOrder) (hopping lattice T : ℝ)
    (hl : hopping = 0 ∨ (0 < hopping ∧ lattice = 1)) (cap : Option Int) (hcap : ∀ c, cap = some c → 1 ≤ c)
    (as : List (AddArgs ℝ)) (hne : as ≠ []) (hc : Clean realPrims hopping T as)
    (hf : ((modes T as).map (·.freq)).Nodup)
    (hb : (∀ a ∈ as, a.ctype = "BondPeierls") ∨ (∀ a ∈ as, a.ctype ≠ "BondPeierls")) (K : ℝ) (hK : 0 ≤ K) :
    ∃ m b, (Model.fromParameters hopping lattice T cap 1).adds realPrims as = .ok m ∧ buildSystem σ m = .ok b ∧
      ∀ k w eta : ℝ, 0 < eta → ∃ G, Gives m b ⟨k, w, eta⟩ G ∧ ∃ u0 C : ℝ, 0 < u0 ∧
        ∀ u ≤ u0, ∀ P, PrimsNear (K * u) hopping T as P → ∀ σ' fl pw cs ex, Arithmetic u u fl pw cs ex →
          ∀ M, FpuTo u M → ∀ rnd, Rounds u u rnd → ∀ spsolve, BackwardStable u spsolve →
          ∃ m' b' G', (Model.fromParameters hopping lattice T cap 1).adds P as = .ok m' ∧ buildSystem σ' m' = .ok b' ∧
            sparseSolveF M rnd (floatPhys fl pw cs ex) m' ⟨k, w, eta⟩ (fullBasis b'.eqs) b'.eqs spsolve = .ok G' ∧
            ‖G' - G‖ ≤ C * u ∧ 0 < -G'.im / Real.pi := by
  obtain ⟨m, b, h1, ⟨ae, h2⟩, h3⟩ := C16_assembled σ realPrims C42_names hopping lattice T cap hcap as hne hc hf hb
  refine ⟨m, b, h1, h3, ?_⟩
  intro k w eta heta
  have hp := physical_assembled h1 hb hl
  obtain ⟨ls, G, k1, -, -, -, k5, k6⟩ := C22_nonsingular σ m ae h2 b h3 hp ⟨k, w, eta⟩ heta
  obtain ⟨u0, C, c1, c2, c3⟩ := C134_linear σ m ae h2 b h3 hp ⟨k, w, eta⟩ heta G (Or.inr k6) (3 * K) (by positivity)
  obtain ⟨g1, -⟩ := C23_spectral_positive σ m ae h2 b h3 hp ⟨k, w, eta⟩ heta G (Or.inr k6)
  have hpos : 0 < -G.im := by
    have := mul_pos g1 Real.pi_pos
    rwa [div_mul_cancel₀ _ Real.pi_ne_zero] at this
  refine ⟨G, ⟨k5, k6⟩, min (min u0 (1 / (K + 1))) (-G.im / (2 * (C + 1))), C,
    lt_min (lt_min c1 (by positivity)) (by positivity), ?_⟩
  intro u hu P hP σ' fl pw cs ex A M hM rnd hrnd sp hsp
  have hu0 := A.unit.1
  have hKu : K * u ≤ 1 := by
    have := (hu.trans (min_le_left _ _)).trans (min_le_right _ _)
    rw [le_div_iff₀ (by positivity)] at this
    linarith
  have hcP := hP.clean hc
  obtain ⟨m', b', h1', ⟨ae', h2'⟩, h3'⟩ := C16_assembled σ' P hP.names hopping lattice T cap hcap as hne hcP hf hb
  have e := fromParameters_blueprint hopping lattice T cap as hc hf
  have e' := fromParameters_blueprint hopping lattice T cap as hcP hf
  rw [h1] at e
  rw [h1'] at e'
  have hnear : CouplingsNear (3 * K * u) m m' := by
    rw [Except.ok.inj e, Except.ok.inj e', mul_assoc]
    exact blueprint_near (parts_near (by positivity) hKu as hP hc.defined) hopping lattice T cap
  have hae : ae' = ae := by
    have i1 := h2.absExtent
    have i2 := h2'.absExtent
    have i3 : m'.absExtent = m.absExtent := by
      have j := hnear.shape.extent
      rw [Except.ok.inj e, Except.ok.inj e'] at j ⊢
      exact congrArg List.max? j
    rw [i3, i1] at i2
    exact (Option.some.inj i2).symm
  subst hae
  obtain ⟨G', e1, e2⟩ := c3 u ((hu.trans (min_le_left _ _)).trans (min_le_left _ _)) m' hnear h2'
    (physical_assembled h1' hb hl) σ' b' h3' fl pw cs ex A M hM rnd hrnd sp hsp
  refine ⟨m', b', G', h1', h3', e1, e2, div_pos ?_ Real.pi_pos⟩
  have h4 := hu.trans (min_le_right _ _)
  rw [le_div_iff₀ (by positivity)] at h4
  have h5 := (abs_le.1 ((Complex.abs_im_le_norm (G' - G)).trans e2)).2
  rw [Complex.sub_im] at h5
  nlinarith

/-! ### the hypotheses hold -/

/-- conversions that are off by a relative error `u` in every value (scaffolding for the example below; models nothing) -/
noncomputable def inflatePrims (u : ℝ) : Prims ℝ where
  couplingMap := fun ct t w l => (fun g => (1 + u) * g) <$> realPrims.couplingMap ct t w l
  tfd := fun T w => ((1 + u) * (realPrims.tfd T w).1, (1 + u) * (realPrims.tfd T w).2)

theorem inflate_near {u : ℝ} (hu : 0 ≤ u) (hopping T : ℝ) (as : List (AddArgs ℝ)) :
    PrimsNear u hopping T as (inflatePrims u) := by
  have key : ∀ g : ℝ, |(1 + u) * g - g| ≤ u * |g| := by
    intro g
    rw [show (1 + u) * g - g = u * g by ring, abs_mul, abs_of_nonneg hu]
  refine ⟨⟨?_, ?_⟩, ?_, ?_⟩
  · intro ct t w l hk h
    refine C42_names.known ct t w l hk ?_
    simp only [inflatePrims] at h
    cases hc : realPrims.couplingMap ct t w l with
    | ok g => rw [hc] at h; cases h
    | error e => rw [hc] at h; exact h
  · intro ct t w l hk
    simp only [inflatePrims, C42_names.unknown ct t w l hk]
    rfl
  · intro a _ l _ w _ g hg
    exact ⟨(1 + u) * g, by simp only [inflatePrims, hg]; rfl, key g⟩
  · intro _ a _
    exact ⟨key _, key _⟩

/-- the Holstein model of strength `λ = 1` at finite temperature -/
noncomputable def exLambda : List (AddArgs ℝ) :=
  [{ ctype := "Holstein", freq := 2, M := 3, N := 4, lam := some 1, Mtfd := some 2, Ntfd := some 3 }]

theorem exLambda_clean : Clean realPrims 1 1 exLambda ∧ ((modes 1 exLambda).map (·.freq)).Nodup ∧
    ∀ a ∈ exLambda, a.ctype ≠ "BondPeierls" := by
  have hc : Clean realPrims 1 1 exLambda := by
    constructor <;> intro a ha <;> simp only [exLambda, List.mem_cons, List.not_mem_nil, or_false] at ha <;> subst ha
    · constructor <;> simp [OneStrength]
    · simp [Known]
    · rfl
    · intro l hl
      cases hl
      refine ⟨⟨Real.sqrt (2 * 1 * |2| * 1), ?_⟩, ⟨Real.sqrt (2 * 1 * |-2| * 1), ?_⟩⟩ <;>
        simp [realPrims, couplingMapR, mathSqrt]
  refine ⟨hc, ?_, by simp [exLambda]⟩
  rw [modes_of_clean hc]
  simp [exLambda, modesAt]
  norm_num

/-- the Holstein model of strength `λ = 1` at temperature 1, with every conversion, operation and library function off
by a relative error `u` -/
example (σ : SetOrder) (sp : LinSys ℂ → Py (ℕ → ℂ)) (hsp : Exact sp) :
    ∃ m b, (Model.fromParameters (1 : ℝ) 1 1 none 1).adds realPrims exLambda = .ok m ∧
      buildSystem σ m = .ok b ∧ ∃ G C u0, 0 < u0 ∧ Gives m b ⟨1 / 2, -2, 1 / 10⟩ G ∧ ∀ u : ℝ, 0 ≤ u → u ≤ u0 → u ≤ 1 / 8 →
        ∃ m' b' G', (Model.fromParameters (1 : ℝ) 1 1 none 1).adds (inflatePrims u) exLambda = .ok m' ∧
          buildSystem σ m' = .ok b' ∧
          sparseSolveF ⟨fun a b : ℂ => (1 + u : ℝ) * (a * b), fun a b => (1 + u : ℝ) * (a + b)⟩
          (fun z => (1 + u : ℝ) * z) (floatPhys (fun _ z => (1 + u : ℝ) * z) (fun b x => (1 + u : ℝ) * b ^ (x : ℂ))
            (fun x => Real.cos x + u) (fun x => (1 + u : ℝ) * Complex.exp (I * x))) m' ⟨1 / 2, -2, 1 / 10⟩
          (fullBasis b'.eqs) b'.eqs (fun ls => (fun x i => (1 + u : ℝ) * x i) <$> sp ls) = .ok G' ∧
          ‖G' - G‖ ≤ C * u ∧ 0 < -G'.im / Real.pi := by
  obtain ⟨h1, h2, h3⟩ := exLambda_clean
  obtain ⟨m, b, k1, k2, k3⟩ := C134_assembled σ 1 1 1 (Or.inr ⟨one_pos, rfl⟩) none (by simp) exLambda (by simp [exLambda])
    h1 h2 (Or.inr h3) 1 zero_le_one
  obtain ⟨G, hG, u0, C, q1, q2⟩ := k3 (1 / 2) (-2) (1 / 10) (by norm_num)
  refine ⟨m, b, k1, k2, G, C, u0, q1, hG, fun u hu hu0 hu8 => ?_⟩
  exact q2 u hu0 _ (by rw [one_mul]; exact inflate_near hu _ _ _) σ _ _ _ _ (inflate_arithmetic hu hu8) _ (inflate_fpu hu) _
    (inflate_rounds hu) _ (inflate_stable hsp hu)

end GGCE.Props
