import Verif.Proofs.Textbook
import Verif.Proofs.Gauge
import Verif.Proofs.ErrorBar
import Verif.Proofs.FrameResolvent

/-!
The Hamiltonian of the textbook without limits, and the frame of the electron.
-/

namespace GGCE
open Spec Complex

variable {m : Model ℝ} {ae : ℤ} {k w eta : ℝ} {n : Occ}

theorem factor_conceivable (h : Conceivable m n) (d : Dag) (t : ℕ) (x : ℤ) (h' : Conceivable m (n.act d t x)) :
    (occFactor d n t x : ℝ) * Real.sqrt (occFact (n.act d t x)) = rung d (n t x) * Real.sqrt (occFact n) := by
  have key : ∀ n' : Occ, Conceivable m n' → far n' ≤ max (far n) (far (n.act d t x)) →
      Allowed ({ m with extent := [], number := [], maxPerSite := none } : Model ℝ)
        (2 * (max (far n) (far (n.act d t x)) : ℕ) + 1) n' := by
    intro n' hn' hle
    refine ⟨hn'.nonneg, hn'.types, by simp, fun t x t' y h1 h2 => ?_, by simp, by simp⟩
    have a1 := le_far hn' h1
    have a2 := le_far hn' h2
    omega
  exact factor_fact (key n h (le_max_left _ _)) d t x (key _ h' (le_max_right _ _))

/-! ### signs -/

open Classical in
theorem frameAll_gauge (ε : ℕ → ℤˣ) (hidx : ∀ h ∈ m.ham.terms, h.phononIndex < m.nTypes) (u : Occ → ℂ)
    (hn : Conceivable m n) :
    frameAll (gaugeModel ε 1 m) k (fun n => unitC (occSign m.nTypes ε n) * u n) n =
      unitC (occSign m.nTypes ε n) * frameAll m k u n := by
  have hE : occEnergy (gaugeModel ε 1 m) n = occEnergy m n := rfl
  have hc : ∀ n', Conceivable (gaugeModel ε 1 m) n' ↔ Conceivable m n' := fun n' =>
    ⟨fun ⟨a, b, c⟩ => ⟨a, b, c⟩, fun ⟨a, b, c⟩ => ⟨a, b, c⟩⟩
  have hterms : ((m.ham.terms.map (gaugeTerm ε 1)).map (fun h : SingleTerm ℝ => (h.coupling : ℂ) * (ladder h n : ℂ) *
      exp (-(I * (k * m.latticeConstant * electronSite h 0))) *
      if Conceivable (gaugeModel ε 1 m) (jump h n) then unitC (occSign m.nTypes ε (jump h n)) * u (jump h n) else 0)).sum =
      unitC (occSign m.nTypes ε n) * (m.ham.terms.map (fun h : SingleTerm ℝ => (h.coupling : ℂ) * (ladder h n : ℂ) *
      exp (-(I * (k * m.latticeConstant * electronSite h 0))) *
      if Conceivable m (jump h n) then u (jump h n) else 0)).sum := by
    rw [List.map_map, ← List.sum_map_mul_left]
    congr 1
    refine List.map_congr_left (fun h hh => ?_)
    have hs : occSign m.nTypes ε (jump h n) = ε h.phononIndex * occSign m.nTypes ε n := by
      unfold jump
      rw [occSign_shift, occSign_act hn.finite _ (hidx h hh)]
    have e1 : (((gaugeTerm ε 1 h).coupling : ℝ) : ℂ) = unitC (ε h.phononIndex) * h.coupling := by
      unfold gaugeTerm unitC; simp
    have e2 : ladder (gaugeTerm ε 1 h) n = ladder h n := rfl
    have e3 : jump (gaugeTerm ε 1 h) n = jump h n := rfl
    have e4 : electronSite (gaugeTerm ε 1 h) 0 = electronSite h 0 := rfl
    have hsq : unitC (ε h.phononIndex) * unitC (ε h.phononIndex) = 1 := by
      rw [← unitC_mul, Int.units_mul_self, unitC_one]
    simp only [Function.comp, e1, e2, e3, e4, hc]
    by_cases hj : Conceivable m (jump h n)
    · rw [if_pos hj, if_pos hj, hs, unitC_mul]
      linear_combination ((h.coupling : ℂ) * (ladder h n : ℂ) *
        exp (-(I * (k * m.latticeConstant * electronSite h 0))) * unitC (occSign m.nTypes ε n) * u (jump h n)) * hsq
    · rw [if_neg hj, if_neg hj]; ring
  unfold frameAll
  rw [hE]
  have hh : (gaugeModel ε 1 m).ham.hopping = m.ham.hopping := by simp [gaugeModel]
  have hl : (gaugeModel ε 1 m).latticeConstant = m.latticeConstant := rfl
  have ht : (gaugeModel ε 1 m).ham.terms = m.ham.terms.map (gaugeTerm ε 1) := rfl
  rw [hh, hl, ht, hterms]
  simp only [occSign_shift]
  ring

theorem untruncated_gauge (ε : ℕ → ℤˣ) (hidx : ∀ h ∈ m.ham.terms, h.phononIndex < m.nTypes) {u : States}
    (hu : Untruncated m k w eta u) :
    ∃ u' : States, Untruncated (gaugeModel ε 1 m) k w eta u' ∧
      ∀ n, u' n = unitC (occSign m.nTypes ε n) * u n := by
  have hnorm : ∀ n, ‖unitC (occSign m.nTypes ε n) * u n‖ = ‖u n‖ := fun n => by rw [norm_mul, unitC_norm, one_mul]
  have hmem : Memℓp (fun n => unitC (occSign m.nTypes ε n) * u n) 2 := by
    refine memℓp_gen ?_
    simp only [hnorm]
    exact (lp.memℓp u).summable (by norm_num)
  have hc : ∀ n', Conceivable (gaugeModel ε 1 m) n' ↔ Conceivable m n' := fun n' =>
    ⟨fun ⟨a, b, c⟩ => ⟨a, b, c⟩, fun ⟨a, b, c⟩ => ⟨a, b, c⟩⟩
  refine ⟨⟨_, hmem⟩, ⟨fun n hn => ?_, ?_, fun n hn => ?_⟩, fun n => rfl⟩
  · show unitC (occSign m.nTypes ε n) * u n = 0
    rw [hu.outside n (fun q => hn ((hc n).2 q)), mul_zero]
  · show Summable fun n => (phononCount m n : ℝ) ^ 2 * ‖unitC (occSign m.nTypes ε n) * u n‖ ^ 2
    simp only [hnorm]
    exact hu.number
  · have hn' := (hc n).1 hn
    show energyAt w eta * (unitC (occSign m.nTypes ε n) * u n) -
      frameAll (gaugeModel ε 1 m) k (fun n => unitC (occSign m.nTypes ε n) * u n) n = _
    rw [frameAll_gauge ε hidx u hn']
    have := hu.motion n hn'
    by_cases h0 : n = 0
    · subst h0
      rw [occSign_zero, unitC_one, one_mul, one_mul]
      exact this
    · rw [if_neg h0] at this ⊢
      linear_combination unitC (occSign m.nTypes ε n) * this

/-! ### from the chain to the frame of the electron -/

/-- the amplitudes of the normalised states with the electron at the origin -/
noncomputable def amplitudes (F : Fock →ₗ[ℂ] ℂ) (n : Occ) : ℂ := F (ket 0 n) / (Real.sqrt (occFact n) : ℂ)

theorem sqrt_fact_ne (n : Occ) : (Real.sqrt (occFact n) : ℂ) ≠ 0 := by
  have : 0 < Real.sqrt (occFact n) := Real.sqrt_pos.2 (by exact_mod_cast occFact_pos n)
  exact_mod_cast this.ne'

theorem ket_amplitudes {F : Fock →ₗ[ℂ] ℂ} {a : ℝ} (hbl : ∀ v s, F (translation s v) = exp (-(I * (k * a * (s : ℤ)))) * F v)
    (e : ℤ) (n : Occ) :
    F (ket e n) = exp (-(I * (k * a * e))) * (Real.sqrt (occFact n) : ℂ) * amplitudes F (n.shift (-e)) := by
  have h := hbl (ket 0 (n.shift (-e))) e
  rw [translation_ket, zero_add, shift_shift, neg_add_cancel] at h
  have h0 : n.shift 0 = n := by funext t x; simp [Occ.shift]
  rw [h0] at h
  rw [h]
  unfold amplitudes
  rw [occFact_shift]
  have := sqrt_fact_ne n
  field_simp

open Classical in
theorem textbook_frame {ds : List (Part ℝ)} {bs : List Branch} (h : List.Forall₂ Denotes ds bs) {hopping lattice T : ℝ}
    {cap : Option ℤ} (hm : m = blueprint hopping lattice T cap ds) {F : Fock →ₗ[ℂ] ℂ}
    (hbl : ∀ v s, F (translation s v) = exp (-(I * (k * lattice * (s : ℤ)))) * F v)
    (hout : ∀ n, ¬ Conceivable m n → ∀ e, F (ket e n) = 0) (hn : Conceivable m n) (e : ℤ) :
    F (textbook hopping bs (ket e n)) =
      exp (-(I * (k * lattice * e))) * (Real.sqrt (occFact n) : ℂ) * frameAll m k (amplitudes F) (n.shift (-e)) := by
  rw [textbook_ket F h hopping lattice T cap, ← hm]
  have hl : m.latticeConstant = lattice := by rw [hm]; rfl
  have hh : m.ham.hopping = hopping := by rw [hm]; rfl
  have kA := ket_amplitudes hbl
  set A : ℂ := exp (-(I * (k * lattice * e))) * (Real.sqrt (occFact n) : ℂ) with hA
  have e2 : F (ket (e - 1) n) = A * (exp (I * (k * lattice)) * amplitudes F (n.shift (-e + 1))) := by
    rw [kA, show -(e - 1) = -e + 1 by ring, hA]
    push_cast
    rw [show -(I * (k * lattice * ((e : ℂ) - 1))) = -(I * (k * lattice * e)) + I * (k * lattice) by ring, Complex.exp_add]
    ring
  have e3 : F (ket (e + 1) n) = A * (exp (-(I * (k * lattice))) * amplitudes F (n.shift (-e + -1))) := by
    rw [kA, show -(e + 1) = -e + -1 by ring, hA]
    push_cast
    rw [show -(I * (k * lattice * ((e : ℂ) + 1))) = -(I * (k * lattice * e)) + -(I * (k * lattice)) by ring, Complex.exp_add]
    ring
  have e4 : ∀ h : SingleTerm ℝ, (h.coupling : ℂ) * (occFactor h.dag n h.phononIndex (bosonSite h e) : ℂ) *
      F (ket (electronSite h e) (n.act h.dag h.phononIndex (bosonSite h e))) =
      A * ((h.coupling : ℂ) * (ladder h (n.shift (-e)) : ℂ) *
        exp (-(I * (k * m.latticeConstant * electronSite h 0))) *
        if Conceivable m (jump h (n.shift (-e))) then amplitudes F (jump h (n.shift (-e))) else 0) := by
    intro h
    have hiff : Conceivable m (jump h (n.shift (-e))) ↔ Conceivable m (n.act h.dag h.phononIndex (bosonSite h e)) := by
      rw [← jump_shift, conceivable_shift]
    by_cases hj : Conceivable m (n.act h.dag h.phononIndex (bosonSite h e))
    · rw [if_pos (hiff.2 hj), kA, jump_shift, hl]
      have hl' : (occFactor h.dag n h.phononIndex (bosonSite h e) : ℝ) *
          Real.sqrt (occFact (n.act h.dag h.phononIndex (bosonSite h e))) =
          ladder h (n.shift (-e)) * Real.sqrt (occFact n) := by
        rw [factor_conceivable hn _ _ _ hj]
        congr 1
        rw [ladder_eq]
        have : n.shift (-e) h.phononIndex (bosonSite h 0) = n h.phononIndex (bosonSite h e) := by
          show n _ (bosonSite h 0 - -e) = _
          rw [boson_shift h e, sub_neg_eq_add]
        rw [this]
      have hl'' : ((occFactor h.dag n h.phononIndex (bosonSite h e) : ℂ)) *
          (Real.sqrt (occFact (n.act h.dag h.phononIndex (bosonSite h e))) : ℂ) =
          (ladder h (n.shift (-e)) : ℂ) * (Real.sqrt (occFact n) : ℂ) := by exact_mod_cast hl'
      have hx : exp (-(I * (k * lattice * electronSite h e))) =
          exp (-(I * (k * lattice * electronSite h 0))) * exp (-(I * (k * lattice * e))) := by
        rw [← Complex.exp_add, electron_shift h e]
        congr 1
        push_cast
        ring
      rw [hA, hx]
      linear_combination (h.coupling : ℂ) * exp (-(I * (k * lattice * electronSite h 0))) *
        exp (-(I * (k * lattice * e))) * amplitudes F (jump h (n.shift (-e))) * hl''
    · rw [hout _ hj, if_neg (fun q => hj (hiff.1 q))]; ring
  have e5 : (m.ham.terms.map (fun h : SingleTerm ℝ => (h.coupling : ℂ) *
      (occFactor h.dag n h.phononIndex (bosonSite h e) : ℂ) *
      F (ket (electronSite h e) (n.act h.dag h.phononIndex (bosonSite h e))))).sum =
      A * (m.ham.terms.map (fun h : SingleTerm ℝ => (h.coupling : ℂ) * (ladder h (n.shift (-e)) : ℂ) *
        exp (-(I * (k * m.latticeConstant * electronSite h 0))) *
        if Conceivable m (jump h (n.shift (-e))) then amplitudes F (jump h (n.shift (-e))) else 0)).sum := by
    rw [← List.sum_map_mul_left]
    congr 1
    exact List.map_congr_left (fun h _ => e4 h)
  rw [e2, e3, e5, kA e n, ← hA]
  unfold frameAll
  rw [energy_shift, shift_shift, shift_shift, hh, hl]
  ring

theorem shift_zero_iff (e : ℤ) : n.shift (-e) = 0 ↔ n = 0 := by
  constructor
  · intro q
    have := congrArg (fun x : Occ => x.shift e) q
    simpa using this
  · rintro rfl; rfl

open Classical in
/-- the equation of motion on the chain is the one in the frame of the electron -/
theorem motion_frame {ds : List (Part ℝ)} {bs : List Branch} (h : List.Forall₂ Denotes ds bs) {hopping lattice T : ℝ}
    {cap : Option ℤ} (hm : m = blueprint hopping lattice T cap ds) {F : Fock →ₗ[ℂ] ℂ}
    (hbl : ∀ v s, F (translation s v) = exp (-(I * (k * lattice * (s : ℤ)))) * F v)
    (hout : ∀ n, ¬ Conceivable m n → ∀ e, F (ket e n) = 0) (hn : Conceivable m n) (e : ℤ) :
    F ((w + I * eta : ℂ) • ket e n - textbook hopping bs (ket e n)) = (if n = 0 then exp (-(I * (k * lattice * e))) else 0) ↔
      energyAt w eta * amplitudes F (n.shift (-e)) - frameAll m k (amplitudes F) (n.shift (-e)) =
        if n.shift (-e) = 0 then 1 else 0 := by
  rw [map_sub, map_smul, smul_eq_mul, textbook_frame h hm hbl hout hn, ket_amplitudes hbl e n]
  have hA : exp (-(I * (k * lattice * e))) * (Real.sqrt (occFact n) : ℂ) ≠ 0 :=
    mul_ne_zero (Complex.exp_ne_zero _) (sqrt_fact_ne n)
  have e6 : (if n = 0 then exp (-(I * (k * lattice * e))) else 0 : ℂ) =
      exp (-(I * (k * lattice * e))) * (Real.sqrt (occFact n) : ℂ) * if n.shift (-e) = 0 then 1 else 0 := by
    rw [shift_zero_iff]
    by_cases hz0 : n = 0
    · rw [if_pos hz0, if_pos hz0, hz0, occFact_zero]; simp
    · rw [if_neg hz0, if_neg hz0, mul_zero]
  rw [e6]
  unfold energyAt
  constructor
  · intro q
    refine mul_left_cancel₀ hA ?_
    rw [← q]; ring
  · intro q; rw [← q]; ring

theorem finitelyMany_iff : FinitelyMany m.nTypes n ↔ Conceivable m n :=
  ⟨fun ⟨a, b, c⟩ => ⟨a, b, c⟩, fun ⟨a, b, c⟩ => ⟨a, b, c⟩⟩

theorem norm_amplitudes (F : Fock →ₗ[ℂ] ℂ) (n : Occ) : ‖amplitudes F n‖ ^ 2 = ‖F (ket 0 n)‖ ^ 2 / lengthSq n := by
  unfold amplitudes
  rw [norm_div, div_pow, Complex.norm_real, Real.norm_eq_abs, sq_abs, Real.sq_sqrt (by positivity)]
  rfl

/-- an exact propagator gives a state of the frame of the electron -/
theorem exact_untruncated {ds : List (Part ℝ)} {bs : List Branch} (h : List.Forall₂ Denotes ds bs) {hopping lattice T : ℝ}
    {cap : Option ℤ} (hm : m = blueprint hopping lattice T cap ds) {F : Fock →ₗ[ℂ] ℂ}
    (hF : ExactPropagator (textbook hopping bs) m.nTypes lattice ⟨k, w, eta⟩ F) :
    ∃ u : States, Untruncated m k w eta u ∧ (u : Occ → ℂ) = amplitudes F := by
  have hsum : Summable (fun n => ‖amplitudes F n‖ ^ 2) := by
    refine hF.number.of_nonneg_of_le (fun n => by positivity) (fun n => ?_)
    rw [norm_amplitudes]
    have : (0 : ℝ) ≤ ‖F (ket 0 n)‖ ^ 2 / lengthSq n := by positivity
    nlinarith [sq_nonneg (phononNumber m.nTypes n : ℝ)]
  have hmem : Memℓp (amplitudes F) 2 := by
    refine memℓp_gen ?_
    simpa using hsum
  refine ⟨⟨amplitudes F, hmem⟩, ⟨fun n hn => ?_, ?_, fun n hn => ?_⟩, rfl⟩
  · show amplitudes F n = 0
    unfold amplitudes
    rw [hF.outside n (fun q => hn (finitelyMany_iff.1 q)), zero_div]
  · refine hF.number.of_nonneg_of_le (fun n => by positivity) (fun n => ?_)
    show (phononCount m n : ℝ) ^ 2 * ‖amplitudes F n‖ ^ 2 ≤ _
    rw [norm_amplitudes]
    have : (0 : ℝ) ≤ ‖F (ket 0 n)‖ ^ 2 / lengthSq n := by positivity
    have e : phononCount m n = phononNumber m.nTypes n := rfl
    rw [e]
    nlinarith
  · have := (motion_frame (w := w) (eta := eta) h hm hF.bloch (fun n hn => hF.outside n (fun q => hn (finitelyMany_iff.1 q)))
      hn 0).1 (hF.motion n (finitelyMany_iff.2 hn) 0)
    have h0 : n.shift (-0) = n := by funext t x; simp [Occ.shift]
    rw [h0] at this
    exact this

/-- the functional on the chain of a state of the frame of the electron -/
noncomputable def onChain (lattice k : ℝ) (u : Occ → ℂ) : Fock →ₗ[ℂ] ℂ :=
  onBasis fun n e => exp (-(I * (k * lattice * e))) * (Real.sqrt (occFact n) : ℂ) * u (n.shift (-e))

theorem onChain_ket (lattice k : ℝ) (u : Occ → ℂ) (e : ℤ) (n : Occ) : onChain lattice k u (ket e n) =
    exp (-(I * (k * lattice * e))) * (Real.sqrt (occFact n) : ℂ) * u (n.shift (-e)) := onBasis_ket _ e n

theorem amplitudes_onChain (lattice k : ℝ) (u : Occ → ℂ) : amplitudes (onChain lattice k u) = u := by
  funext n
  have h0 : n.shift (-0) = n := by funext t x; simp [Occ.shift]
  have := sqrt_fact_ne n
  unfold amplitudes
  rw [onChain_ket, h0]
  simp only [Int.cast_zero, mul_zero, neg_zero, Complex.exp_zero, one_mul]
  field_simp

theorem untruncated_exact {ds : List (Part ℝ)} {bs : List Branch} (h : List.Forall₂ Denotes ds bs) {hopping lattice T : ℝ}
    {cap : Option ℤ} (hm : m = blueprint hopping lattice T cap ds) {u : States} (hu : Untruncated m k w eta u) :
    ExactPropagator (textbook hopping bs) m.nTypes lattice ⟨k, w, eta⟩ (onChain lattice k u) := by
  have hbl : ∀ v s, onChain lattice k u (translation s v) = exp (-(I * (k * lattice * (s : ℤ)))) * onChain lattice k u v := by
    intro v s
    have : onChain lattice k u ∘ₗ translation s = exp (-(I * (k * lattice * s))) • onChain lattice k u := by
      refine fock_ext (fun e n => ?_)
      rw [LinearMap.comp_apply, translation_ket, LinearMap.smul_apply, smul_eq_mul, onChain_ket, onChain_ket, occFact_shift,
        shift_shift, show s + -(e + s) = -e by ring]
      have : exp (-(I * (k * lattice * ((e + s : ℤ) : ℂ)))) =
          exp (-(I * (k * lattice * s))) * exp (-(I * (k * lattice * e))) := by
        rw [← Complex.exp_add]
        congr 1
        push_cast
        ring
      rw [this]
      ring
    exact congrArg (fun G : Fock →ₗ[ℂ] ℂ => G v) this
  have hout : ∀ n, ¬ Conceivable m n → ∀ e, onChain lattice k u (ket e n) = 0 := by
    intro n hn e
    rw [onChain_ket, hu.outside _ (fun q => hn (conceivable_shift.1 q)), mul_zero]
  refine ⟨hbl, fun n hn => hout n (fun q => hn (finitelyMany_iff.2 q)), ?_, fun n hn e => ?_⟩
  · have e1 : ∀ n, ‖onChain lattice k u (ket 0 n)‖ ^ 2 / lengthSq n = ‖u n‖ ^ 2 := fun n => by
      rw [← norm_amplitudes, amplitudes_onChain]
    simp only [e1, add_mul, one_mul]
    refine Summable.add ?_ hu.number
    have := (lp.memℓp u).summable (by norm_num)
    simpa using this
  · have hn' := finitelyMany_iff.1 hn
    refine (motion_frame h hm hbl hout hn' e).2 ?_
    rw [amplitudes_onChain]
    exact hu.motion _ (hn'.shift _)

end GGCE
