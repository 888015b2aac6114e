import Verif.Spec.TextbookGround
import Verif.Spec.Variational
import Verif.Proofs.TextbookLimit
import Mathlib.RingTheory.RootsOfUnity.Complex
import Mathlib.Algebra.Order.Floor.Ring

/-!
Energies on the chain and energies at fixed momentum: Fourier transform and wave packets.
-/

namespace GGCE
open Spec Complex ComplexConjugate

/-! ### functions on the sites of the chain -/

/-- `(slide s φ) e = φ (e + s)` -/
noncomputable def slide (s : ℤ) : (ℤ →₀ ℂ) →ₗ[ℂ] (ℤ →₀ ℂ) := (Finsupp.domLCongr (Equiv.subRight s)).toLinearMap

theorem slide_apply (s : ℤ) (φ : ℤ →₀ ℂ) (e : ℤ) : slide s φ e = φ (e + s) := by
  simp [slide, Finsupp.domLCongr_apply, Finsupp.equivMapDomain_apply]

/-- `Σ_e exp(i k e) φ e` -/
noncomputable def wave (k : ℝ) : (ℤ →₀ ℂ) →ₗ[ℂ] ℂ := Finsupp.linearCombination ℂ fun e : ℤ => exp (I * (k * e))

theorem wave_single (k : ℝ) (e : ℤ) (z : ℂ) : wave k (Finsupp.single e z) = z * exp (I * (k * e)) := by
  simp [wave, Finsupp.linearCombination_single]

theorem wave_slide (k : ℝ) (s : ℤ) (φ : ℤ →₀ ℂ) : wave k (slide s φ) = exp (-(I * (k * s))) * wave k φ := by
  have : wave k ∘ₗ slide s = exp (-(I * (k * s))) • wave k := by
    refine Finsupp.lhom_ext' (fun e => LinearMap.ext_ring ?_)
    have h1 : slide s (Finsupp.single e 1) = Finsupp.single (e - s) 1 := by
      simp [slide, Finsupp.domLCongr_apply]
    simp only [LinearMap.comp_apply, Finsupp.lsingle_apply, LinearMap.smul_apply, h1, wave_single, smul_eq_mul, one_mul]
    rw [← Complex.exp_add]
    congr 1
    push_cast
    ring
  exact congrArg (fun G : (ℤ →₀ ℂ) →ₗ[ℂ] ℂ => G φ) this

/-- `Σ_e conj (φ e) χ e` -/
noncomputable def pairing (φ : ℤ →₀ ℂ) : (ℤ →₀ ℂ) →ₗ[ℂ] ℂ := Finsupp.linearCombination ℂ fun e : ℤ => conj (φ e)

theorem pairing_sum (φ χ : ℤ →₀ ℂ) {E : Finset ℤ} (h : φ.support ⊆ E) : pairing φ χ = ∑ e ∈ E, conj (φ e) * χ e := by
  have h1 : pairing φ χ = ∑ e ∈ χ.support, conj (φ e) * χ e := by
    unfold pairing
    rw [Finsupp.linearCombination_apply, Finsupp.sum]
    exact Finset.sum_congr rfl (fun e _ => by rw [smul_eq_mul, mul_comm])
  rw [h1]
  have e1 : ∑ e ∈ χ.support, conj (φ e) * χ e = ∑ e ∈ χ.support ∪ E, conj (φ e) * χ e :=
    Finset.sum_subset Finset.subset_union_left (fun e _ he => by rw [Finsupp.notMem_support_iff.1 he, mul_zero])
  have e2 : ∑ e ∈ E, conj (φ e) * χ e = ∑ e ∈ χ.support ∪ E, conj (φ e) * χ e :=
    Finset.sum_subset Finset.subset_union_right (fun e _ he => by
      rw [Finsupp.notMem_support_iff.1 (fun q => he (h q)), map_zero, zero_mul])
  rw [e1, e2]

theorem pairing_single (φ : ℤ →₀ ℂ) (e : ℤ) (z : ℂ) : pairing φ (Finsupp.single e z) = z * conj (φ e) := by
  simp [pairing, Finsupp.linearCombination_single]

theorem pairing_smul (z : ℂ) (φ χ : ℤ →₀ ℂ) : pairing (z • φ) χ = conj z * pairing φ χ := by
  rw [pairing_sum (z • φ) χ Finsupp.support_smul, pairing_sum φ χ (Finset.Subset.refl _), Finset.mul_sum]
  refine Finset.sum_congr rfl (fun e _ => ?_)
  rw [Finsupp.smul_apply, smul_eq_mul, map_mul, mul_assoc]

/-- the momenta of a ring of `L` sites -/
noncomputable def ringMomentum (L : ℕ) (j : ℕ) : ℝ := 2 * Real.pi * j / L

theorem ring_sum {L : ℕ} (hL : 0 < L) (s : ℤ) (hs : |s| < L) :
    ∑ j ∈ Finset.range L, exp (I * (ringMomentum L j * s)) = if s = 0 then (L : ℂ) else 0 := by
  by_cases h0 : s = 0
  · subst h0; simp
  · rw [if_neg h0]
    have hζ := Complex.isPrimitiveRoot_exp L hL.ne'
    set ζ := exp (2 * Real.pi * I / L) with hz
    have hL' : (L : ℂ) ≠ 0 := by exact_mod_cast hL.ne'
    have e1 : ∀ j ∈ Finset.range L, exp (I * (ringMomentum L j * s)) = (ζ ^ s) ^ j := by
      intro j _
      rw [hz, ← Complex.exp_int_mul, ← Complex.exp_nat_mul]
      congr 1
      unfold ringMomentum
      push_cast
      field_simp
    rw [Finset.sum_congr rfl e1]
    have h1 : ζ ^ s ≠ 1 := by
      intro q
      have := (hζ.zpow_eq_one_iff_dvd s).1 q
      exact h0 (Int.eq_zero_of_abs_lt_dvd this hs)
    have h2 : (ζ ^ s) ^ L = 1 := by
      rw [← zpow_natCast, ← zpow_mul, mul_comm, zpow_mul, zpow_natCast, hζ.pow_eq_one, one_zpow]
    have h3 := mul_neg_geom_sum (ζ ^ s) L
    rw [h2, sub_self] at h3
    exact (mul_eq_zero.1 h3).resolve_left (sub_ne_zero.2 (Ne.symm h1))

/-- Parseval's identity on a ring that is longer than the distances between the sites involved. -/
theorem parseval {L : ℕ} (φ χ : ℤ →₀ ℂ) (hL : ∀ e ∈ φ.support, ∀ e' ∈ χ.support, |e' - e| < L) :
    ∑ j ∈ Finset.range L, conj (wave (ringMomentum L j) φ) * wave (ringMomentum L j) χ = L * pairing φ χ := by
  classical
  rcases Nat.eq_zero_or_pos L with rfl | hpos
  · simp
  have h1 : ∀ k : ℝ, conj (wave k φ) * wave k χ =
      ∑ e ∈ φ.support, ∑ e' ∈ χ.support, conj (φ e) * χ e' * exp (I * (k * ((e' - e : ℤ) : ℂ))) := by
    intro k
    unfold wave
    rw [Finsupp.linearCombination_apply, Finsupp.linearCombination_apply, Finsupp.sum, Finsupp.sum, map_sum,
      Finset.sum_mul_sum]
    refine Finset.sum_congr rfl (fun e _ => Finset.sum_congr rfl (fun e' _ => ?_))
    rw [smul_eq_mul, smul_eq_mul, map_mul, ← Complex.exp_conj, map_mul, map_mul, Complex.conj_I, Complex.conj_ofReal,
      map_intCast]
    have : exp (I * (k * ((e' - e : ℤ) : ℂ))) = exp (-I * (k * e)) * exp (I * (k * e')) := by
      rw [← Complex.exp_add]; congr 1; push_cast; ring
    rw [this]; ring
  simp only [h1]
  rw [Finset.sum_comm]
  rw [pairing_sum φ χ (Finset.Subset.refl _), Finset.mul_sum]
  refine Finset.sum_congr rfl (fun e he => ?_)
  rw [Finset.sum_comm]
  have h2 : ∀ e' ∈ χ.support, ∑ j ∈ Finset.range L, conj (φ e) * χ e' * exp (I * (ringMomentum L j * ((e' - e : ℤ) : ℂ))) =
      if e' = e then L * (conj (φ e) * χ e) else 0 := by
    intro e' he'
    rw [← Finset.mul_sum, ring_sum hpos _ (hL e he e' he')]
    by_cases q : e' = e
    · subst q; simp; ring
    · rw [if_neg (sub_ne_zero.2 q), if_neg q, mul_zero]
  rw [Finset.sum_congr rfl h2, Finset.sum_ite_eq' χ.support e]
  by_cases q : e ∈ χ.support
  · rw [if_pos q]
  · rw [if_neg q, Finsupp.notMem_support_iff.1 q]; simp

/-! ### the Hamiltonian on amplitudes -/

variable {m : Model ℝ} {k : ℝ} {n : Occ}

open Classical in
/-- the Hamiltonian on amplitudes `c n e` for the electron at `e` and the phonons `n` as seen from the electron -/
noncomputable def chainFrame (m : Model ℝ) (c : Occ → ℤ →₀ ℂ) (n : Occ) : ℤ →₀ ℂ :=
  (occEnergy m n : ℂ) • c n - (m.ham.hopping : ℂ) • (slide (-1) (c (n.shift 1)) + slide 1 (c (n.shift (-1)))) +
    (m.ham.terms.map (fun h : SingleTerm ℝ => ((h.coupling : ℂ) * (ladder h n : ℂ)) •
      slide (electronSite h 0) (if Conceivable m (jump h n) then c (jump h n) else 0))).sum

theorem frame_wave (hl : m.latticeConstant = 1) (c : Occ → ℤ →₀ ℂ) (n : Occ) :
    frameAll m k (fun n => wave k (c n)) n = wave k (chainFrame m c n) := by
  unfold frameAll chainFrame
  rw [map_add, map_sub, map_smul, map_smul, map_add, map_list_sum, wave_slide, wave_slide, List.map_map, hl]
  have e1 : (m.ham.terms.map (fun h : SingleTerm ℝ => (h.coupling : ℂ) * (ladder h n : ℂ) *
      exp (-(I * (k * ((1 : ℝ) : ℂ) * electronSite h 0))) *
      open Classical in if Conceivable m (jump h n) then wave k (c (jump h n)) else 0)) =
      m.ham.terms.map (wave k ∘ fun h : SingleTerm ℝ => ((h.coupling : ℂ) * (ladder h n : ℂ)) •
      slide (electronSite h 0) (open Classical in if Conceivable m (jump h n) then c (jump h n) else 0)) := by
    refine List.map_congr_left (fun h _ => ?_)
    rw [Function.comp_apply, map_smul, wave_slide, smul_eq_mul]
    push_cast
    rw [mul_one]
    by_cases hj : Conceivable m (jump h n)
    · rw [if_pos hj, if_pos hj]; ring
    · rw [if_neg hj, if_neg hj, map_zero]; ring
  rw [e1, smul_eq_mul, smul_eq_mul]
  push_cast
  congr 3
  rw [mul_one, mul_neg_one, mul_neg, neg_neg]

/-- the amplitudes of a vector (those of the bra) -/
noncomputable def chainAmp (ψ : Fock) (n : Occ) : ℤ →₀ ℂ :=
  open Classical in
  Finsupp.onFinset (ψ.support.image Prod.fst) (fun e => conj (ψ (e, n.shift e)) * (Real.sqrt (occFact n) : ℂ)) (by
    intro e he
    refine Finset.mem_image.2 ⟨(e, n.shift e), ?_, rfl⟩
    rw [Finsupp.mem_support_iff]
    intro q
    exact he (by rw [q]; simp))

theorem chainAmp_apply (ψ : Fock) (n : Occ) (e : ℤ) :
    chainAmp ψ n e = conj (ψ (e, n.shift e)) * (Real.sqrt (occFact n) : ℂ) := rfl

/-- `⟨ψ|` as a functional -/
noncomputable def bra (ψ : Fock) : Fock →ₗ[ℂ] ℂ := onBasis fun n e => conj (ψ (e, n)) * lengthSq n

theorem overlap_bra (ψ φ : Fock) : overlap ψ φ = bra ψ φ := by
  unfold overlap bra onBasis
  rw [Finsupp.linearCombination_apply]
  refine Finset.sum_congr rfl (fun s _ => ?_)
  show conj (ψ s) * φ s * lengthSq s.2 = φ s * (conj (ψ s) * lengthSq s.2)
  ring

theorem bra_ket (ψ : Fock) (e : ℤ) (n : Occ) :
    bra ψ (ket e n) = (Real.sqrt (occFact n) : ℂ) * chainAmp ψ (n.shift (-e)) e := by
  unfold bra
  rw [onBasis_ket, chainAmp_apply, shift_shift, neg_add_cancel, occFact_shift]
  have h0 : n.shift 0 = n := by funext t x; simp [Occ.shift]
  have h1 : (Real.sqrt (occFact n) : ℂ) * (Real.sqrt (occFact n) : ℂ) = lengthSq n := by
    rw [← Complex.ofReal_mul, Real.mul_self_sqrt (by positivity)]
    norm_cast
  rw [h0, ← h1]; ring

open Classical in
theorem chainFrame_apply (c : Occ → ℤ →₀ ℂ) (n : Occ) (e : ℤ) : chainFrame m c n e =
    occEnergy m n * c n e - m.ham.hopping * (c (n.shift 1) (e - 1) + c (n.shift (-1)) (e + 1)) +
    (m.ham.terms.map (fun h : SingleTerm ℝ => (h.coupling : ℂ) * (ladder h n : ℂ) *
      if Conceivable m (jump h n) then c (jump h n) (electronSite h e) else 0)).sum := by
  have e1 : ∀ φ : ℤ →₀ ℂ, φ e = (Finsupp.lapply e : (ℤ →₀ ℂ) →ₗ[ℂ] ℂ) φ := fun _ => rfl
  unfold chainFrame
  rw [e1, map_add, map_sub, map_smul, map_smul, map_add, map_list_sum, List.map_map]
  simp only [Finsupp.lapply_apply, slide_apply, smul_eq_mul, Function.comp_def, map_smul, sub_eq_add_neg]
  congr 3
  funext h
  by_cases hj : Conceivable m (jump h n)
  · rw [if_pos hj, if_pos hj, electron_shift h e, add_comm e]
  · rw [if_neg hj, if_neg hj]; rfl

open Classical in
theorem bra_textbook {ds : List (Part ℝ)} {bs : List Branch} (h : List.Forall₂ Denotes ds bs) {hopping lattice T : ℝ}
    {cap : Option ℤ} (hm : m = blueprint hopping lattice T cap ds) (ψ : Fock) (hψ : ∀ s ∈ ψ.support, Conceivable m s.2)
    (e : ℤ) (hn : Conceivable m n) :
    bra ψ (textbook hopping bs (ket e n)) =
      (Real.sqrt (occFact n) : ℂ) * chainFrame m (chainAmp ψ) (n.shift (-e)) e := by
  rw [textbook_ket (bra ψ) h hopping lattice T cap, ← hm, chainFrame_apply, energy_shift, shift_shift, shift_shift]
  have hh : m.ham.hopping = hopping := by rw [hm]; rfl
  have e5 : (m.ham.terms.map (fun h : SingleTerm ℝ => (h.coupling : ℂ) *
      (occFactor h.dag n h.phononIndex (bosonSite h e) : ℂ) *
      bra ψ (ket (electronSite h e) (n.act h.dag h.phononIndex (bosonSite h e))))).sum =
      (Real.sqrt (occFact n) : ℂ) * (m.ham.terms.map (fun h : SingleTerm ℝ => (h.coupling : ℂ) *
        (ladder h (n.shift (-e)) : ℂ) * if Conceivable m (jump h (n.shift (-e)))
          then chainAmp ψ (jump h (n.shift (-e))) (electronSite h e) else 0)).sum := by
    rw [← List.sum_map_mul_left]
    congr 1
    refine List.map_congr_left (fun h _ => ?_)
    have hiff : Conceivable m (jump h (n.shift (-e))) ↔ Conceivable m (n.act h.dag h.phononIndex (bosonSite h e)) := by
      rw [← jump_shift, conceivable_shift]
    by_cases hj : Conceivable m (n.act h.dag h.phononIndex (bosonSite h e))
    · rw [if_pos (hiff.2 hj), bra_ket, jump_shift]
      have hl' : (occFactor h.dag n h.phononIndex (bosonSite h e) : ℝ) *
          Real.sqrt (occFact (n.act h.dag h.phononIndex (bosonSite h e))) =
          ladder h (n.shift (-e)) * Real.sqrt (occFact n) := by
        rw [factor_conceivable hn _ _ _ hj]
        congr 1
        rw [ladder_eq]
        have : n.shift (-e) h.phononIndex (bosonSite h 0) = n h.phononIndex (bosonSite h e) := by
          show n _ (bosonSite h 0 - -e) = _
          rw [boson_shift h e, sub_neg_eq_add]
        rw [this]
      have hl'' : ((occFactor h.dag n h.phononIndex (bosonSite h e) : ℂ)) *
          (Real.sqrt (occFact (n.act h.dag h.phononIndex (bosonSite h e))) : ℂ) =
          (ladder h (n.shift (-e)) : ℂ) * (Real.sqrt (occFact n) : ℂ) := by exact_mod_cast hl'
      linear_combination (h.coupling : ℂ) * chainAmp ψ (jump h (n.shift (-e))) (electronSite h e) * hl''
    · have hz : bra ψ (ket (electronSite h e) (n.act h.dag h.phononIndex (bosonSite h e))) = 0 := by
        unfold bra
        rw [onBasis_ket]
        have : ψ (electronSite h e, n.act h.dag h.phononIndex (bosonSite h e)) = 0 := by
          by_contra q
          exact hj (hψ _ (Finsupp.mem_support_iff.2 q))
        rw [this]; simp
      rw [hz, if_neg (fun q => hj (hiff.1 q))]; ring
  rw [e5, bra_ket, bra_ket, bra_ket, hh, show -(e - 1) = -e + 1 by ring, show -(e + 1) = -e + -1 by ring]
  ring

/-- sums over a vector as sums over the frame of the electron -/
theorem sum_frame (ψ : Fock) {S : Finset Occ} (hS : ∀ s ∈ ψ.support, s.2.shift (-s.1) ∈ S) (X : Occ → ℤ →₀ ℂ) :
    ∑ s ∈ ψ.support, ψ s * ((Real.sqrt (occFact s.2) : ℂ) * X (s.2.shift (-s.1)) s.1) =
      ∑ n ∈ S, pairing (chainAmp ψ n) (X n) := by
  classical
  have e1 : ∀ n ∈ S, pairing (chainAmp ψ n) (X n) =
      ∑ e ∈ ψ.support.image Prod.fst, conj (chainAmp ψ n e) * X n e :=
    fun n _ => pairing_sum _ _ Finsupp.support_onFinset_subset
  rw [Finset.sum_congr rfl e1, ← Finset.sum_product']
  have hinj : Function.Injective (fun s : Ket => ((s.2.shift (-s.1), s.1) : Occ × ℤ)) := by
    rintro ⟨e, n⟩ ⟨e', n'⟩ q
    obtain ⟨q1, rfl⟩ : n.shift (-e) = n'.shift (-e') ∧ e = e' := by simpa using q
    have := congrArg (fun x : Occ => x.shift e) q1
    have h0 : ∀ n : Occ, n.shift 0 = n := fun n => by funext t x; simp [Occ.shift]
    simp only [shift_shift, neg_add_cancel, h0] at this
    rw [this]
  have e2 : ∑ s ∈ ψ.support, ψ s * ((Real.sqrt (occFact s.2) : ℂ) * X (s.2.shift (-s.1)) s.1) =
      ∑ q ∈ ψ.support.map ⟨_, hinj⟩, conj (chainAmp ψ q.1 q.2) * X q.1 q.2 := by
    rw [Finset.sum_map]
    refine Finset.sum_congr rfl (fun s _ => ?_)
    have h0 : s.2.shift 0 = s.2 := by funext t x; simp [Occ.shift]
    simp only [Function.Embedding.coeFn_mk, chainAmp_apply, shift_shift, neg_add_cancel, h0, occFact_shift, map_mul,
      Complex.conj_conj, Complex.conj_ofReal]
    ring
  rw [e2]
  refine Finset.sum_subset ?_ ?_
  · intro q hq
    obtain ⟨s, hs, rfl⟩ := Finset.mem_map.1 hq
    exact Finset.mem_product.2 ⟨hS s hs, Finset.mem_image.2 ⟨s, hs, rfl⟩⟩
  · rintro ⟨n, e⟩ _ hq
    have : ψ (e, n.shift e) = 0 := by
      by_contra q
      refine hq (Finset.mem_map.2 ⟨(e, n.shift e), Finsupp.mem_support_iff.2 q, ?_⟩)
      have h0 : n.shift 0 = n := by funext t x; simp [Occ.shift]
      simp [h0]
    show conj (chainAmp ψ n e) * X n e = 0
    rw [chainAmp_apply, this]; simp

theorem fock_sum (ψ : Fock) (F : Fock →ₗ[ℂ] ℂ) : F ψ = ∑ s ∈ ψ.support, ψ s * F (ket s.1 s.2) := by
  conv_lhs => rw [← Finsupp.sum_single ψ]
  rw [Finsupp.sum, map_sum]
  refine Finset.sum_congr rfl (fun s _ => ?_)
  have : Finsupp.single s (ψ s) = ψ s • ket s.1 s.2 := by simp [ket]
  rw [this, map_smul, smul_eq_mul]

theorem overlap_self (ψ : Fock) {S : Finset Occ} (hS : ∀ s ∈ ψ.support, s.2.shift (-s.1) ∈ S) :
    overlap ψ ψ = ∑ n ∈ S, pairing (chainAmp ψ n) (chainAmp ψ n) := by
  rw [overlap_bra, fock_sum, ← sum_frame ψ hS]
  exact Finset.sum_congr rfl (fun s _ => by rw [bra_ket])

theorem overlap_textbook {ds : List (Part ℝ)} {bs : List Branch} (h : List.Forall₂ Denotes ds bs) {hopping lattice T : ℝ}
    {cap : Option ℤ} (hm : m = blueprint hopping lattice T cap ds) (ψ : Fock) (hψ : ∀ s ∈ ψ.support, Conceivable m s.2)
    {S : Finset Occ} (hS : ∀ s ∈ ψ.support, s.2.shift (-s.1) ∈ S) :
    overlap ψ (textbook hopping bs ψ) = ∑ n ∈ S, pairing (chainAmp ψ n) (chainFrame m (chainAmp ψ) n) := by
  rw [overlap_bra, ← LinearMap.comp_apply, fock_sum, ← sum_frame ψ hS]
  exact Finset.sum_congr rfl (fun s hs => by rw [LinearMap.comp_apply, bra_textbook h hm ψ hψ _ (hψ s hs)])

/-! ### from momenta to the chain -/

theorem lower_chain {ds : List (Part ℝ)} {bs : List Branch} (h : List.Forall₂ Denotes ds bs) {hopping T : ℝ}
    {cap : Option ℤ} (hm : m = blueprint hopping 1 T cap ds) {e : ℝ}
    (he : ∀ (k : ℝ) (f : Occ →₀ ℂ), (∀ n ∈ f.support, Conceivable m n) → e * weightOf f ≤ exactEnergy m k f) :
    LowerBound (textbook hopping bs) m.nTypes e := by
  classical
  intro ψ hψ'
  have hψ : ∀ s ∈ ψ.support, Conceivable m s.2 := fun s hs => finitelyMany_iff.1 (hψ' s hs)
  have hl : m.latticeConstant = 1 := by rw [hm]; rfl
  set S : Finset Occ := ψ.support.image (fun s => s.2.shift (-s.1)) with hSdef
  have hS : ∀ s ∈ ψ.support, s.2.shift (-s.1) ∈ S := fun s hs => Finset.mem_image.2 ⟨s, hs, rfl⟩
  have hSc : ∀ n ∈ S, Conceivable m n := by
    intro n hn
    obtain ⟨s, hs, rfl⟩ := Finset.mem_image.1 hn
    exact conceivable_shift.2 (hψ s hs)
  set c := chainAmp ψ with hc
  have hc0 : ∀ n, n ∉ S → c n = 0 := by
    intro n hn
    ext x
    rw [hc, chainAmp_apply]
    have : ψ (x, n.shift x) = 0 := by
      by_contra q
      refine hn ?_
      have := hS _ (Finsupp.mem_support_iff.2 q)
      have h0 : n.shift 0 = n := by funext t x; simp [Occ.shift]
      simpa [h0] using this
    rw [this]; simp
  rw [overlap_self ψ hS, overlap_textbook h hm ψ hψ hS, ← hc]
  -- a ring long enough
  obtain ⟨L, hL⟩ : ∃ L : ℕ, 0 < L ∧ ∀ n ∈ S, ∀ x ∈ (c n).support, ∀ y ∈ (c n).support ∪ (chainFrame m c n).support,
      |y - x| < L := by
    have : ∀ S' : Finset (ℤ), ∃ B : ℕ, ∀ x ∈ S', |x| ≤ B := fun S' =>
      ⟨∑ x ∈ S', x.natAbs, fun x hx => by
        have := Finset.single_le_sum (f := Int.natAbs) (fun _ _ => Nat.zero_le _) hx
        rw [Int.abs_eq_natAbs]
        exact_mod_cast this⟩
    obtain ⟨B, hB⟩ := this (S.biUnion fun n => (c n).support ∪ (chainFrame m c n).support)
    refine ⟨2 * B + 1, by omega, fun n hn x hx y hy => ?_⟩
    have h1 := hB x (Finset.mem_biUnion.2 ⟨n, hn, Finset.mem_union_left _ hx⟩)
    have h2 := hB y (Finset.mem_biUnion.2 ⟨n, hn, hy⟩)
    rw [abs_le] at h1 h2
    rw [abs_lt]
    push_cast
    constructor <;> omega
  have hpos : (0 : ℝ) < L := by exact_mod_cast hL.1
  -- the state at one momentum
  let f : ℝ → Occ →₀ ℂ := fun k => Finsupp.onFinset S (fun n => wave k (c n)) (by
    intro n hn
    by_contra q
    exact hn (by rw [hc0 n q, map_zero]))
  have hf : ∀ k n, f k n = wave k (c n) := fun k n => rfl
  have hsub : ∀ k, (f k).support ⊆ S := fun k => Finsupp.support_onFinset_subset
  have hw : ∀ k, ((weightOf (f k) : ℝ) : ℂ) = ∑ n ∈ S, conj (wave k (c n)) * wave k (c n) := by
    intro k
    unfold weightOf
    rw [Finset.sum_subset (hsub k) (fun n _ hn => by rw [Finsupp.notMem_support_iff.1 hn]; simp)]
    push_cast
    refine Finset.sum_congr rfl (fun n _ => ?_)
    rw [hf, ← Complex.conj_mul']
  have hE : ∀ k, exactEnergy m k (f k) = (∑ n ∈ S, conj (wave k (c n)) * wave k (chainFrame m c n)).re := by
    intro k
    unfold exactEnergy
    rw [Finset.sum_subset (hsub k) (fun n _ hn => by rw [Finsupp.notMem_support_iff.1 hn]; simp)]
    congr 1
    refine Finset.sum_congr rfl (fun n _ => ?_)
    rw [← frame_wave hl, hf]
    rfl
  have key : ∀ j, e * (∑ n ∈ S, conj (wave (ringMomentum L j) (c n)) * wave (ringMomentum L j) (c n)).re ≤
      (∑ n ∈ S, conj (wave (ringMomentum L j) (c n)) * wave (ringMomentum L j) (chainFrame m c n)).re := by
    intro j
    rw [← hE, ← hw, Complex.ofReal_re]
    exact he _ _ (fun n hn => hSc n (hsub _ hn))
  have hsum := Finset.sum_le_sum (fun j (_ : j ∈ Finset.range L) => key j)
  rw [← Finset.mul_sum, ← Complex.re_sum, ← Complex.re_sum, Finset.sum_comm, Finset.sum_comm (s := Finset.range L)] at hsum
  rw [Finset.sum_congr rfl (fun n hn => parseval (c n) (c n)
      (fun x hx y hy => hL.2 n hn x hx y (Finset.mem_union_left _ hy))),
    Finset.sum_congr rfl (fun n hn => parseval (c n) (chainFrame m c n)
      (fun x hx y hy => hL.2 n hn x hx y (Finset.mem_union_right _ hy))), ← Finset.mul_sum, ← Finset.mul_sum] at hsum
  have hre : ∀ z : ℂ, ((L : ℂ) * z).re = L * z.re := fun z => by simp
  rw [hre, hre] at hsum
  refine le_of_mul_le_mul_left ?_ hpos
  linarith

/-! ### wave packets -/

/-- a plane wave on the first `L` sites -/
noncomputable def packet (k : ℝ) (L : ℕ) : ℤ →₀ ℂ :=
  Finsupp.onFinset (Finset.Ico (0 : ℤ) L) (fun e => if 0 ≤ e ∧ e < L then exp (-(I * (k * e))) else 0) (by
    intro e he
    by_contra q
    rw [Finset.mem_Ico] at q
    exact he (if_neg q))

theorem packet_apply (k : ℝ) (L : ℕ) (e : ℤ) : packet k L e = if 0 ≤ e ∧ e < L then exp (-(I * (k * e))) else 0 := rfl

theorem pairing_packet (k : ℝ) (L : ℕ) (s : ℤ) (hs : |s| ≤ L) :
    pairing (packet k L) (slide s (packet k L)) = ((L : ℂ) - ((|s| : ℤ) : ℂ)) * exp (-(I * (k * s))) := by
  have hsub : (packet k L).support ⊆ Finset.Ico (0 : ℤ) L := Finsupp.support_onFinset_subset
  rw [pairing_sum _ _ hsub]
  have h1 : ∀ e ∈ Finset.Ico (0 : ℤ) L, conj (packet k L e) * slide s (packet k L) e =
      if 0 ≤ e + s ∧ e + s < L then exp (-(I * (k * s))) else 0 := by
    intro e he
    rw [Finset.mem_Ico] at he
    rw [slide_apply, packet_apply, packet_apply, if_pos he]
    by_cases q : 0 ≤ e + s ∧ e + s < L
    · rw [if_pos q, if_pos q, ← Complex.exp_conj, ← Complex.exp_add]
      congr 1
      simp only [map_neg, map_mul, Complex.conj_I, Complex.conj_ofReal, map_intCast]
      push_cast
      ring
    · rw [if_neg q, if_neg q, mul_zero]
  rw [Finset.sum_congr rfl h1, ← Finset.sum_filter, Finset.sum_const, nsmul_eq_mul]
  congr 1
  have h2 : (Finset.Ico (0 : ℤ) L).filter (fun e => 0 ≤ e + s ∧ e + s < L) = Finset.Ico (max 0 (-s)) (min (L : ℤ) (L - s)) := by
    ext e
    simp only [Finset.mem_filter, Finset.mem_Ico, max_le_iff, lt_min_iff]
    constructor
    · rintro ⟨⟨a, b⟩, c, d⟩; exact ⟨⟨a, by omega⟩, b, by omega⟩
    · rintro ⟨⟨a, b⟩, c, d⟩; exact ⟨⟨a, c⟩, by omega, by omega⟩
  rw [h2, Int.card_Ico]
  have h3 : ((min (L : ℤ) (L - s) - max 0 (-s)).toNat : ℤ) = L - |s| := by
    rcases abs_cases s with ⟨q, q'⟩ | ⟨q, q'⟩ <;> rw [q] at hs ⊢ <;> omega
  have h4 : (((min (L : ℤ) (L - s) - max 0 (-s)).toNat : ℤ) : ℂ) = ((L - |s| : ℤ) : ℂ) := by rw [h3]
  push_cast at h4 ⊢
  exact h4

open Filter Topology in
theorem tendsto_packet (k : ℝ) (s : ℤ) :
    Tendsto (fun L : ℕ => pairing (packet k L) (slide s (packet k L)) / L) atTop (𝓝 (exp (-(I * (k * s))))) := by
  have h1 : Tendsto (fun L : ℕ => (1 - ((|s| : ℤ) : ℂ) * (L : ℂ)⁻¹) * exp (-(I * (k * s)))) atTop
      (𝓝 ((1 - ((|s| : ℤ) : ℂ) * 0) * exp (-(I * (k * s))))) := by
    refine Tendsto.mul_const _ (tendsto_const_nhds.sub (Tendsto.const_mul _ ?_))
    exact tendsto_inv_atTop_nhds_zero_nat (𝕜 := ℂ)
  rw [mul_zero, sub_zero, one_mul] at h1
  refine h1.congr' ?_
  filter_upwards [eventually_ge_atTop (max 1 s.natAbs)] with L hL
  have hL1 : (L : ℂ) ≠ 0 := by
    have : 1 ≤ L := (le_max_left _ _).trans hL
    exact_mod_cast (by omega : L ≠ 0)
  rw [pairing_packet k L s (by
    have := (le_max_right _ _).trans hL
    rw [Int.abs_eq_natAbs]
    exact_mod_cast this)]
  field_simp

open Filter Topology in
theorem tendsto_frame (hl : m.latticeConstant = 1) (k : ℝ) (f : Occ → ℂ) (n : Occ) :
    Tendsto (fun L : ℕ => pairing (f n • packet k L) (chainFrame m (fun n => f n • packet k L) n) / L) atTop
      (𝓝 (conj (f n) * frameAll m k f n)) := by
  classical
  have h0 : Tendsto (fun L : ℕ => pairing (packet k L) (packet k L) / L) atTop (𝓝 1) := by
    have := tendsto_packet k 0
    have hs : ∀ φ, slide 0 φ = φ := fun φ => by ext e; rw [slide_apply, add_zero]
    simpa [hs] using this
  simp only [pairing_smul, mul_div_assoc]
  refine Tendsto.const_mul _ ?_
  have hlist : ∀ l : List (SingleTerm ℝ), Tendsto (fun L : ℕ => (l.map (fun h : SingleTerm ℝ =>
      (h.coupling : ℂ) * (ladder h n : ℂ) * ((if Conceivable m (jump h n) then f (jump h n) else 0) *
      (pairing (packet k L) (slide (electronSite h 0) (packet k L)) / L)))).sum) atTop
      (𝓝 (l.map (fun h : SingleTerm ℝ => (h.coupling : ℂ) * (ladder h n : ℂ) *
      exp (-(I * (k * m.latticeConstant * electronSite h 0))) *
      if Conceivable m (jump h n) then f (jump h n) else 0)).sum) := by
    intro l
    induction l with
    | nil => simp
    | cons h l ih =>
      simp only [List.map_cons, List.sum_cons]
      refine Tendsto.add ?_ ih
      have := ((tendsto_packet k (electronSite h 0)).const_mul (if Conceivable m (jump h n) then f (jump h n) else 0)).const_mul
        ((h.coupling : ℂ) * (ladder h n : ℂ))
      rw [hl]
      convert this using 2
      push_cast
      rw [mul_one]
      ring
  have := ((h0.const_mul ((occEnergy m n : ℂ) * f n)).sub
    ((((tendsto_packet k (-1)).const_mul (f (n.shift 1))).add ((tendsto_packet k 1).const_mul (f (n.shift (-1))))).const_mul
      (m.ham.hopping : ℂ))).add (hlist m.ham.terms)
  refine (this.congr fun L => ?_).trans (le_of_eq ?_)
  · symm
    unfold chainFrame
    rw [map_add, map_sub, map_list_sum, List.map_map]
    simp only [map_smul, map_add]
    have e1 : (m.ham.terms.map (pairing (packet k L) ∘ fun h : SingleTerm ℝ => ((h.coupling : ℂ) * (ladder h n : ℂ)) •
        slide (electronSite h 0) (if Conceivable m (jump h n) then f (jump h n) • packet k L else 0))).sum / L =
        (m.ham.terms.map (fun h : SingleTerm ℝ =>
      (h.coupling : ℂ) * (ladder h n : ℂ) * ((if Conceivable m (jump h n) then f (jump h n) else 0) *
      (pairing (packet k L) (slide (electronSite h 0) (packet k L)) / L)))).sum := by
      rw [div_eq_mul_inv, ← List.sum_map_mul_right]
      congr 1
      refine List.map_congr_left (fun h _ => ?_)
      by_cases hj : Conceivable m (jump h n)
      · simp only [Function.comp_apply, if_pos hj, map_smul, smul_eq_mul]; ring
      · simp only [Function.comp_apply, if_neg hj, map_zero, smul_zero]; ring
    rw [add_div, e1, sub_div]
    simp only [smul_eq_mul]
    ring
  · unfold frameAll
    rw [hl]
    congr 1
    push_cast
    congr 1
    rw [mul_one, mul_neg_one, mul_neg, neg_neg, mul_one]
    ring

/-- the vector with given amplitudes -/
theorem exists_vector (c : Occ → ℤ →₀ ℂ) (S : Finset Occ) (hc : ∀ n, n ∉ S → c n = 0) :
    ∃ ψ : Fock, chainAmp ψ = c ∧ ∀ s ∈ ψ.support, s.2.shift (-s.1) ∈ S := by
  classical
  have h0 : ∀ n : Occ, n.shift 0 = n := fun n => by funext t x; simp [Occ.shift]
  have hz : ∀ s : Ket, conj (c (s.2.shift (-s.1)) s.1) / (Real.sqrt (occFact s.2) : ℂ) ≠ 0 →
      c (s.2.shift (-s.1)) s.1 ≠ 0 := by
    intro s hs q
    exact hs (by rw [q]; simp)
  have hS : ∀ s : Ket, c (s.2.shift (-s.1)) s.1 ≠ 0 → s.2.shift (-s.1) ∈ S := by
    intro s hs
    by_contra q
    exact hs (by rw [hc _ q]; rfl)
  refine ⟨Finsupp.onFinset ((S.biUnion fun n => (c n).support.image fun e => ((e, n.shift e) : Ket)))
    (fun s : Ket => conj (c (s.2.shift (-s.1)) s.1) / (Real.sqrt (occFact s.2) : ℂ)) ?_, ?_, ?_⟩
  · intro s hs
    have h1 := hz s hs
    refine Finset.mem_biUnion.2 ⟨_, hS s h1, Finset.mem_image.2 ⟨s.1, Finsupp.mem_support_iff.2 h1, ?_⟩⟩
    rw [shift_shift, neg_add_cancel, h0]
  · funext n
    ext e
    have := sqrt_fact_ne n
    rw [chainAmp_apply, Finsupp.onFinset_apply]
    simp only [shift_shift, add_neg_cancel, h0, occFact_shift, map_div₀, Complex.conj_conj, Complex.conj_ofReal]
    field_simp
  · intro s hs
    exact hS s (hz s (Finsupp.mem_support_iff.1 hs))

open Filter Topology in
theorem upper_chain {ds : List (Part ℝ)} {bs : List Branch} (h : List.Forall₂ Denotes ds bs) {hopping T : ℝ}
    {cap : Option ℤ} (hm : m = blueprint hopping 1 T cap ds) {e : ℝ} (he : LowerBound (textbook hopping bs) m.nTypes e)
    (k : ℝ) (f : Occ →₀ ℂ) (hf : ∀ n ∈ f.support, Conceivable m n) : e * weightOf f ≤ exactEnergy m k f := by
  classical
  have hl : m.latticeConstant = 1 := by rw [hm]; rfl
  have h1 : ∀ L : ℕ, e * (∑ n ∈ f.support, pairing (f n • packet k L) (f n • packet k L) / L).re ≤
      (∑ n ∈ f.support, pairing (f n • packet k L) (chainFrame m (fun n => f n • packet k L) n) / L).re := by
    intro L
    obtain ⟨ψ, e1, e2⟩ := exists_vector (fun n => f n • packet k L) f.support (fun n hn => by
      rw [Finsupp.notMem_support_iff.1 hn, zero_smul])
    have hψ : ∀ s ∈ ψ.support, Conceivable m s.2 := fun s hs => conceivable_shift.1 (hf _ (e2 s hs))
    have := he ψ (fun s hs => finitelyMany_iff.2 (hψ s hs))
    rw [overlap_self ψ e2, overlap_textbook h hm ψ hψ e2, e1] at this
    rw [← Finset.sum_div, ← Finset.sum_div, Complex.div_natCast_re, Complex.div_natCast_re, ← mul_div_assoc]
    exact div_le_div_of_nonneg_right this (Nat.cast_nonneg L)
  have t1 : Tendsto (fun L : ℕ => ∑ n ∈ f.support, pairing (f n • packet k L) (f n • packet k L) / L) atTop
      (𝓝 (∑ n ∈ f.support, conj (f n) * f n)) := by
    refine tendsto_finset_sum _ (fun n _ => ?_)
    have h0 := tendsto_packet k 0
    have hs : ∀ φ, slide 0 φ = φ := fun φ => by ext e; rw [slide_apply, add_zero]
    have h2 := h0.const_mul (conj (f n) * f n)
    simp only [hs, Int.cast_zero, mul_zero, neg_zero, Complex.exp_zero, mul_one] at h2
    refine h2.congr (fun L => ?_)
    rw [map_smul, pairing_smul, smul_eq_mul]
    ring
  have t2 : Tendsto (fun L : ℕ => ∑ n ∈ f.support, pairing (f n • packet k L)
      (chainFrame m (fun n => f n • packet k L) n) / L) atTop (𝓝 (∑ n ∈ f.support, conj (f n) * frameAll m k f n)) :=
    tendsto_finset_sum _ (fun n _ => tendsto_frame hl k f n)
  have hre := Complex.continuous_re.tendsto
  have h3 := le_of_tendsto_of_tendsto' (((hre _).comp t1).const_mul e) ((hre _).comp t2) h1
  have hw : weightOf f = (∑ n ∈ f.support, conj (f n) * f n).re := by
    unfold weightOf
    rw [Complex.re_sum]
    refine Finset.sum_congr rfl (fun n _ => ?_)
    rw [Complex.conj_mul']
    norm_cast
  rw [hw]
  exact h3

/-- The ground-state energy on the chain is the one over all momenta. -/
theorem chainGround_iff {ds : List (Part ℝ)} {bs : List Branch} (h : List.Forall₂ Denotes ds bs) {hopping T : ℝ}
    {cap : Option ℤ} (hm : m = blueprint hopping 1 T cap ds) {e : ℝ} :
    ChainGround (textbook hopping bs) m.nTypes e ↔ ExactGround m e :=
  ⟨fun q => ⟨upper_chain h hm q.1, fun e' he' => q.2 e' (lower_chain h hm he')⟩,
    fun q => ⟨lower_chain h hm q.1, fun e' he' => q.2 e' (upper_chain h hm he')⟩⟩

/-! ### signs -/

theorem weight_gauge (ε : ℕ → ℤˣ) (f : Occ →₀ ℂ) : ∃ g : Occ →₀ ℂ, g.support = f.support ∧ weightOf g = weightOf f ∧
    ∀ n, g n = unitC (occSign m.nTypes ε n) * f n := by
  have hne : ∀ n, unitC (occSign m.nTypes ε n) ≠ 0 := fun n q => by
    have := unitC_norm (occSign m.nTypes ε n)
    rw [q, norm_zero] at this
    exact zero_ne_one this
  let g : Occ →₀ ℂ := Finsupp.onFinset f.support (fun n => unitC (occSign m.nTypes ε n) * f n) (fun n hn => by
    rw [Finsupp.mem_support_iff]
    intro q
    exact hn (by rw [q, mul_zero]))
  have hg : ∀ n, g n = unitC (occSign m.nTypes ε n) * f n := fun n => rfl
  have hs : g.support = f.support := by
    ext n
    rw [Finsupp.mem_support_iff, Finsupp.mem_support_iff, hg, mul_ne_zero_iff]
    exact ⟨fun q => q.2, fun q => ⟨hne n, q⟩⟩
  refine ⟨g, hs, ?_, hg⟩
  unfold weightOf
  rw [hs]
  exact Finset.sum_congr rfl (fun n _ => by rw [hg, norm_mul, unitC_norm, one_mul])

theorem unitC_conj_self (u : ℤˣ) : conj (unitC u) * unitC u = 1 := by
  rw [Complex.conj_mul', unitC_norm]; simp

theorem energy_gauge (ε : ℕ → ℤˣ) (hidx : ∀ h ∈ m.ham.terms, h.phononIndex < m.nTypes) {f g : Occ →₀ ℂ}
    (hs : g.support = f.support) (hg : ∀ n, g n = unitC (occSign m.nTypes ε n) * f n)
    (hf : ∀ n ∈ f.support, Conceivable m n) : exactEnergy (gaugeModel ε 1 m) k g = exactEnergy m k f := by
  unfold exactEnergy
  rw [hs]
  congr 1
  refine Finset.sum_congr rfl (fun n hn => ?_)
  have hfun : (g : Occ → ℂ) = fun n => unitC (occSign m.nTypes ε n) * f n := funext hg
  rw [hfun, frameAll_gauge ε hidx f (hf n hn), map_mul]
  linear_combination conj (f n) * frameAll m k f n * unitC_conj_self (occSign m.nTypes ε n)

theorem ground_gauge (ε : ℕ → ℤˣ) (hidx : ∀ h ∈ m.ham.terms, h.phononIndex < m.nTypes) {e : ℝ} :
    ExactGround (gaugeModel ε 1 m) e ↔ ExactGround m e := by
  have hc : ∀ n', Conceivable (gaugeModel ε 1 m) n' ↔ Conceivable m n' := fun n' =>
    ⟨fun ⟨a, b, c⟩ => ⟨a, b, c⟩, fun ⟨a, b, c⟩ => ⟨a, b, c⟩⟩
  have key : ∀ e : ℝ, (∀ (k : ℝ) (f : Occ →₀ ℂ), (∀ n ∈ f.support, Conceivable (gaugeModel ε 1 m) n) →
      e * weightOf f ≤ exactEnergy (gaugeModel ε 1 m) k f) ↔
      ∀ (k : ℝ) (f : Occ →₀ ℂ), (∀ n ∈ f.support, Conceivable m n) → e * weightOf f ≤ exactEnergy m k f := by
    intro e
    constructor
    · intro q k f hf
      obtain ⟨g, g1, g2, g3⟩ := weight_gauge (m := m) ε f
      rw [← g2, ← energy_gauge ε hidx g1 g3 hf]
      exact q k g (fun n hn => (hc n).2 (hf n (g1 ▸ hn)))
    · intro q k g hg
      obtain ⟨f, g1, g2, g3⟩ := weight_gauge (m := m) ε g
      have h3 : ∀ n, g n = unitC (occSign m.nTypes ε n) * f n := by
        intro n
        rw [g3, ← mul_assoc, ← unitC_mul, ← pow_two, Int.units_sq, unitC_one, one_mul]
      have hf : ∀ n ∈ f.support, Conceivable m n := fun n hn => (hc n).1 (hg n (g1 ▸ hn))
      rw [← g2, energy_gauge ε hidx g1.symm h3 hf]
      exact q k f hf
  unfold ExactGround
  rw [key]
  exact and_congr_right fun _ => forall_congr' fun e' => by rw [key]

end GGCE
