import Verif.Spec.WeakCoupling
import Verif.Proofs.FewSplit
import Verif.Props.SecondOrder
import Verif.Props.SelfEnergy
import Verif.Props.ErrorBar
import Verif.Props.Cold

/-!
Property C115: for weak coupling the code is second-order perturbation theory, with an error of fourth order.
-/

set_option linter.unusedSectionVars false

namespace GGCE.Props
open Spec Arr Complex
open scoped InnerProductSpace

/-! ### the modes of a history -/

theorem vertex_scale (ct : String) (g k q : ℝ) : vertex ct g k q = g * vertex ct 1 k q := by
  unfold vertex
  split_ifs <;> ring

theorem secondOrderSelf_scale (ct : String) (g t Omega k : ℝ) (z : ℂ) :
    secondOrderSelf ct g t Omega k z = ((g ^ 2 : ℝ) : ℂ) * secondOrderSelf ct 1 t Omega k z := by
  unfold secondOrderSelf
  have : ∀ q : ℝ, ((vertex ct g k q ^ 2 : ℝ) : ℂ) / (z - Omega + 2 * t * Real.cos q) =
      ((g ^ 2 : ℝ) : ℂ) * (((vertex ct 1 k q ^ 2 : ℝ) : ℂ) / (z - Omega + 2 * t * Real.cos q)) := by
    intro q
    rw [vertex_scale, mul_pow]
    push_cast
    ring
  simp only [this]
  rw [intervalIntegral.integral_const_mul]
  ring

theorem parts_self {hopping T x : ℝ} {z : ℂ} : ∀ (as : List (AddArgs ℝ)), Clean realPrims hopping T as →
    (0 < T → ∀ a ∈ as, 0 < a.freq) →
    ((parts realPrims hopping T as).map (fun d => secondOrderSelf d.ctype d.g hopping d.freq x z)).sum =
      secondOrderSum hopping T x z as
  | [], _, _ => by simp [parts, secondOrderSum]
  | a :: as, hc, hpos => by
    have ih := parts_self (x := x) (z := z) as hc.tail (fun hT b hb => hpos hT b (List.mem_cons_of_mem _ hb))
    have hk := hc.known a List.mem_cons_self
    have ho := (hc.valid a List.mem_cons_self).strength
    have hd := hc.defined a List.mem_cons_self
    unfold secondOrderSum at ih ⊢
    rw [parts_cons, List.map_append, List.sum_append, ih, List.map_cons, List.sum_cons]
    congr 1
    have e1 := strengthD_sq hk ho hd (Or.inl rfl)
    have e2 := strengthD_sq hk ho hd (Or.inr rfl)
    unfold partsAt
    by_cases hT : 0 < T
    · obtain ⟨t1, t2⟩ := tfd_thermal hT (hpos hT a List.mem_cons_self)
      rw [if_pos hT]
      simp only [List.map_cons, List.map_nil, List.sum_cons, List.sum_nil, add_zero]
      rw [secondOrderSelf_scale, secondOrderSelf_scale _ (strengthD realPrims hopping a (-a.freq) * _), mul_pow, mul_pow,
        e1, e2, show realPrims.tfd T a.freq = tfdR T a.freq from rfl, t1, t2]
      push_cast
      ring
    · rw [if_neg hT]
      simp only [List.map_cons, List.map_nil, List.sum_cons, List.sum_nil, add_zero, mul_one]
      rw [secondOrderSelf_scale, e1]
      unfold thermal
      rw [if_neg hT]
      push_cast
      ring

theorem parts_coupling {hopping T : ℝ} : ∀ (as : List (AddArgs ℝ)), Clean realPrims hopping T as →
    (0 < T → ∀ a ∈ as, 0 < a.freq) →
    ((parts realPrims hopping T as).map (fun d => termCount d.ctype * |d.g|)).sum = couplingSum hopping T as
  | [], _, _ => by simp [parts, couplingSum]
  | a :: as, hc, hpos => by
    have ih := parts_coupling as hc.tail (fun hT b hb => hpos hT b (List.mem_cons_of_mem _ hb))
    have hk := hc.known a List.mem_cons_self
    have ho := (hc.valid a List.mem_cons_self).strength
    have hd := hc.defined a List.mem_cons_self
    unfold couplingSum at ih ⊢
    rw [parts_cons, List.map_append, List.sum_append, ih, List.map_cons, List.sum_cons]
    congr 1
    have hgs : |strengthD realPrims hopping a a.freq| = √(strengthSq hopping a) := by
      rw [← Real.sqrt_sq_eq_abs, strengthD_sq hk ho hd (Or.inl rfl)]
    unfold partsAt
    by_cases hT : 0 < T
    · obtain ⟨t1, t2, t3⟩ := tfd_values hT (hpos hT a List.mem_cons_self)
      rw [if_pos hT]
      simp only [List.map_cons, List.map_nil, List.sum_cons, List.sum_nil, add_zero]
      rw [t1, t2, strengthD_neg, abs_mul, abs_mul, hgs, abs_of_nonneg (Real.sqrt_nonneg _), abs_of_nonneg (Real.sqrt_nonneg _)]
      ring
    · rw [if_neg hT]
      simp only [List.map_cons, List.map_nil, List.sum_cons, List.sum_nil, add_zero, mul_one]
      rw [hgs]
      unfold thermal
      rw [if_neg hT]
      simp

theorem parts_known {hopping T : ℝ} {as : List (AddArgs ℝ)} (hc : Clean realPrims hopping T as) :
    ∀ d ∈ parts realPrims hopping T as, Known d.ctype := by
  intro d hd
  obtain ⟨a, ha, hd⟩ := List.mem_flatMap.1 hd
  unfold partsAt at hd
  have := hc.known a ha
  split at hd <;> simp at hd
  · rcases hd with rfl | rfl <;> exact this
  · rw [hd]; exact this

/-- the one-phonon problem of a single mode -/
theorem solo_green (σ : SetOrder) {hopping lattice : ℝ} (hl : hopping = 0 ∨ (0 < hopping ∧ lattice = 1)) {d : Part ℝ}
    (hk : Known d.ctype) (k w eta : ℝ) (heta : 0 < eta) :
    (∃ e1 c1, (hops (soloModel hopping lattice d) k).Ok e1 c1) ∧
      green ((hops (soloModel hopping lattice d) k).op (Few (soloModel hopping lattice d))) bare (energyAt w eta) *
        (energyAt w eta + 2 * hopping * Real.cos (k * lattice) -
          secondOrderSelf d.ctype d.g hopping d.freq (k * lattice) (energyAt w eta)) = 1 := by
  have hct : d.ctype = "Holstein" ∨ d.ctype = "EdwardsFermionBoson" ∨ d.ctype = "Peierls" ∨ d.ctype = "BondPeierls" := by
    unfold Known at hk; tauto
  obtain ⟨m0, b0, a1, a2, a3⟩ := C72_second_order σ hopping lattice hl none (by simp) d.ctype hct d.freq d.g 1 le_rfl
  obtain ⟨b, h1, h2, h3⟩ := one_call σ hopping lattice none (by simp) d.ctype hct d.freq d.g 1 1 le_rfl le_rfl
  rw [h1] at a1; cases a1
  rw [h3] at a2; cases a2
  have hb := (clean_one (hopping := hopping) (Omega := d.freq) (g := d.g) hct (le_refl (1 : ℤ)) (le_refl (1 : ℤ))).2.2
  have hp := physical_assembled h1 hb hl
  obtain ⟨c, hsh⟩ := hp.shifts
  have hQ : (hops (soloModel hopping lattice d) k).Ok _ _ := hops_ok (k := k) hsh hp.adj
  refine ⟨⟨_, _, hQ⟩, ?_⟩
  obtain ⟨H, k1, k2, k3⟩ := C56_operator σ _ 1 h2 b0 h3 hp k
  have hop : H = (hops (soloModel hopping lattice d) k).op (Few (soloModel hopping lattice d)) := by
    have hsub := hops_sub (k := k) h2.toListsOk (allowed_zero h2.toShaped)
    have e1 : Few (soloModel hopping lattice d) = Allowed (soloModel hopping lattice d) 1 := by
      funext n
      refine propext ⟨fun h => h.allowed h2.toShaped, fun h => ⟨h.conceivable, ?_⟩⟩
      have := h.number 0 1 rfl
      unfold phononCount
      show ∑ t ∈ Finset.range 1, ∑ᶠ x, n t x ≤ 1
      simpa using this
    rw [e1]
    ext f n
    rw [k2]
    exact ((Hops.op_apply hQ hsub f n).trans (hops_act_allowed f n)).symm
  have hz : 0 < (energyAt w eta).im := by rw [energyAt_im]; exact heta
  obtain ⟨q1, -⟩ := self_energy k1 norm_bare (mean_energy h2.toShaped k2) hz
  have hg : green H bare (energyAt w eta) = secondOrder d.ctype d.g hopping d.freq (k * lattice) (energyAt w eta) := by
    have g1 := (k3 w eta heta).2.2
    have g2 := (a3 k w eta heta).2
    rw [g1] at g2
    have g3 := Option.some.inj (Except.ok.inj g2)
    unfold green
    rw [g3, energyAt_eq]
  rw [← hop, hg]
  rw [hg] at q1
  unfold secondOrder at q1 ⊢
  refine one_div_mul_cancel (fun h0 => q1 ?_)
  rw [h0, div_zero]

/-- the total strength of the terms of a model -/
theorem totalCoupling_assembled {hopping lattice T : ℝ} {cap : Option Int} {as : List (AddArgs ℝ)}
    (hc : Clean realPrims hopping T as) (hpos : 0 < T → ∀ a ∈ as, 0 < a.freq) :
    totalCoupling (blueprint hopping lattice T cap (parts realPrims hopping T as)) = couplingSum hopping T as := by
  unfold totalCoupling
  show ((partTerms (parts realPrims hopping T as) 0).map _).sum = _
  rw [partTerms_total _ 0 (parts_known hc), parts_coupling as hc hpos]

/-- **C115**. For every history of acceptable calls, at any temperature, with any limits, and for both solvers: the
returned number is that of second-order perturbation theory, with a relative error of at most
`Γ² |G₂| |Im Σ₂| / (2 η²)`, where `Γ` is the sum of the strengths of the coupling terms. With the variance `V` of the
spectral function the error is at most `Γ² V / (2 η⁵)`. -/
theorem C115_weak (σ : SetOrder) (hopping lattice T : ℝ)
    (hl : hopping = 0 ∨ (0 < hopping ∧ lattice = 1)) (cap : Option Int) (hcap : ∀ c, cap = some c → 1 ≤ c)
    (as : List (AddArgs ℝ)) (hne : as ≠ []) (hc : Clean realPrims hopping T as)
    (hf : ((modes T as).map (·.freq)).Nodup)
    (hb : (∀ a ∈ as, a.ctype = "BondPeierls") ∨ (∀ a ∈ as, a.ctype ≠ "BondPeierls"))
    (hpos : 0 < T → ∀ a ∈ as, 0 < a.freq) :
    ∃ m b, (Model.fromParameters hopping lattice T cap 1).adds realPrims as = .ok m ∧ buildSystem σ m = .ok b ∧
      ∀ k w eta : ℝ, 0 < eta → ∃ G, Gives m b ⟨k, w, eta⟩ G ∧
        (secondOrderSum hopping T (k * lattice) (w + eta * I) as).im ≤ 0 ∧
        ‖G - secondOrderGreen hopping T (k * lattice) (w + eta * I) as‖ ≤
          couplingSum hopping T as ^ 2 / (2 * eta ^ 2) * ‖secondOrderGreen hopping T (k * lattice) (w + eta * I) as‖ ^ 2 *
            |(secondOrderSum hopping T (k * lattice) (w + eta * I) as).im| ∧
        ‖G - secondOrderGreen hopping T (k * lattice) (w + eta * I) as‖ ≤
          couplingSum hopping T as ^ 2 * variance hopping T (k * lattice) as / (2 * eta ^ 5) := by
  obtain ⟨m, b, h1, ⟨ae, h2⟩, h3⟩ := C16_assembled σ realPrims C42_names hopping lattice T cap hcap as hne hc hf hb
  have hp := physical_assembled h1 hb hl
  have h1' := h1
  rw [fromParameters_blueprint hopping lattice T cap as hc hf] at h1'
  refine ⟨m, b, h1, h3, fun k w eta heta => ?_⟩
  obtain ⟨H, k1, k2, k3⟩ := C56_operator σ m ae h2 b h3 hp k
  obtain ⟨-, g1, g2⟩ := k3 w eta heta
  have hz : 0 < (energyAt w eta).im := by rw [energyAt_im]; exact heta
  obtain ⟨c, hsh⟩ := hp.shifts
  have hQ := hops_ok (k := k) hsh hp.adj
  have hsub := hops_sub (k := k) h2.toListsOk (allowed_zero h2.toShaped)
  have hop : H = (hops m k).op (Allowed m ae) := by
    ext f n
    rw [k2, Hops.op_apply hQ hsub, hops_act_allowed]
  have hweak := (few_core (k := k) h2.toShaped).weak hQ hsub few_sub (v := bare) (bare_off (m := m) (k := k)) norm_bare hz
  rw [leaving_sum hp.adj, ← hop] at hweak
  -- the Green's function with one phonon
  set z := energyAt w eta with hzd
  set S := secondOrderSum hopping T (k * lattice) z as with hS
  have hGS : green ((hops m k).op (Few m)) bare z * (z + 2 * hopping * Real.cos (k * lattice) - S) = 1 := by
    cases h1'
    have := few_green (hopping := hopping) (lattice := lattice) (T := T) (cap := cap)
      (ds := parts realPrims hopping T as) (k := k) (z := z) hz.ne' hQ
      (fun d => secondOrderSelf d.ctype d.g hopping d.freq (k * lattice) z)
      (fun d hd => solo_green σ hl (parts_known hc d hd) k w eta heta)
    rw [parts_self as hc hpos] at this
    exact this
  have hG1 : green ((hops m k).op (Few m)) bare z = secondOrderGreen hopping T (k * lattice) z as := by
    unfold secondOrderGreen
    exact eq_one_div_of_mul_eq_one_left hGS
  have hΓ : totalCoupling m = couplingSum hopping T as := by
    cases h1'; exact totalCoupling_assembled hc hpos
  -- its self-energy
  have hham : m.ham.hopping = hopping ∧ m.latticeConstant = lattice := by cases h1'; exact ⟨rfl, rfl⟩
  have hsa1 := Hops.op_selfAdjoint hQ (few_sub (m := m) (k := k))
  set H1 := (hops m k).op (Few m) with hH1
  set G1 := green H1 bare z with hG1d
  have hG10 : G1 ≠ 0 := fun h => by rw [h, zero_mul] at hGS; exact zero_ne_one hGS
  have hinv : z + 2 * hopping * Real.cos (k * lattice) - S = 1 / G1 := eq_one_div_of_mul_eq_one_right hGS
  have hmean : ⟪bare, H1 bare⟫_ℂ = ((-(2 * hopping * Real.cos (k * lattice)) : ℝ) : ℂ) := by
    have e1 := mean_energy h2.toShaped k2
    rw [hham.1, hham.2] at e1
    rw [← e1, inner_bare, inner_bare]
    have hbare : ∀ n, ¬ Few m n → (bare : States) n = 0 := fun n hn => by
      rw [bare_apply, if_neg (fun q => hn (by rw [q]; exact few_zero))]
    have := (few_core (k := k) h2.toShaped).op_eq hQ hsub few_sub hbare
    rw [hop, this]
    show _ = (H1 bare : Occ → ℂ) 0 + ((hops m k).edges (Allowed m ae) (Few m) bare : Occ → ℂ) 0
    rw [(few_core (k := k) h2.toShaped).edges_off bare few_zero, add_zero]
  obtain ⟨-, s2, s3⟩ := self_energy hsa1 norm_bare hmean hz
  have hSe : z - ((-(2 * hopping * Real.cos (k * lattice)) : ℝ) : ℂ) - 1 / G1 = S := by
    rw [← hinv]; push_cast; ring
  rw [← hG1d, hSe] at s2 s3
  have hzim : z.im = eta := energyAt_im w eta
  rw [hzim] at hweak s3
  -- the norm of the part with one phonon
  have hpart : -G1.im / eta - ‖G1‖ ^ 2 = ‖G1‖ ^ 2 * |S.im| / eta := by
    have e1 : (1 / G1).im = -G1.im / ‖G1‖ ^ 2 := by
      rw [one_div, Complex.inv_im, Complex.normSq_eq_norm_sq]
    have e2 : (1 / G1).im = eta - S.im := by
      rw [← hinv, Complex.sub_im, Complex.add_im, hzim]
      have : ((2 : ℂ) * hopping * Real.cos (k * lattice)).im = 0 := by
        rw [show (2 : ℂ) * hopping * Real.cos (k * lattice) = ((2 * hopping * Real.cos (k * lattice) : ℝ) : ℂ) by push_cast; ring]
        exact Complex.ofReal_im _
      rw [this, add_zero]
    have hn : 0 < ‖G1‖ ^ 2 := by positivity
    have e3 : -G1.im = ‖G1‖ ^ 2 * (eta - S.im) := by
      rw [← e2, e1]; field_simp
    rw [abs_of_nonpos s2, e3]
    field_simp
    ring
  rw [hpart, hΓ] at hweak
  have hnorm : ‖H1 bare‖ ^ 2 - (-(2 * hopping * Real.cos (k * lattice))) ^ 2 ≤ variance hopping T (k * lattice) as := by
    have e0 : ‖H1 bare‖ ^ 2 ≤ (moment m k 2).re := by
      have h := Hops.pow_norm hQ (few_sub (m := m) (k := k)) (v := bare) (bare_iter m k) inner_bare (J := 0) (fun n hn => by
        have : n = 0 := hn
        rw [this]; exact few_zero)
      rw [iter_powers, zero_add, pow_one] at h
      exact h
    obtain ⟨-, -, m2⟩ := moments_assembled hc hf hpos h1 k
    rw [m2, Complex.ofReal_re] at e0
    linarith
  have hV : ‖S‖ ≤ variance hopping T (k * lattice) as / eta :=
    s3.trans (div_le_div_of_nonneg_right hnorm heta.le)
  have hG1n : ‖G1‖ ≤ 1 / eta := by
    have := norm_inner_resolvent hsa1 bare bare (z := z) hz.ne'
    rw [norm_bare, hzim, abs_of_pos heta, one_mul] at this
    exact this
  have hfirst : ‖green H bare z - G1‖ ≤ couplingSum hopping T as ^ 2 / (2 * eta ^ 2) * ‖G1‖ ^ 2 * |S.im| := by
    refine hweak.trans (le_of_eq ?_)
    field_simp
  have ez : (w : ℂ) + eta * I = z := (energyAt_eq w eta).symm
  refine ⟨green H bare z, ⟨g1, g2⟩, ?_⟩
  rw [ez, ← hS, ← hG1]
  refine ⟨s2, hfirst, hfirst.trans ?_⟩
  have h5 : ‖G1‖ ^ 2 * |S.im| ≤ (1 / eta) ^ 2 * (variance hopping T (k * lattice) as / eta) :=
    mul_le_mul (pow_le_pow_left₀ (norm_nonneg _) hG1n 2) ((Complex.abs_im_le_norm S).trans hV) (abs_nonneg _) (by positivity)
  rw [mul_assoc]
  refine (mul_le_mul_of_nonneg_left h5 (by positivity)).trans (le_of_eq ?_)
  field_simp

theorem limits_self (hopping T x : ℝ) (z : ℂ) (j : ℤ) (as : List (AddArgs ℝ)) :
    secondOrderSum hopping T x z (as.map (withLimits j)) = secondOrderSum hopping T x z as := by
  unfold secondOrderSum
  rw [List.map_map]
  rfl

theorem limits_coupling (hopping T : ℝ) (j : ℤ) (as : List (AddArgs ℝ)) :
    couplingSum hopping T (as.map (withLimits j)) = couplingSum hopping T as := by
  unfold couplingSum
  rw [List.map_map]
  rfl

/-- C115, without limits: the Green's function of the Hamiltonian without limits on the phonons is that of second-order
perturbation theory, with the same error. -/
theorem C115_untruncated (hopping lattice T : ℝ) (hl : hopping = 0 ∨ (0 < hopping ∧ lattice = 1))
    (as : List (AddArgs ℝ)) (hne : as ≠ []) (hc : Clean realPrims hopping T as)
    (hf : ((modes T as).map (·.freq)).Nodup)
    (hb : (∀ a ∈ as, a.ctype = "BondPeierls") ∨ (∀ a ∈ as, a.ctype ≠ "BondPeierls"))
    (hpos : 0 < T → ∀ a ∈ as, 0 < a.freq) (k w eta : ℝ) (heta : 0 < eta) :
    ∃ (m : Model ℝ) (u : States), (Model.fromParameters hopping lattice T none 1).adds realPrims as = .ok m ∧
      Untruncated m k w eta u ∧ (∀ u', Untruncated m k w eta u' → u' = u) ∧
      ‖u 0 - secondOrderGreen hopping T (k * lattice) (w + eta * I) as‖ ≤
        couplingSum hopping T as ^ 2 / (2 * eta ^ 2) * ‖secondOrderGreen hopping T (k * lattice) (w + eta * I) as‖ ^ 2 *
          |(secondOrderSum hopping T (k * lattice) (w + eta * I) as).im| := by
  obtain ⟨m, u, h1, h2, h3, h4⟩ := C60_assembled hopping lattice T hl as hne hc hf hb k w eta heta
  refine ⟨m, u, h1, h2, h3, le_of_forall_pos_le_add (fun ε hε => ?_)⟩
  obtain ⟨B, hB⟩ := h4 ε hε
  set j : ℕ := max 1 B.toNat with hj
  have hj1 : 1 ≤ j := le_max_left _ _
  have hjB : B ≤ j := (Int.self_le_toNat B).trans (by exact_mod_cast le_max_right _ _)
  have hsame : List.Forall₂ SameCall as (as.map (withLimits j)) := by
    rw [List.forall₂_map_right_iff, List.forall₂_same]
    exact fun a _ => ⟨rfl, rfl, rfl, rfl, rfl⟩
  have hv := valid_withLimits hc hj1
  have hc' := clean_same hc hsame hv
  let σ : SetOrder := ⟨id, fun l => List.Perm.refl l⟩
  obtain ⟨m', b', k1, k2, -, k4⟩ := hB σ none (as.map (withLimits j)) (by simp) hsame (fun a ha => ⟨hv a ha, by
    obtain ⟨x, hx, rfl⟩ := List.mem_map.1 ha
    exact ⟨hjB, hjB, fun y h => by rw [map_const h]; exact hjB, fun y h => by rw [map_const h]; exact hjB⟩⟩)
  obtain ⟨m'', b'', q1, q2, q3⟩ := C115_weak σ hopping lattice T hl none (by simp) (as.map (withLimits j))
    (by simpa using hne) hc' (by rw [modes_of_clean hc', freqs_same hsame, ← modes_of_clean hc]; exact hf)
    (by
      rcases hb with hb | hb
      · refine Or.inl (fun a ha => ?_)
        obtain ⟨x, hx, rfl⟩ := List.mem_map.1 ha
        exact hb x hx
      · refine Or.inr (fun a ha => ?_)
        obtain ⟨x, hx, rfl⟩ := List.mem_map.1 ha
        exact hb x hx)
    (fun hT a ha => by
      obtain ⟨x, hx, rfl⟩ := List.mem_map.1 ha
      exact hpos hT x hx)
  rw [k1] at q1; cases q1
  rw [k2] at q2; cases q2
  obtain ⟨G, r1, -, r2, -⟩ := q3 k w eta heta
  have r3 := k4 G (Or.inr r1.2)
  unfold secondOrderGreen at r2 ⊢
  rw [limits_self, limits_coupling] at r2
  set X := (1 : ℂ) / ((w : ℂ) + eta * I + 2 * hopping * Real.cos (k * lattice) -
    secondOrderSum hopping T (k * lattice) (w + eta * I) as) with hX
  have h5 := norm_sub_le_norm_sub_add_norm_sub (u 0) G X
  rw [norm_sub_rev] at r3
  linarith

theorem strengthSq_scaled {hopping s : ℝ} {a : AddArgs ℝ} (h : a.lam = none) :
    strengthSq hopping (scaledCall s a) = s ^ 2 * strengthSq hopping a := by
  unfold strengthSq scaledCall
  simp only [h]
  cases a.g with
  | none => simp
  | some g => simp only [Option.map_some, Option.getD_some]; ring

/-- C115, the order: when all strengths, given as `phonon_coupling`, are multiplied by `s`, the difference from
second-order perturbation theory is at most a constant times `s⁴`, and the constant depends neither on `s` nor on the
limits. -/
theorem C115_fourth (σ : SetOrder) (hopping lattice T : ℝ)
    (hl : hopping = 0 ∨ (0 < hopping ∧ lattice = 1)) (cap : Option Int) (hcap : ∀ c, cap = some c → 1 ≤ c)
    (as : List (AddArgs ℝ)) (hne : as ≠ []) (hc : Clean realPrims hopping T as)
    (hf : ((modes T as).map (·.freq)).Nodup)
    (hb : (∀ a ∈ as, a.ctype = "BondPeierls") ∨ (∀ a ∈ as, a.ctype ≠ "BondPeierls"))
    (hpos : 0 < T → ∀ a ∈ as, 0 < a.freq) (hlam : ∀ a ∈ as, a.lam = none) (s : ℝ) :
    ∃ m b, (Model.fromParameters hopping lattice T cap 1).adds realPrims (as.map (scaledCall s)) = .ok m ∧
      buildSystem σ m = .ok b ∧
      ∀ k w eta : ℝ, 0 < eta → ∃ G, Gives m b ⟨k, w, eta⟩ G ∧
        ‖G - secondOrderGreen hopping T (k * lattice) (w + eta * I) (as.map (scaledCall s))‖ ≤
          s ^ 4 * (couplingSum hopping T as ^ 2 * variance hopping T (k * lattice) as / (2 * eta ^ 5)) := by
  have hc' : Clean realPrims hopping T (as.map (scaledCall s)) := by
    constructor <;> intro a ha <;> obtain ⟨x, hx, rfl⟩ := List.mem_map.1 ha
    · have hv := hc.valid x hx
      refine ⟨hv.extent, hv.number, hv.extentTfd, hv.numberTfd, hv.tfd, ?_, hv.override⟩
      rcases hv.strength with ⟨g, h1, h2⟩ | ⟨l, h1, h2⟩
      · exact Or.inl ⟨s * g, by simp [scaledCall, h1], h2⟩
      · rw [hlam x hx] at h1; cases h1
    · exact hc.known x hx
    · exact hc.noOverride x hx
    · intro l hl'
      have : x.lam = some l := hl'
      rw [hlam x hx] at this; cases this
  have hfreq : modes T (as.map (scaledCall s)) = modes T as := by
    rw [modes_of_clean hc', modes_of_clean hc]
    induction as with
    | nil => rfl
    | cons a as ih => simp [List.flatMap_map]; rfl
  obtain ⟨m, b, q1, q2, q3⟩ := C115_weak σ hopping lattice T hl cap hcap (as.map (scaledCall s)) (by simpa using hne) hc'
    (by rw [hfreq]; exact hf)
    (by
      rcases hb with hb | hb
      · refine Or.inl (fun a ha => ?_)
        obtain ⟨x, hx, rfl⟩ := List.mem_map.1 ha
        exact hb x hx
      · refine Or.inr (fun a ha => ?_)
        obtain ⟨x, hx, rfl⟩ := List.mem_map.1 ha
        exact hb x hx)
    (fun hT a ha => by
      obtain ⟨x, hx, rfl⟩ := List.mem_map.1 ha
      exact hpos hT x hx)
  refine ⟨m, b, q1, q2, fun k w eta heta => ?_⟩
  obtain ⟨G, r1, -, -, r2⟩ := q3 k w eta heta
  refine ⟨G, r1, r2.trans (le_of_eq ?_)⟩
  have e1 : couplingSum hopping T (as.map (scaledCall s)) = |s| * couplingSum hopping T as := by
    unfold couplingSum
    rw [List.map_map, ← List.sum_map_mul_left]
    congr 1
    refine List.map_congr_left (fun a ha => ?_)
    show termCount a.ctype * (√(strengthSq hopping (scaledCall s a)) * (√(1 + thermal T a.freq) + √(thermal T a.freq))) = _
    rw [strengthSq_scaled (hlam a ha), Real.sqrt_mul (sq_nonneg s), Real.sqrt_sq_eq_abs]
    ring
  have e2 : variance hopping T (k * lattice) (as.map (scaledCall s)) = s ^ 2 * variance hopping T (k * lattice) as := by
    unfold variance
    rw [List.map_map, ← List.sum_map_mul_left]
    congr 1
    refine List.map_congr_left (fun a ha => ?_)
    show spread a.ctype (k * lattice) * strengthSq hopping (scaledCall s a) * (2 * thermal T a.freq + 1) = _
    rw [strengthSq_scaled (hlam a ha)]
    ring
  rw [e1, e2, mul_pow, sq_abs]
  ring

/-! ### concrete cases -/

/-- The hypotheses are met by a Holstein–Peierls model at zero temperature and by a BondPeierls model at `T = 1`. -/
example (σ : SetOrder) :
    (∃ m b, (Model.fromParameters (1 : ℝ) 1 0 none 1).adds realPrims exCalls = .ok m ∧ buildSystem σ m = .ok b ∧
      ∀ k w eta : ℝ, 0 < eta → ∃ G, Gives m b ⟨k, w, eta⟩ G ∧
        ‖G - secondOrderGreen 1 0 (k * 1) (w + eta * I) exCalls‖ ≤
          couplingSum 1 0 exCalls ^ 2 * variance 1 0 (k * 1) exCalls / (2 * eta ^ 5)) ∧
    (∃ m b, (Model.fromParameters (1 : ℝ) 1 1 none 1).adds realPrims exBondCalls = .ok m ∧ buildSystem σ m = .ok b ∧
      ∀ k w eta : ℝ, 0 < eta → ∃ G, Gives m b ⟨k, w, eta⟩ G ∧
        ‖G - secondOrderGreen 1 1 (k * 1) (w + eta * I) exBondCalls‖ ≤
          couplingSum 1 1 exBondCalls ^ 2 * variance 1 1 (k * 1) exBondCalls / (2 * eta ^ 5)) := by
  constructor
  · obtain ⟨h1, h2, h3⟩ := exCalls_clean
    obtain ⟨m, b, q1, q2, q3⟩ := C115_weak σ 1 1 0 (Or.inr ⟨one_pos, rfl⟩) none (by simp) exCalls (by simp [exCalls]) h1 h2
      (Or.inr h3) (by simp)
    refine ⟨m, b, q1, q2, fun k w eta heta => ?_⟩
    obtain ⟨G, r1, -, -, r2⟩ := q3 k w eta heta
    exact ⟨G, r1, r2⟩
  · obtain ⟨h1, h2, h3⟩ := exBondCalls_clean
    obtain ⟨m, b, q1, q2, q3⟩ := C115_weak σ 1 1 1 (Or.inr ⟨one_pos, rfl⟩) none (by simp) exBondCalls (by simp [exBondCalls])
      h1 h2 (Or.inl h3) (by simp [exBondCalls])
    refine ⟨m, b, q1, q2, fun k w eta heta => ?_⟩
    obtain ⟨G, r1, -, -, r2⟩ := q3 k w eta heta
    exact ⟨G, r1, r2⟩

/-- A Holstein model with `g = 1/10`, `Omega = 2` and `eta = 1`: whatever extent and number of phonons are chosen, the
result differs from second-order perturbation theory by at most `1/5000`. -/
example (σ : SetOrder) (M N : ℤ) (hM : 1 ≤ M) (hN : 1 ≤ N) :
    ∃ m b, (Model.fromParameters (1 : ℝ) 1 0 none 1).adds realPrims
        [{ ctype := "Holstein", freq := 2, M := M, N := N, g := some (1 / 10) }] = .ok m ∧ buildSystem σ m = .ok b ∧
      ∀ k w : ℝ, ∃ G, Gives m b ⟨k, w, 1⟩ G ∧
        ‖G - secondOrder "Holstein" (1 / 10) 1 2 k (w + I)‖ ≤ 1 / 5000 := by
  obtain ⟨h1, h2, h3⟩ := clean_one (hopping := 1) (ct := "Holstein") (Omega := 2) (g := 1 / 10) (by simp) hM hN
  obtain ⟨m, b, q1, q2, q3⟩ := C115_weak σ 1 1 0 (Or.inr ⟨one_pos, rfl⟩) none (by simp) _ (by simp) h1 h2 h3 (by simp)
  refine ⟨m, b, q1, q2, fun k w => ?_⟩
  obtain ⟨G, r1, -, -, r2⟩ := q3 k w 1 one_pos
  refine ⟨G, r1, ?_⟩
  have e1 : secondOrderGreen 1 0 (k * 1) (w + (1 : ℝ) * I)
      [({ ctype := "Holstein", freq := 2, M := M, N := N, g := some (1 / 10) } : AddArgs ℝ)] =
      secondOrder "Holstein" (1 / 10) 1 2 k (w + I) := by
    unfold secondOrderGreen secondOrder secondOrderSum
    rw [secondOrderSelf_scale "Holstein" (1 / 10)]
    simp [strengthSq, thermal]
  have e2 : couplingSum 1 0 [({ ctype := "Holstein", freq := 2, M := M, N := N, g := some (1 / 10) } : AddArgs ℝ)] = 1 / 5 := by
    simp [couplingSum, strengthSq, thermal, termCount]
    norm_num
  have e3 : variance 1 0 (k * 1) [({ ctype := "Holstein", freq := 2, M := M, N := N, g := some (1 / 10) } : AddArgs ℝ)] =
      1 / 100 := by
    simp [variance, strengthSq, thermal, spread]
    norm_num
  rw [e1, e2, e3] at r2
  exact r2.trans (by norm_num)

end GGCE.Props
