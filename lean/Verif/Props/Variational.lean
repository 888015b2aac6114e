import Verif.Spec.Variational
import Verif.Proofs.Variational
import Verif.Proofs.LangFirsov
import Verif.Props.Binding
import Verif.Props.Bottom

/-!
Property C124: the lower edge of the spectral function at zero momentum is the energy of the ground state of the
restricted Hamiltonian, so the energy of every trial state is an upper bound for it.
-/

set_option linter.unusedSectionVars false

namespace GGCE.Props
open Spec Arr Complex ComplexConjugate
open scoped InnerProductSpace

/-- no weight below `e` at zero momentum, in terms of the operator, with a large constant -/
theorem empty_powers {m : Model ℝ} {ae : ℤ} {σ : SetOrder} (hm : WellFormed m ae) {b : Built ℝ}
    (hb : buildSystem σ m = .ok b) (hp : Physical m) {F : ℝ → ℝ → ℂ}
    (hF : ∀ w eta, 0 < eta → Returned m b ⟨0, w, eta⟩ (F w eta)) {e : ℝ} (he : EmptyBelow F e) :
    ∃ c, energyBound m < c ∧ e < c ∧
      ∀ j : ℕ, ‖((algebraMap ℝ (States →L[ℂ] States) c - hamOp m ae 0) ^ j) bare‖ ≤ (c - e) ^ j := by
  obtain ⟨H, h1, h2, h3⟩ := C56_returned σ m ae hm b hb hp 0
  obtain ⟨c, c1, c2, c3⟩ : ∃ c, ‖H‖ ≤ c ∧ e < c ∧ energyBound m < c :=
    ⟨max ‖H‖ (max (e + 1) (energyBound m + 1)), le_max_left _ _,
      lt_of_lt_of_le (lt_add_one _) ((le_max_left _ _).trans (le_max_right _ _)),
      lt_of_lt_of_le (lt_add_one _) ((le_max_right _ _).trans (le_max_right _ _))⟩
  refine ⟨c, c3, c2, ?_⟩
  rw [← operator_eq hm.toListsOk h2]
  exact (emptyBelow_iff h1 h3 hF c1 c2.le).1 he

/-- a lower bound for the energies of all states at a momentum is one for the spectral function there -/
theorem empty_of_bound {m : Model ℝ} {ae : ℤ} {σ : SetOrder} (hm : WellFormed m ae) {b : Built ℝ}
    (hb : buildSystem σ m = .ok b) (hp : Physical m) {k : ℝ} {F : ℝ → ℝ → ℂ}
    (hF : ∀ w eta, 0 < eta → Returned m b ⟨k, w, eta⟩ (F w eta)) {e : ℝ}
    (he : ∀ f : Occ →₀ ℂ, (∀ n ∈ f.support, Allowed m ae n) → e * weightOf f ≤ trialEnergy m ae k f) : EmptyBelow F e := by
  obtain ⟨H, h1, h2, h3⟩ := C56_returned σ m ae hm b hb hp k
  have hH := operator_eq hm.toListsOk h2
  intro w hw eta heta
  rw [h3 w eta heta _ (hF w eta heta), bound_iff h1 heta]
  set z : ℂ := (w : ℂ) + I * eta with hz
  have hz0 : z.im ≠ 0 := by simp [hz, heta.ne']
  have r := resolvent_apply (mem_resolventSet_of_im h1 hz0) (bare : States)
  set u := resolvent H z bare with hu
  have hout : ∀ n, ¬ Allowed m ae n → u n = 0 := by
    intro n hn
    have h4 := congrArg (fun v : States => v n) r
    simp only [lp.coeFn_sub, Pi.sub_apply, lp.coeFn_smul, Pi.smul_apply, smul_eq_mul] at h4
    have h5 : H u n = 0 := by
      rw [h2]; unfold frame; rw [if_neg hn]
    have h6 : (bare : States) n = 0 := by
      rw [bare_apply, if_neg]
      rintro rfl
      exact hn (allowed_zero hm.toShaped)
    rw [h5, h6, sub_zero] at h4
    exact (mul_eq_zero.1 h4).resolve_left (fun hc => hz0 (by rw [hc]; rfl))
  have hfl : e * ‖u‖ ^ 2 ≤ (⟪u, H u⟫_ℂ).re := form_dense (S := Allowed m ae) (fun f hf => by
    rw [hH, vec_norm, vec_energy hm.toListsOk]
    exact he f hf) hout
  have h7 := norm_sq_below_at h1 hfl hw r
  rwa [norm_bare, one_pow] at h7

/-- **C124**. The coupling constants of every phonon type have one sign, the electron can hop, and every phonon type is
coupled. Then the lower edge of the spectral function at zero momentum is the energy of the ground state: no state of any
momentum inside the limits has a lower energy, and no larger number has that property. -/
theorem C124_ground (σ : SetOrder) (m : Model ℝ) (ae : Int) (hm : WellFormed m ae) (b : Built ℝ)
    (hb : buildSystem σ m = .ok b) (hp : Physical m) (hone : OneSign m) (ht : 0 < m.ham.hopping)
    (hmin : ∀ t < m.nTypes, ∃ h ∈ m.ham.terms, h.phononIndex = t ∧ h.dag = .minus ∧ h.coupling ≠ 0) (F : ℝ → ℝ → ℂ)
    (hF : ∀ w eta, 0 < eta → Returned m b ⟨0, w, eta⟩ (F w eta)) (e : ℝ) : Edge F e ↔ GroundEnergy m ae e := by
  have key : ∀ e, EmptyBelow F e ↔ BoundedBelow m ae e := by
    intro e
    constructor
    · intro he k f hf
      obtain ⟨c, c1, c2, c3⟩ := empty_powers hm hb hp hF he
      exact form_of_powers hm hp hone c1 c2 c3 k f (fun n hn => linked_all ht hmin (hf n hn))
    · exact fun he => empty_of_bound hm hb hp hF (fun f hf => he 0 f hf)
  unfold Edge GroundEnergy
  simp only [key]

/-- C124, also without hopping: if the spectral function at zero momentum has no weight below `e`, then no state made of
occupations that the Hamiltonian links to the bare electron has an energy below `e`. -/
theorem C124_trial (σ : SetOrder) (m : Model ℝ) (ae : Int) (hm : WellFormed m ae) (b : Built ℝ)
    (hb : buildSystem σ m = .ok b) (hp : Physical m) (hone : OneSign m) (F : ℝ → ℝ → ℂ)
    (hF : ∀ w eta, 0 < eta → Returned m b ⟨0, w, eta⟩ (F w eta)) (e : ℝ) (he : EmptyBelow F e) (k : ℝ) (f : Occ →₀ ℂ)
    (hf : ∀ n ∈ f.support, Linked m ae n) : e * weightOf f ≤ trialEnergy m ae k f := by
  obtain ⟨c, c1, c2, c3⟩ := empty_powers hm hb hp hF he
  exact form_of_powers hm hp hone c1 c2 c3 k f hf

/-! ### from the user's side -/

theorem termsOf_minus {ct : String} (hk : Known ct) {g f : ℝ} {i : ℕ} (hg : g ≠ 0) :
    ∃ h ∈ termsOf ct g i f, h.phononIndex = i ∧ h.dag = .minus ∧ h.coupling ≠ 0 := by
  rcases hk with rfl | rfl | rfl | rfl
  · exact ⟨⟨"Holstein", .int 0, .int 0, .minus, -g, i, f⟩, by simp [termsOf, termShapes], rfl, rfl, neg_ne_zero.2 hg⟩
  · exact ⟨⟨"EdwardsFermionBoson", .int 1, .int 0, .minus, g, i, f⟩, by simp [termsOf, termShapes], rfl, rfl, hg⟩
  · exact ⟨⟨"BondPeierls", .int 1, ⟨true, 1⟩, .minus, g, i, f⟩, by simp [termsOf, termShapes], rfl, rfl, hg⟩
  · exact ⟨⟨"Peierls", .int 1, .int 0, .minus, g, i, f⟩, by simp [termsOf, termShapes], rfl, rfl, hg⟩

theorem thermal_pos {T Omega : ℝ} (hT : 0 < T) (hO : 0 < Omega) : 0 < thermal T Omega := by
  unfold thermal
  rw [if_pos hT]
  have : 1 < Real.exp (Omega / T) := Real.one_lt_exp_iff.2 (by positivity)
  exact one_div_pos.2 (by linarith)

theorem parts_coupled {hopping T : ℝ} {as : List (AddArgs ℝ)} (hc : Clean realPrims hopping T as)
    (hpos : 0 < T → ∀ a ∈ as, 0 < a.freq) (hg : ∀ a ∈ as, 0 < strengthSq hopping a) {d : Part ℝ}
    (hd : d ∈ parts realPrims hopping T as) : Known d.ctype ∧ d.g ≠ 0 := by
  obtain ⟨a, ha, hd⟩ := List.mem_flatMap.1 hd
  have hk := hc.known a ha
  have ho := (hc.valid a ha).strength
  have hdf := hc.defined a ha
  have e1 := strengthD_sq hk ho hdf (Or.inl rfl)
  have e2 := strengthD_sq hk ho hdf (Or.inr rfl)
  have hg' := hg a ha
  have n1 : strengthD realPrims hopping a a.freq ≠ 0 := fun h => by rw [h] at e1; norm_num at e1; linarith
  have n2 : strengthD realPrims hopping a (-a.freq) ≠ 0 := fun h => by rw [h] at e2; norm_num at e2; linarith
  unfold partsAt at hd
  split at hd
  · rename_i hT
    obtain ⟨t1, t2⟩ := tfd_thermal hT (hpos hT a ha)
    have tp := thermal_pos hT (hpos hT a ha)
    have n3 : (realPrims.tfd T a.freq).1 ≠ 0 := fun h => by
      rw [show realPrims.tfd T a.freq = tfdR T a.freq from rfl] at h
      rw [h] at t1; norm_num at t1; linarith
    have n4 : (realPrims.tfd T a.freq).2 ≠ 0 := fun h => by
      rw [show realPrims.tfd T a.freq = tfdR T a.freq from rfl] at h
      rw [h] at t2; norm_num at t2; linarith
    simp at hd
    rcases hd with rfl | rfl
    · exact ⟨hk, mul_ne_zero n1 n3⟩
    · exact ⟨hk, mul_ne_zero n2 n4⟩
  · simp at hd
    rw [hd]
    exact ⟨hk, n1⟩

/-- **C124**, for every history of acceptable calls without `Peierls`, with hopping and with nonzero couplings, at any
temperature: the lower edge of the spectral function at zero momentum exists and is the energy of the ground state of the
Hamiltonian restricted to the limits. -/
theorem C124_assembled (σ : SetOrder) (hopping T : ℝ) (ht : 0 < hopping) (cap : Option Int)
    (hcap : ∀ c, cap = some c → 1 ≤ c) (as : List (AddArgs ℝ)) (hne : as ≠ [])
    (hc : Clean realPrims hopping T as) (hf : ((modes T as).map (·.freq)).Nodup)
    (hb : (∀ a ∈ as, a.ctype = "BondPeierls") ∨ (∀ a ∈ as, a.ctype ≠ "BondPeierls"))
    (hP : ∀ a ∈ as, a.ctype ≠ "Peierls") (hpos : 0 < T → ∀ a ∈ as, 0 < a.freq)
    (hg : ∀ a ∈ as, 0 < strengthSq hopping a) :
    ∃ m b ae, (Model.fromParameters hopping 1 T cap 1).adds realPrims as = .ok m ∧ buildSystem σ m = .ok b ∧
      m.absExtent = some ae ∧ ∃ F e, (∀ w eta : ℝ, 0 < eta → Gives m b ⟨0, w, eta⟩ (F w eta)) ∧ Edge F e ∧
        GroundEnergy m ae e := by
  obtain ⟨m, b, h1, ⟨ae, h2⟩, h3⟩ := C16_assembled σ realPrims C42_names hopping 1 T cap hcap as hne hc hf hb
  have hp := physical_assembled h1 hb (Or.inr ⟨ht, rfl⟩)
  obtain ⟨H, -, -, h⟩ := C56_operator σ m ae h2 b h3 hp 0
  have hG : ∀ w eta : ℝ, 0 < eta → Gives m b ⟨0, w, eta⟩ (green H bare (energyAt w eta)) := fun w eta heta =>
    ⟨(h w eta heta).2.1, (h w eta heta).2.2⟩
  have hR : ∀ w eta : ℝ, 0 < eta → Returned m b ⟨0, w, eta⟩ (green H bare (energyAt w eta)) := fun w eta heta =>
    returned_of_gives (hG w eta heta)
  obtain ⟨e, he, -⟩ := C88_edge σ m ae h2 b h3 hp 0 _ hR
  refine ⟨m, b, ae, h1, h3, h2.absExtent, _, e, hG, he, ?_⟩
  rw [fromParameters_blueprint hopping 1 T cap as hc hf] at h1
  cases h1
  refine (C124_ground σ _ ae h2 b h3 hp (oneSign_blueprint hP) ht (fun t htt => ?_) _ hR e).1 he
  have htt' : t < (parts realPrims hopping T as).length := htt
  set d := (parts realPrims hopping T as)[t] with hd
  obtain ⟨hk, hgd⟩ := parts_coupled hc hpos hg (List.getElem_mem htt')
  obtain ⟨h', q1, q2⟩ := termsOf_minus (f := d.freq) (i := t) hk hgd
  refine ⟨h', ?_, q2⟩
  show h' ∈ partTerms _ 0
  refine List.mem_flatMap.2 ⟨(d, t), ?_, q1⟩
  rw [List.mem_zipIdx_iff_getElem?]
  simp [hd, htt']

/-! ### the Holstein polaron -/

/-- **C124**, one Holstein coupling at zero temperature, with or without hopping, whatever the limits: the polaron energy
is at most that of a displaced oscillator (Lang and Firsov) cut off at any number `K` of phonons that the limits allow,
and at least `-2 t - g²/Ω`. -/
theorem C124_holstein (σ : SetOrder) (hopping lattice : ℝ) (hl : hopping = 0 ∨ (0 < hopping ∧ lattice = 1))
    (cap : Option Int) (hcap : ∀ c, cap = some c → 1 ≤ c) (Omega g : ℝ) (hO : 0 < Omega) (hg : g ≠ 0) (M N : ℤ)
    (hM : 1 ≤ M) (hN : 1 ≤ N) :
    ∃ m b, (Model.fromParameters hopping lattice 0 cap 1).adds realPrims
        [{ ctype := "Holstein", freq := Omega, M := M, N := N, g := some g }] = .ok m ∧ buildSystem σ m = .ok b ∧
      ∃ F e, (∀ w eta : ℝ, 0 < eta → Gives m b ⟨0, w, eta⟩ (F w eta)) ∧ Edge F e ∧
        -(2 * hopping) - g ^ 2 / Omega ≤ e ∧ ∀ K : ℕ, (K : ℤ) ≤ N → (∀ c, cap = some c → (K : ℤ) ≤ c) →
          e ≤ -(g ^ 2 / Omega * ∑ j ∈ Finset.range K, (g / Omega) ^ (2 * j) / j.factorial + 2 * hopping) /
            ∑ j ∈ Finset.range (K + 1), (g / Omega) ^ (2 * j) / j.factorial := by
  obtain ⟨hc, hf, hb⟩ := clean_one (hopping := hopping) (Omega := Omega) (g := g) (ct := "Holstein") (Or.inl rfl) hM hN
  obtain ⟨m, b, h1, h3, h⟩ := C117_holstein σ hopping lattice hl cap hcap Omega g hO hg M N hM hN
  obtain ⟨m', b', q1, ⟨ae, q2⟩, q3⟩ := C16_assembled σ realPrims C42_names hopping lattice 0 cap hcap _ (by simp) hc hf hb
  rw [h1] at q1; cases q1
  rw [h3] at q3; cases q3
  have hp := physical_assembled h1 hb hl
  obtain ⟨F, e, g1, g2, g3, -⟩ := h 0
  refine ⟨m, b, h1, h3, F, e, g1, g2, g3, fun K hK hKc => ?_⟩
  rw [fromParameters_blueprint hopping lattice 0 cap _ hc hf] at h1
  have hm : m = holsteinModel hopping lattice cap Omega g M N := by
    rw [← Except.ok.inj h1]
    unfold holsteinModel
    congr 1
    simp [parts, partsAt, strengthD, Hamiltonian.strength]
  have hone : OneSign m := by rw [← Except.ok.inj h1]; exact oneSign_blueprint (by simp)
  have hR := fun w eta (heta : 0 < eta) => returned_of_gives (g1 w eta heta)
  have h4 := C124_trial σ m ae q2 b h3 hp hone F hR e g2.1 0 (displacedState (g / Omega) K) (fun n hn => by
    obtain ⟨j, hj, rfl⟩ := displacedState_support _ _ hn
    rw [hm]
    exact pile_linked hg hM q2.aePos (by omega) (fun c hc => by have := hKc c hc; omega))
  rw [hm, displacedState_weight, displaced_energy hO.ne' hM q2.aePos hK hKc, zero_mul, Real.cos_zero, mul_one] at h4
  simp only [← pow_mul] at h4
  rw [le_div_iff₀]
  · linarith
  · refine Finset.sum_pos (fun j _ => ?_) (by simp)
    have : 0 < g / Omega * (g / Omega) :=
      mul_self_pos.mpr (div_ne_zero hg hO.ne')
    rw [pow_mul, pow_two]
    positivity

/-- **C124**, the limit: with enough phonons on one site the polaron energy is, up to any tolerance, at most
`-g²/Ω - 2 t exp(-g²/Ω²)`. -/
theorem C124_lang_firsov (hopping lattice : ℝ) (hl : hopping = 0 ∨ (0 < hopping ∧ lattice = 1)) (Omega g : ℝ)
    (hO : 0 < Omega) (hg : g ≠ 0) (δ : ℝ) (hδ : 0 < δ) : ∃ K : ℕ, ∀ (σ : SetOrder) (cap : Option Int) (M N : ℤ), 1 ≤ M →
      (K : ℤ) ≤ N → (∀ c, cap = some c → (K : ℤ) ≤ c) →
      ∃ m b, (Model.fromParameters hopping lattice 0 cap 1).adds realPrims
          [{ ctype := "Holstein", freq := Omega, M := M, N := N, g := some g }] = .ok m ∧ buildSystem σ m = .ok b ∧
        ∃ F e, (∀ w eta : ℝ, 0 < eta → Gives m b ⟨0, w, eta⟩ (F w eta)) ∧ Edge F e ∧
          -(2 * hopping) - g ^ 2 / Omega ≤ e ∧ e ≤ -(g ^ 2 / Omega) - 2 * hopping * Real.exp (-(g / Omega) ^ 2) + δ := by
  set x := (g / Omega) ^ 2 with hx
  have hs : HasSum (fun j : ℕ => (g / Omega) ^ (2 * j) / (j.factorial : ℝ)) (Real.exp x) := by
    have := NormedSpace.expSeries_div_hasSum_exp (𝔸 := ℝ) x
    rw [← Real.exp_eq_exp_ℝ] at this
    simpa only [hx, ← pow_mul] using this
  have t1 := hs.tendsto_sum_nat
  have t2 := t1.comp (Filter.tendsto_add_atTop_nat 1)
  have hpos := Real.exp_pos x
  have t3 := (((t1.const_mul (g ^ 2 / Omega)).add_const (2 * hopping)).neg).div t2 hpos.ne'
  have hlim : -(g ^ 2 / Omega * Real.exp x + 2 * hopping) / Real.exp x =
      -(g ^ 2 / Omega) - 2 * hopping * Real.exp (-x) := by
    rw [Real.exp_neg]
    field_simp
    ring
  rw [hlim] at t3
  have ev := (t3.eventually (gt_mem_nhds (show -(g ^ 2 / Omega) - 2 * hopping * Real.exp (-x) <
    -(g ^ 2 / Omega) - 2 * hopping * Real.exp (-x) + δ by linarith))).and (Filter.eventually_ge_atTop 1)
  obtain ⟨K, h1, h2⟩ := ev.exists
  refine ⟨K, fun σ cap M N hM hN hcap => ?_⟩
  obtain ⟨m, b, q1, q2, F, e, q3, q4, q5, q6⟩ := C124_holstein σ hopping lattice hl cap
    (fun c hc => by have := hcap c hc; omega) Omega g hO hg M N hM (by omega)
  exact ⟨m, b, q1, q2, F, e, q3, q4, q5, (q6 K hN hcap).trans h1.le⟩

/-- C124 fails for `Peierls`, whose couplings have both signs: without hopping and with at most one phonon the polaron
energy at `k = π/2` is lower than at zero momentum, for every frequency and every coupling. -/
theorem C124_peierls_fails (σ : SetOrder) (cap : Option Int) (hcap : ∀ c, cap = some c → 1 ≤ c) (Omega g : ℝ) (hg : g ≠ 0)
    (M : ℤ) (hM : 1 ≤ M) :
    ∃ m b, (Model.fromParameters 0 1 0 cap 1).adds realPrims
        [{ ctype := "Peierls", freq := Omega, M := M, N := 1, g := some g }] = .ok m ∧ buildSystem σ m = .ok b ∧
      ∃ F F' e e', (∀ w eta : ℝ, 0 < eta → Gives m b ⟨0, w, eta⟩ (F w eta)) ∧ Edge F e ∧
        (∀ w eta : ℝ, 0 < eta → Gives m b ⟨Real.pi / 2, w, eta⟩ (F' w eta)) ∧ Edge F' e' ∧ e' < e := by
  obtain ⟨m, b, h1, h2, h3⟩ := C117_sharp σ 1 cap hcap "Peierls" (by simp) Omega g hg M hM
  obtain ⟨F, q1, q2⟩ := h3 0
  obtain ⟨F', q3, q4⟩ := h3 (Real.pi / 2)
  refine ⟨m, b, h1, h2, F, F', _, _, q1, q2, q3, q4, ?_⟩
  have hg2 : 0 < g ^ 2 := by positivity
  have := Real.sqrt_lt_sqrt (show 0 ≤ ((Omega - 0) / 2) ^ 2 + spread "Peierls" (0 * 1) * g ^ 2 by
    simp [spread]; positivity) (show _ < ((Omega - 0) / 2) ^ 2 + spread "Peierls" (Real.pi / 2 * 1) * g ^ 2 by
    simp [spread]; linarith)
  unfold lowerLevel
  linarith

/-! ### without limits -/

theorem edge_unique {m : Model ℝ} {b : Built ℝ} {k : ℝ} {F F' : ℝ → ℝ → ℂ}
    (h : ∀ w eta : ℝ, 0 < eta → Gives m b ⟨k, w, eta⟩ (F w eta))
    (h' : ∀ w eta : ℝ, 0 < eta → Gives m b ⟨k, w, eta⟩ (F' w eta)) {e e' : ℝ} (he : Edge F e) (he' : Edge F' e') : e = e' := by
  have hF : ∀ w eta : ℝ, 0 < eta → F w eta = F' w eta := fun w eta heta =>
    Option.some.inj (Except.ok.inj ((h w eta heta).2.symm.trans (h' w eta heta).2))
  have : ∀ x, EmptyBelow F x ↔ EmptyBelow F' x := fun x => by
    unfold EmptyBelow
    exact forall_congr' fun w => forall_congr' fun _ => forall_congr' fun eta => forall_congr' fun heta => by rw [hF w eta heta]
  exact le_antisymm (he'.2 e ((this e).1 he.1)) (he.2 e' ((this e').2 he'.1))

/-- **C124**, without limits: the lowest energy `E` of C122, to which the computed polaron energies converge from above, is
the ground-state energy of the Hamiltonian without limits, over all momenta. -/
theorem C124_exact (hopping : ℝ) (ht : 0 < hopping) (as : List (AddArgs ℝ)) (hne : as ≠ [])
    (hc : Clean realPrims hopping 0 as) (hf : ((modes 0 as).map (·.freq)).Nodup)
    (hb : (∀ a ∈ as, a.ctype = "BondPeierls") ∨ (∀ a ∈ as, a.ctype ≠ "BondPeierls"))
    (hP : ∀ a ∈ as, a.ctype ≠ "Peierls") (hpos : ∀ a ∈ as, 0 < a.freq ∧ a.g.isSome)
    (hg : ∀ a ∈ as, 0 < strengthSq hopping a) :
    ∃ m : Model ℝ, (Model.fromParameters hopping 1 0 none 1).adds realPrims as = .ok m ∧
      ∃ (ρ : MeasureTheory.Measure ℝ) (E : ℝ), MeasureTheory.IsProbabilityMeasure ρ ∧ HasMoments ρ (moment m 0) ∧
        Begins ρ E ∧ ExactGround m E ∧ -(2 * hopping) - (as.map callFloor).sum ≤ E ∧
        (∀ (σ : SetOrder) (cap : Option Int) (as' : List (AddArgs ℝ)), (∀ c, cap = some c → 1 ≤ c) →
          List.Forall₂ SameCall as as' → (∀ a ∈ as', Valid 0 a) →
          ∃ m' b, (Model.fromParameters hopping 1 0 cap 1).adds realPrims as' = .ok m' ∧ buildSystem σ m' = .ok b ∧
            ∀ k : ℝ, ∃ F e, (∀ w eta : ℝ, 0 < eta → Gives m' b ⟨k, w, eta⟩ (F w eta)) ∧ Edge F e ∧ E ≤ e) ∧
        ∀ ε > 0, ∃ B : ℤ, ∀ (σ : SetOrder) (cap : Option Int) (as' : List (AddArgs ℝ)),
          (∀ c, cap = some c → 1 ≤ c ∧ B ≤ c) → List.Forall₂ SameCall as as' → (∀ a ∈ as', Valid 0 a ∧ CallAtLeast B a) →
          ∃ m' b F e, (Model.fromParameters hopping 1 0 cap 1).adds realPrims as' = .ok m' ∧ buildSystem σ m' = .ok b ∧
            (∀ w eta : ℝ, 0 < eta → Gives m' b ⟨0, w, eta⟩ (F w eta)) ∧ Edge F e ∧ E ≤ e ∧ e ≤ E + ε := by
  obtain ⟨m, h1, ρ, E, h2, h3, h4, h0, -, h5, h6⟩ :=
    C122_polaron hopping 1 (Or.inr ⟨ht, rfl⟩) as hne hc hf hb hP hpos
  refine ⟨m, h1, ρ, E, h2, h3, h4, ?_, h0.1, h5, h6⟩
  let σ : SetOrder := ⟨id, fun l => List.Perm.refl l⟩
  -- one truncated model with limits `j`
  have key : ∀ j : ℕ, 1 ≤ j → ∃ m' b ae F e, (Model.fromParameters hopping 1 0 none 1).adds realPrims
      (as.map (withLimits j)) = .ok m' ∧ buildSystem σ m' = .ok b ∧ SameSystem m m' ∧ ListsOk m' ∧ LimitsAtLeast j m' ae ∧
      (∀ w eta : ℝ, 0 < eta → Gives m' b ⟨0, w, eta⟩ (F w eta)) ∧ Edge F e ∧ GroundEnergy m' ae e := by
    intro j hj
    have hs := same_withLimits (j : ℤ) as
    have hv := valid_withLimits hc hj
    obtain ⟨m', b, ae, k1, k2, k3, k4, k5, k6⟩ := same_assembled σ hne hc hf hb (cap := none) (by simp) hs hv h1
    have hc' := clean_same hc hs hv
    have hf' : ((modes 0 (as.map (withLimits j))).map (·.freq)).Nodup := by
      rw [modes_of_clean hc', freqs_same hs, ← modes_of_clean hc]; exact hf
    obtain ⟨m₁, b₁, ae₁, q1, q2, q3, F, e, q4, q5, q6⟩ := C124_assembled σ hopping 0 ht none (by simp)
      (as.map (withLimits j)) (by simpa using hne) hc' hf' k6 (fun a ha => by
        obtain ⟨x, hx, rfl⟩ := List.mem_map.1 ha
        exact hP x hx) (fun h => absurd h (lt_irrefl _)) (fun a ha => by
        obtain ⟨x, hx, rfl⟩ := List.mem_map.1 ha
        exact hg x hx)
    rw [k1] at q1; cases q1
    rw [k2] at q2; cases q2
    rw [k3.absExtent] at q3; cases q3
    refine ⟨m', b, ae, F, e, k1, k2, k4, k3.toListsOk, k5 j (by simp) (fun a ha => ?_), q4, q5, q6⟩
    obtain ⟨x, hx, rfl⟩ := List.mem_map.1 ha
    exact ⟨le_rfl, le_rfl, fun y hy => (map_const hy).ge, fun y hy => (map_const hy).ge⟩
  constructor
  · intro k f hfs
    obtain ⟨B, hB⟩ := support_allowed f.support hfs
    obtain ⟨m', b, ae, F, e, q1, q2, q3, q4, q5, q6, q7, q8⟩ := key (B.toNat + 1) (by omega)
    obtain ⟨m₁, b₁, r1, r2, r3⟩ := h5 σ none _ (by simp) (same_withLimits ((B.toNat + 1 : ℕ) : ℤ) as)
      (valid_withLimits hc (by omega))
    rw [q1] at r1; cases r1
    rw [q2] at r2; cases r2
    obtain ⟨F', e', s1, s2, s3⟩ := r3 0
    have hee := edge_unique q6 s1 q7 s2
    have ha := hB m' ae q3.types q4 ⟨by have := q5.window; omega, fun M hM => by have := q5.extent M hM; omega,
      fun N hN => by have := q5.number N hN; omega, fun c hc => by have := q5.cap c hc; omega⟩
    rw [← trial_exact q3 ha]
    refine le_trans (mul_le_mul_of_nonneg_right (hee ▸ s3) ?_) (q8.1 k f ha)
    exact Finset.sum_nonneg (fun n _ => by positivity)
  · intro x hx
    refine le_of_forall_pos_le_add (fun ε hε => ?_)
    obtain ⟨B, hB⟩ := h6 ε hε
    obtain ⟨m', b, ae, F, e, q1, q2, q3, q4, q5, q6, q7, q8⟩ := key (B.toNat + 1) (by omega)
    obtain ⟨m₁, b₁, F', e', r1, r2, r3, r4, -, r5⟩ := hB σ none _ (by simp) (same_withLimits ((B.toNat + 1 : ℕ) : ℤ) as)
      (fun a ha => ⟨valid_withLimits hc (by omega) a ha, by
        obtain ⟨y, hy, rfl⟩ := List.mem_map.1 ha
        have hle : B ≤ ((B.toNat + 1 : ℕ) : ℤ) := by omega
        exact ⟨hle, hle, fun z hz => hle.trans (map_const hz).ge, fun z hz => hle.trans (map_const hz).ge⟩⟩)
    rw [q1] at r1; cases r1
    rw [q2] at r2; cases r2
    rw [← edge_unique q6 r3 q7 r4] at r5
    refine le_trans (q8.2 x (fun k f hfs => ?_)) r5
    rw [trial_exact q3 hfs]
    exact hx k f (fun n hn => ⟨(hfs n hn).nonneg, fun t y hy => q3.types ▸ (hfs n hn).types t y hy, (hfs n hn).finite⟩)

/-- **C124**, the exact Holstein polaron: its ground-state energy lies between `-2 t - g²/Ω` and
`-g²/Ω - 2 t exp(-g²/Ω²)`. -/
theorem C124_exact_holstein (hopping : ℝ) (ht : 0 < hopping) (Omega g : ℝ) (hO : 0 < Omega) (hg : g ≠ 0) (M N : ℤ)
    (hM : 1 ≤ M) (hN : 1 ≤ N) :
    ∃ m, (Model.fromParameters hopping 1 0 none 1).adds realPrims
        [{ ctype := "Holstein", freq := Omega, M := M, N := N, g := some g }] = .ok m ∧
      ∃ E, ExactGround m E ∧ -(2 * hopping) - g ^ 2 / Omega ≤ E ∧
        E ≤ -(g ^ 2 / Omega) - 2 * hopping * Real.exp (-(g / Omega) ^ 2) := by
  obtain ⟨hc, hf, hb⟩ := clean_one (hopping := hopping) (Omega := Omega) (g := g) (ct := "Holstein") (Or.inl rfl) hM hN
  have hg2 : 0 < g ^ 2 := by positivity
  obtain ⟨m, h1, ρ, E, -, -, -, h2, h3, h4, -⟩ := C124_exact hopping ht _ (by simp) hc hf hb (by simp) (by simp [hO])
    (by simp [strengthSq, hg2])
  refine ⟨m, h1, E, h2, ?_, le_of_forall_pos_le_add (fun δ hδ => ?_)⟩
  · simpa [callFloor] using h3
  · let σ : SetOrder := ⟨id, fun l => List.Perm.refl l⟩
    obtain ⟨K, hK⟩ := C124_lang_firsov hopping 1 (Or.inr ⟨ht, rfl⟩) Omega g hO hg δ hδ
    obtain ⟨m', b, q1, q2, F, e, q3, q4, -, q5⟩ := hK σ none 1 (K + 1) le_rfl (by omega) (by simp)
    obtain ⟨m₁, b₁, r1, r2, r3⟩ := h4 σ none [{ ctype := "Holstein", freq := Omega, M := 1, N := K + 1, g := some g }]
      (by simp) (List.Forall₂.cons ⟨rfl, rfl, rfl, rfl, rfl⟩ List.Forall₂.nil)
      (clean_one (hopping := hopping) (Omega := Omega) (g := g) (ct := "Holstein") (Or.inl rfl) le_rfl
        (by omega : (1 : ℤ) ≤ K + 1)).1.valid
    rw [q1] at r1; cases r1
    rw [q2] at r2; cases r2
    obtain ⟨F', e', s1, s2, s3⟩ := r3 0
    rw [← edge_unique q3 s1 q4 s2] at s3
    exact s3.trans q5

/-! ### concrete cases -/

/-- A Holstein polaron with `t = 1`, `Ω = 1`, `g = 2` and at most two phonons on one site: with `K = 2` the energy is at
most `-22/13`. -/
example (σ : SetOrder) : ∃ m b, (Model.fromParameters (1 : ℝ) 1 0 none 1).adds realPrims
    [{ ctype := "Holstein", freq := 1, M := 1, N := 2, g := some 2 }] = .ok m ∧ buildSystem σ m = .ok b ∧
      ∃ F e, (∀ w eta : ℝ, 0 < eta → Gives m b ⟨0, w, eta⟩ (F w eta)) ∧ Edge F e ∧ -6 ≤ e ∧ e ≤ -22 / 13 := by
  obtain ⟨m, b, q1, q2, F, e, q3, q4, q5, q6⟩ := C124_holstein σ 1 1 (Or.inr ⟨one_pos, rfl⟩) none (by simp) 1 2 one_pos
    (by norm_num) 1 2 le_rfl (by norm_num)
  refine ⟨m, b, q1, q2, F, e, q3, q4, by linarith, (q6 2 (by norm_num) (by simp)).trans (le_of_eq ?_)⟩
  norm_num [Finset.sum_range_succ, Nat.factorial]

/-- The hypotheses of `C124_assembled` (and with them those of `C124_ground`) are met by a BondPeierls model at `T = 1`. -/
example (σ : SetOrder) : ∃ m b ae, (Model.fromParameters (1 : ℝ) 1 1 none 1).adds realPrims exBondCalls = .ok m ∧
    buildSystem σ m = .ok b ∧ m.absExtent = some ae ∧ ∃ F e, (∀ w eta : ℝ, 0 < eta → Gives m b ⟨0, w, eta⟩ (F w eta)) ∧
      Edge F e ∧ GroundEnergy m ae e := by
  obtain ⟨h1, h2, h3⟩ := exBondCalls_clean
  exact C124_assembled σ 1 1 one_pos none (by simp) exBondCalls (by simp [exBondCalls]) h1 h2 (Or.inl h3)
    (by simp [exBondCalls]) (by simp [exBondCalls]) (by simp [exBondCalls, strengthSq])

/-- The exact ground-state energy of the Holstein polaron with `t = 1`, `Ω = 1`, `g = 2` lies between `-6` and `-4`. -/
example : ∃ m : Model ℝ, (Model.fromParameters (1 : ℝ) 1 0 none 1).adds realPrims
    [{ ctype := "Holstein", freq := 1, M := 1, N := 1, g := some 2 }] = .ok m ∧ ∃ E, ExactGround m E ∧ -6 ≤ E ∧ E < -4 := by
  obtain ⟨m, h1, E, h2, h3, h4⟩ := C124_exact_holstein 1 one_pos 1 2 one_pos (by norm_num) 1 1 le_rfl le_rfl
  refine ⟨m, h1, E, h2, by linarith, h4.trans_lt ?_⟩
  have := Real.exp_pos (-(2 / 1 : ℝ) ^ 2)
  linarith

end GGCE.Props
