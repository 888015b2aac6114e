import Verif.Props.Limit
import Verif.Props.Atomic
import Verif.Props.Stability
import Verif.Proofs.Variance
import Verif.Spec.SecondOrder

/-!
Properties C79 and C80: the moments of the spectral function do not depend on the limits up to an order that grows
with them, and what the second one is.
-/

set_option linter.unusedSectionVars false

namespace GGCE.Props
open Spec Arr Complex ComplexConjugate Filter Topology
open scoped InnerProductSpace

variable {m m' : Model ℝ} {ae : ℤ} {k w eta : ℝ}

theorem bare_iter (m : Model ℝ) (k : ℝ) (n : Occ) : (bare : States) n = (hops m k).iter 0 n := bare_apply n

/-- the expansion, for models whose limits leave room for what is reached in `J` steps -/
theorem returned_moments {J : ℕ} (hp : Physical m) {σ : SetOrder} (hs : SameSystem m m') (hm' : WellFormed m' ae)
    (hR : ∀ n, (hops m k).Reach J n → Allowed m' ae n) {b : Built ℝ} (hb : buildSystem σ m' = .ok b) (heta : 0 < eta)
    {G : ℂ} (hG : Returned m' b ⟨k, w, eta⟩ G) :
    ‖G - ∑ j ∈ Finset.range (2 * J + 2), moment m k j / energyAt w eta ^ (j + 1)‖ ≤
      (moment m k (2 * J + 2)).re / (‖energyAt w eta‖ ^ (2 * J + 2) * eta) := by
  obtain ⟨c, hsh⟩ := hp.shifts
  have hQ := hops_ok (k := k) hsh hp.adj
  have hz : (energyAt w eta).im ≠ 0 := by rw [energyAt_im]; exact heta.ne'
  have hp' : Physical m' := by
    refine ⟨⟨c, ?_⟩, ?_, ?_⟩
    · unfold ShiftsOk; rw [hs.ham]; exact hsh
    · rw [hs.ham]; exact hp.adj
    · rw [hs.ham, hs.lattice]; exact hp.lattice
  obtain ⟨H, h1, h2, h3⟩ := C56_returned σ m' ae hm' b hb hp' k
  have hsub := hops_sub (k := k) hm'.toListsOk (allowed_zero hm'.toShaped)
  rw [hops_same hs] at hsub
  have hop : H = (hops m k).op (Allowed m' ae) := by
    ext f n
    rw [h2, Hops.op_apply hQ hsub, ← hops_same hs, hops_act_allowed]
  have h4 := Hops.green_moments hQ hsub (v := bare) (bare_iter m k) inner_bare hR hz
  rw [energyAt_im, abs_of_pos heta] at h4
  rw [h3 w eta heta G hG, hop]
  simp only [iter_powers] at h4
  exact h4

/-- C79, for well-formed models. If all limits are at least `J + 1`, then the returned number agrees with the
expansion of the Green's function of the Hamiltonian without limits in `1/z`, `z = w + i eta`, through the moment
`2 J + 1`, and the error is bounded by the next moment. -/
theorem C79_expansion (σ : SetOrder) (m m' : Model ℝ) (hp : Physical m) (hA : ∀ h ∈ m.ham.terms, Adjacent h) (J : ℕ)
    (ae : ℤ) (hs : SameSystem m m') (hB : LimitsAtLeast (J + 1) m' ae) (hm' : WellFormed m' ae) (b : Built ℝ)
    (hb : buildSystem σ m' = .ok b) (k w eta : ℝ) (heta : 0 < eta) (G : ℂ) (hG : Returned m' b ⟨k, w, eta⟩ G) :
    ‖G - ∑ j ∈ Finset.range (2 * J + 2), moment m k j / energyAt w eta ^ (j + 1)‖ ≤
      (moment m k (2 * J + 2)).re / (‖energyAt w eta‖ ^ (2 * J + 2) * eta) := by
  obtain ⟨c, hsh⟩ := hp.shifts
  exact returned_moments hp hs hm' (fun n h => reach_allowed (hops_ok hsh hp.adj) hA hs.types hB h) hb heta hG

/-! ### from the user's side -/

/-- the same calls with other limits make a model that differs in the limits only -/
theorem same_assembled (σ : SetOrder) {hopping lattice T : ℝ}
    {as as' : List (AddArgs ℝ)} (hne : as ≠ []) (hc : Clean realPrims hopping T as)
    (hf : ((modes T as).map (·.freq)).Nodup)
    (hb : (∀ a ∈ as, a.ctype = "BondPeierls") ∨ (∀ a ∈ as, a.ctype ≠ "BondPeierls"))
    {cap : Option Int} (hcap : ∀ c, cap = some c → 1 ≤ c) (hs : List.Forall₂ SameCall as as')
    (hv : ∀ a ∈ as', Valid T a) {m : Model ℝ}
    (h1 : (Model.fromParameters hopping lattice T none 1).adds realPrims as = .ok m) :
    ∃ m' b ae, (Model.fromParameters hopping lattice T cap 1).adds realPrims as' = .ok m' ∧
      buildSystem σ m' = .ok b ∧ WellFormed m' ae ∧ SameSystem m m' ∧
      (∀ B : ℤ, (∀ c, cap = some c → B ≤ c) → (∀ a ∈ as', CallAtLeast B a) → LimitsAtLeast B m' ae) ∧
      ((∀ a ∈ as', a.ctype = "BondPeierls") ∨ (∀ a ∈ as', a.ctype ≠ "BondPeierls")) := by
  have hc' := clean_same hc hs hv
  have hne' : as' ≠ [] := by rintro rfl; cases hs; exact hne rfl
  have hf' : ((modes T as').map (·.freq)).Nodup := by
    rw [modes_of_clean hc', freqs_same hs, ← modes_of_clean hc]; exact hf
  have hb' : (∀ a ∈ as', a.ctype = "BondPeierls") ∨ (∀ a ∈ as', a.ctype ≠ "BondPeierls") := by
    rcases hb with hb | hb
    · refine Or.inl (fun a ha => ?_)
      obtain ⟨x, hx, h⟩ := forall₂_mem hs a ha
      rw [h.ctype]; exact hb x hx
    · refine Or.inr (fun a ha => ?_)
      obtain ⟨x, hx, h⟩ := forall₂_mem hs a ha
      rw [h.ctype]; exact hb x hx
  obtain ⟨m', b, k1, ⟨ae, k2⟩, k3⟩ := C16_assembled σ realPrims C42_names hopping lattice T cap hcap as' hne' hc' hf' hb'
  refine ⟨m', b, ae, k1, k3, k2, ?_, fun B h2 h3 => limits_assembled hc' k1 k2 h2 h3, hb'⟩
  exact adds_same hs (m := Model.fromParameters hopping lattice T none 1)
    (m' := Model.fromParameters hopping lattice T cap 1) ⟨rfl, rfl, rfl⟩ rfl hc.valid hc'.valid h1 k1

theorem adjacent_assembled {hopping lattice T : ℝ} {cap : Option Int} {as : List (AddArgs ℝ)} {m : Model ℝ}
    (hc : Clean realPrims hopping T as) (hf : ((modes T as).map (·.freq)).Nodup)
    (h1 : (Model.fromParameters hopping lattice T cap 1).adds realPrims as = .ok m) : ∀ h ∈ m.ham.terms, Adjacent h := by
  rw [fromParameters_blueprint hopping lattice T cap as hc hf] at h1
  cases h1
  exact blueprint_adjacent

/-- **C79**. Fix the couplings. There are moments, those of the Hamiltonian without limits, such that for every `J`
and whatever the limits, as long as they are all at least `J + 1`, the model can be made, the system can be built,
a number is returned, and it agrees with `Σ_j moment_j / z^(j+1)` through `j = 2 J + 1`, up to the next moment
divided by `|z|^(2 J + 2) eta`. -/
theorem C79_moments (hopping lattice T : ℝ) (hl : hopping = 0 ∨ (0 < hopping ∧ lattice = 1))
    (as : List (AddArgs ℝ)) (hne : as ≠ []) (hc : Clean realPrims hopping T as)
    (hf : ((modes T as).map (·.freq)).Nodup)
    (hb : (∀ a ∈ as, a.ctype = "BondPeierls") ∨ (∀ a ∈ as, a.ctype ≠ "BondPeierls")) :
    ∃ m : Model ℝ, (Model.fromParameters hopping lattice T none 1).adds realPrims as = .ok m ∧
      ∀ (J : ℕ) (σ : SetOrder) (cap : Option Int) (as' : List (AddArgs ℝ)),
        (∀ c, cap = some c → (J + 1 : ℤ) ≤ c) → List.Forall₂ SameCall as as' →
        (∀ a ∈ as', Valid T a ∧ CallAtLeast (J + 1) a) →
        ∃ m' b, (Model.fromParameters hopping lattice T cap 1).adds realPrims as' = .ok m' ∧
          buildSystem σ m' = .ok b ∧ ∀ k w eta : ℝ, 0 < eta → ∃ G, Gives m' b ⟨k, w, eta⟩ G ∧
          ‖G - ∑ j ∈ Finset.range (2 * J + 2), moment m k j / energyAt w eta ^ (j + 1)‖ ≤
            (moment m k (2 * J + 2)).re / (‖energyAt w eta‖ ^ (2 * J + 2) * eta) := by
  obtain ⟨m, -, h1, -, -⟩ := assembled C42_names.known hopping lattice T none (by simp) as hne hc hf
  refine ⟨m, h1, fun J σ cap as' hcap hs hv => ?_⟩
  obtain ⟨m', b, ae, k1, k2, k3, k4, k5, k6⟩ := same_assembled σ hne hc hf hb
    (fun c h => le_trans (by omega) (hcap c h)) hs (fun a ha => (hv a ha).1) h1
  refine ⟨m', b, k1, k2, fun k w eta heta => ?_⟩
  obtain ⟨H, -, -, h⟩ := C56_operator σ m' ae k3 b k2 (physical_assembled k1 k6 hl) k
  have hG : Gives m' b ⟨k, w, eta⟩ _ := ⟨(h w eta heta).2.1, (h w eta heta).2.2⟩
  exact ⟨_, hG, C79_expansion σ m m' (physical_assembled h1 hb hl) (adjacent_assembled hc hf h1) J ae k4
    (k5 _ hcap (fun a ha => (hv a ha).2)) k3 b k2 k w eta heta _ (returned_of_gives hG)⟩

/-- C79, comparing limits: two choices of the limits, all at least `J + 1`, give numbers that differ by at most twice
the bound. -/
theorem C79_two (hopping lattice T : ℝ) (hl : hopping = 0 ∨ (0 < hopping ∧ lattice = 1))
    (as : List (AddArgs ℝ)) (hne : as ≠ []) (hc : Clean realPrims hopping T as)
    (hf : ((modes T as).map (·.freq)).Nodup)
    (hb : (∀ a ∈ as, a.ctype = "BondPeierls") ∨ (∀ a ∈ as, a.ctype ≠ "BondPeierls")) (J : ℕ) (k : ℝ) :
    ∃ C : ℝ, ∀ (σ σ' : SetOrder) (cap cap' : Option Int) (as' as'' : List (AddArgs ℝ)) (m' m'' : Model ℝ) (b' b'' : Built ℝ),
        (∀ c, cap = some c → (J + 1 : ℤ) ≤ c) → (∀ c, cap' = some c → (J + 1 : ℤ) ≤ c) →
        List.Forall₂ SameCall as as' → List.Forall₂ SameCall as as'' →
        (∀ a ∈ as', Valid T a ∧ CallAtLeast (J + 1) a) → (∀ a ∈ as'', Valid T a ∧ CallAtLeast (J + 1) a) →
        (Model.fromParameters hopping lattice T cap 1).adds realPrims as' = .ok m' →
        (Model.fromParameters hopping lattice T cap' 1).adds realPrims as'' = .ok m'' →
        buildSystem σ m' = .ok b' → buildSystem σ' m'' = .ok b'' →
        ∀ w eta : ℝ, 0 < eta → ∃ G' G'', Gives m' b' ⟨k, w, eta⟩ G' ∧ Gives m'' b'' ⟨k, w, eta⟩ G'' ∧
          ‖G' - G''‖ ≤ C / (‖energyAt w eta‖ ^ (2 * J + 2) * eta) := by
  obtain ⟨m, -, h⟩ := C79_moments hopping lattice T hl as hne hc hf hb
  refine ⟨2 * (moment m k (2 * J + 2)).re, ?_⟩
  intro σ σ' cap cap' as' as'' m' m'' b' b'' hcap hcap' hs hs' hv hv' e1 e2 e3 e4 w eta heta
  obtain ⟨n', c', q1, q2, q3⟩ := h J σ cap as' hcap hs hv
  obtain ⟨n'', c'', r1, r2, r3⟩ := h J σ' cap' as'' hcap' hs' hv'
  rw [e1] at q1; cases q1
  rw [e3] at q2; cases q2
  rw [e2] at r1; cases r1
  rw [e4] at r2; cases r2
  obtain ⟨G', g1, g2⟩ := q3 k w eta heta
  obtain ⟨G'', g3, g4⟩ := r3 k w eta heta
  refine ⟨G', G'', g1, g3, ?_⟩
  rw [norm_sub_rev] at g4
  have := norm_add_le_of_le g2 g4
  rw [sub_add_sub_cancel] at this
  refine this.trans (le_of_eq ?_)
  ring

/-! ### C80 -/

theorem mathSqrt_sq {x g : ℝ} (h : mathSqrt x = .ok g) : g ^ 2 = x := by
  unfold mathSqrt at h
  split at h
  · cases h
  · cases h
    exact Real.sq_sqrt (by linarith)

theorem coupling_sq {ct : String} {t f l g : ℝ} (hk : Known ct) (h : couplingMapR ct t f l = .ok g) :
    g ^ 2 = if ct = "Holstein" then 2 * t * |f| * l
      else if ct = "Peierls" then t * |f| * l / 2 else if ct = "BondPeierls" then t * |f| * l else l ^ 2 := by
  unfold couplingMapR at h
  rcases hk with rfl | rfl | rfl | rfl
  · rw [if_pos rfl] at h ⊢; exact mathSqrt_sq h
  · simp at h ⊢; rw [h]
  · simp at h ⊢; exact mathSqrt_sq h
  · simp at h ⊢; exact mathSqrt_sq h

theorem strengthD_sq {hopping : ℝ} {a : AddArgs ℝ} {f : ℝ} (hk : Known a.ctype) (ho : OneStrength a)
    (hd : Defined realPrims hopping a) (hf : f = a.freq ∨ f = -a.freq) :
    strengthD realPrims hopping a f ^ 2 = strengthSq hopping a := by
  have habs : |f| = |a.freq| := by rcases hf with rfl | rfl <;> simp
  rcases ho with ⟨g, hg, hn⟩ | ⟨l, hl, hn⟩
  · rw [strengthD_ok (g := g) (by unfold Hamiltonian.strength; rw [hn, hg])]
    unfold strengthSq
    rw [hn, hg]
    rfl
  · obtain ⟨⟨g1, e1⟩, g2, e2⟩ := hd l hl
    obtain ⟨g, e⟩ : ∃ g, couplingMapR a.ctype hopping f l = .ok g := by
      rcases hf with rfl | rfl
      · exact ⟨g1, e1⟩
      · exact ⟨g2, e2⟩
    rw [strengthD_ok (g := g) (by unfold Hamiltonian.strength; rw [hl]; exact e), coupling_sq hk e]
    unfold strengthSq
    rw [hl, habs]

theorem parts_variance {hopping T x : ℝ} : ∀ (as : List (AddArgs ℝ)), Clean realPrims hopping T as →
    (0 < T → ∀ a ∈ as, 0 < a.freq) →
    ((parts realPrims hopping T as).map (fun d => spread d.ctype x * d.g ^ 2)).sum = variance hopping T x as
  | [], _, _ => by simp [parts, variance]
  | a :: as, hc, hpos => by
    have ih := parts_variance (x := x) as hc.tail (fun hT b hb => hpos hT b (List.mem_cons_of_mem _ hb))
    have hk := hc.known a List.mem_cons_self
    have ho := (hc.valid a List.mem_cons_self).strength
    have hd := hc.defined a List.mem_cons_self
    unfold variance at ih ⊢
    rw [parts_cons, List.map_append, List.sum_append, ih, List.map_cons, List.sum_cons]
    congr 1
    have e1 := strengthD_sq hk ho hd (Or.inl rfl)
    have e2 := strengthD_sq hk ho hd (Or.inr rfl)
    unfold partsAt
    by_cases hT : 0 < T
    · obtain ⟨t1, t2⟩ := tfd_thermal hT (hpos hT a List.mem_cons_self)
      rw [if_pos hT]
      simp only [List.map_cons, List.map_nil, List.sum_cons, List.sum_nil, add_zero, mul_pow]
      rw [e1, e2, show realPrims.tfd T a.freq = tfdR T a.freq from rfl, t1, t2]
      ring
    · rw [if_neg hT]
      simp only [List.map_cons, List.map_nil, List.sum_cons, List.sum_nil, add_zero, mul_one]
      rw [e1]
      unfold thermal
      rw [if_neg hT]
      ring

theorem moments_assembled {hopping lattice T : ℝ} {cap : Option Int} {as : List (AddArgs ℝ)} {m : Model ℝ}
    (hc : Clean realPrims hopping T as) (hf : ((modes T as).map (·.freq)).Nodup) (hpos : 0 < T → ∀ a ∈ as, 0 < a.freq)
    (h1 : (Model.fromParameters hopping lattice T cap 1).adds realPrims as = .ok m) (k : ℝ) :
    moment m k 0 = 1 ∧ moment m k 1 = ((-(2 * hopping * Real.cos (k * lattice)) : ℝ) : ℂ) ∧
      moment m k 2 = (((-(2 * hopping * Real.cos (k * lattice))) ^ 2 + variance hopping T (k * lattice) as : ℝ) : ℂ) := by
  rw [fromParameters_blueprint hopping lattice T cap as hc hf] at h1
  cases h1
  refine ⟨if_pos rfl, powers_one_zero _ k, ?_⟩
  rw [moment_two (fun h hh => ?_)]
  · have hkn : ∀ d ∈ parts realPrims hopping T as, Known d.ctype := by
      intro d hd
      obtain ⟨a, ha, hd⟩ := List.mem_flatMap.1 hd
      unfold partsAt at hd
      have := hc.known a ha
      split at hd <;> simp at hd
      · rcases hd with rfl | rfl <;> exact this
      · rw [hd]; exact this
    have h2 := pairs_partTerms (k * lattice) (parts realPrims hopping T as) 0 hkn
    rw [parts_variance as hc hpos] at h2
    push_cast at h2 ⊢
    congr 1
  · obtain ⟨q, hq, hq'⟩ := List.mem_flatMap.1 (show h ∈ partTerms _ 0 from hh)
    rw [termsOf_index hq']
    have := List.snd_lt_of_mem_zipIdx hq
    show q.2 < (parts realPrims hopping T as).length
    simpa using this

theorem variance_textbook {hopping T x : ℝ} : ∀ as : List (AddArgs ℝ),
    (0 < T → ∀ a ∈ as, a.ctype ≠ "EdwardsFermionBoson") → textbookVariance hopping T x as = variance hopping T x as := by
  intro as he
  unfold textbookVariance variance
  congr 1
  refine List.map_congr_left (fun a ha => ?_)
  by_cases hT : 0 < T
  · unfold spreadIn
    rw [if_neg (he hT a ha)]
    ring
  · have : thermal T a.freq = 0 := by unfold thermal; rw [if_neg hT]
    rw [this]
    ring

/-- C80, the moments: the spectral function of the Hamiltonian without limits has total weight one, mean
`-2 t cos(k a)` and the textbook variance. (EdwardsFermionBoson couplings at a temperature above zero are the subject of
`C100_edwards_fails`.) -/
theorem C80_textbook {hopping lattice T : ℝ} {cap : Option Int} {as : List (AddArgs ℝ)} {m : Model ℝ}
    (hc : Clean realPrims hopping T as) (hf : ((modes T as).map (·.freq)).Nodup) (hpos : 0 < T → ∀ a ∈ as, 0 < a.freq)
    (he : 0 < T → ∀ a ∈ as, a.ctype ≠ "EdwardsFermionBoson")
    (h1 : (Model.fromParameters hopping lattice T cap 1).adds realPrims as = .ok m) (k : ℝ) :
    moment m k 0 = 1 ∧ moment m k 1 = ((-(2 * hopping * Real.cos (k * lattice)) : ℝ) : ℂ) ∧
      moment m k 2 =
        (((-(2 * hopping * Real.cos (k * lattice))) ^ 2 + textbookVariance hopping T (k * lattice) as : ℝ) : ℂ) := by
  rw [variance_textbook as he]
  exact moments_assembled hc hf hpos h1 k

theorem mean_vertex (ctype : String) (hk : Known ctype) (g x : ℝ) :
    1 / (2 * Real.pi) * ∫ q in (-Real.pi)..Real.pi, vertex ctype g x q ^ 2 = spread ctype x * g ^ 2 := by
  have hpi := Real.pi_ne_zero
  have c0 : ∫ q in (-Real.pi)..Real.pi, Real.cos q = 0 := by rw [integral_cos]; simp
  have s0 : ∫ q in (-Real.pi)..Real.pi, Real.sin q = 0 := by rw [integral_sin]; simp
  have c2 : ∫ q in (-Real.pi)..Real.pi, Real.cos q ^ 2 = Real.pi := by rw [integral_cos_sq]; simp
  have s2 : ∫ q in (-Real.pi)..Real.pi, Real.sin q ^ 2 = Real.pi := by rw [integral_sin_sq]; simp
  rcases hk with rfl | rfl | rfl | rfl
  · simp only [vertex, spread, if_true, intervalIntegral.integral_const]
    rw [smul_eq_mul]
    field_simp
    ring
  · have e : ∀ q, vertex "EdwardsFermionBoson" g x q ^ 2 = 4 * g ^ 2 * Real.cos q ^ 2 := fun q => by
      simp [vertex]; ring
    simp only [e]
    rw [intervalIntegral.integral_const_mul, c2]
    simp [spread]
    field_simp
    ring
  · have e : ∀ q, vertex "BondPeierls" g x q ^ 2 =
        2 * g ^ 2 + (2 * g ^ 2 * Real.cos x * Real.cos q - 2 * g ^ 2 * Real.sin x * Real.sin q) := fun q => by
      have h := Real.cos_sq ((x + q) / 2)
      rw [show 2 * ((x + q) / 2) = x + q by ring, Real.cos_add] at h
      simp [vertex]
      rw [mul_pow, h]
      ring
    simp only [e]
    rw [intervalIntegral.integral_add (by simp) (Continuous.intervalIntegrable (by fun_prop) _ _),
      intervalIntegral.integral_sub (Continuous.intervalIntegrable (by fun_prop) _ _)
        (Continuous.intervalIntegrable (by fun_prop) _ _), intervalIntegral.integral_const, intervalIntegral.integral_const_mul,
      intervalIntegral.integral_const_mul, c0, s0]
    simp [spread]
    field_simp
    ring
  · have e : ∀ q, vertex "Peierls" g x q ^ 2 =
        4 * g ^ 2 * Real.sin x ^ 2 + (4 * g ^ 2 * Real.sin q ^ 2 - 8 * g ^ 2 * Real.sin x * Real.sin q) := fun q => by
      simp [vertex]
      ring
    simp only [e]
    rw [intervalIntegral.integral_add (by simp) (Continuous.intervalIntegrable (by fun_prop) _ _),
      intervalIntegral.integral_sub (Continuous.intervalIntegrable (by fun_prop) _ _)
        (Continuous.intervalIntegrable (by fun_prop) _ _), intervalIntegral.integral_const, intervalIntegral.integral_const_mul,
      intervalIntegral.integral_const_mul, s2, s0]
    simp [spread]
    field_simp
    ring

/-- C80, the reading of `spread` and `spreadIn`: they are the mean square of the vertex of second-order perturbation
theory over the momenta `q` of the electron after emission or absorption. -/
theorem C80_vertex (ctype : String) (hk : Known ctype) (g x : ℝ) :
    1 / (2 * Real.pi) * ∫ q in (-Real.pi)..Real.pi, vertex ctype g x q ^ 2 = spread ctype x * g ^ 2 ∧
      1 / (2 * Real.pi) * ∫ q in (-Real.pi)..Real.pi, vertex ctype g q x ^ 2 = spreadIn ctype x * g ^ 2 := by
  have h := mean_vertex ctype hk g x
  refine ⟨h, ?_⟩
  rcases hk with rfl | rfl | rfl | rfl
  · rw [show spreadIn "Holstein" x = spread "Holstein" x by simp [spreadIn], ← h]
    simp [vertex]
  · have e : ∀ q, vertex "EdwardsFermionBoson" g q x ^ 2 = 4 * g ^ 2 * Real.cos x ^ 2 := fun q => by simp [vertex]; ring
    simp only [e, spreadIn, if_true, intervalIntegral.integral_const]
    rw [smul_eq_mul]
    have := Real.pi_ne_zero
    field_simp
    ring
  · rw [show spreadIn "BondPeierls" x = spread "BondPeierls" x by simp [spreadIn], ← h]
    simp [vertex, add_comm]
  · rw [show spreadIn "Peierls" x = spread "Peierls" x by simp [spreadIn], ← h]
    have e : ∀ q, vertex "Peierls" g q x ^ 2 = vertex "Peierls" g x q ^ 2 := fun q => by simp [vertex]; ring
    simp only [e]

theorem norm_energyAt_ge (w eta : ℝ) : |w| ≤ ‖energyAt w eta‖ := by
  have := Complex.abs_re_le_norm (energyAt w eta)
  rwa [show (energyAt w eta).re = w by unfold energyAt; simp] at this

theorem width_assembled (σ : SetOrder) (hopping lattice T : ℝ)
    (hl : hopping = 0 ∨ (0 < hopping ∧ lattice = 1)) (cap : Option Int) (hcap : ∀ c, cap = some c → 1 ≤ c)
    (as : List (AddArgs ℝ)) (hne : as ≠ []) (hc : Clean realPrims hopping T as)
    (hf : ((modes T as).map (·.freq)).Nodup)
    (hb : (∀ a ∈ as, a.ctype = "BondPeierls") ∨ (∀ a ∈ as, a.ctype ≠ "BondPeierls"))
    (hpos : 0 < T → ∀ a ∈ as, 0 < a.freq) :
    ∃ m b, (Model.fromParameters hopping lattice T cap 1).adds realPrims as = .ok m ∧ buildSystem σ m = .ok b ∧
      ∀ k eta ε : ℝ, 0 < eta → ε = -(2 * hopping * Real.cos (k * lattice)) →
        ∃ G : ℝ → ℂ, (∀ w, Gives m b ⟨k, w, eta⟩ (G w)) ∧
          Tendsto (fun w => energyAt w eta ^ 3 * (G w - 1 / energyAt w eta - ε / energyAt w eta ^ 2)) (atBot ⊔ atTop)
            (𝓝 ((ε ^ 2 + variance hopping T (k * lattice) as : ℝ) : ℂ)) := by
  obtain ⟨m, b, h1, ⟨ae, h2⟩, h3⟩ := C16_assembled σ realPrims C42_names hopping lattice T cap hcap as hne hc hf hb
  have hp := physical_assembled h1 hb hl
  refine ⟨m, b, h1, h3, fun k eta ε heta hε => ?_⟩
  obtain ⟨H, -, -, h⟩ := C56_operator σ m ae h2 b h3 hp k
  have hG : ∀ w, Gives m b ⟨k, w, eta⟩ _ := fun w => ⟨(h w eta heta).2.1, (h w eta heta).2.2⟩
  refine ⟨_, hG, ?_⟩
  have hlim : LimitsAtLeast 1 m ae := limits_assembled hc h1 h2 hcap (fun a ha => by
    have := hc.valid a ha
    exact ⟨this.extent, this.number, this.extentTfd, this.numberTfd⟩)
  obtain ⟨c, hsh⟩ := hp.shifts
  have hR : ∀ n, (hops m k).Reach 1 n → Allowed m ae n := fun n hn =>
    reach_one_allowed (hops_ok hsh hp.adj) rfl hlim hn
  obtain ⟨m0, m1, m2⟩ := moments_assembled hc hf hpos h1 k
  rw [← hε] at m1 m2
  rw [← m2, tendsto_iff_norm_sub_tendsto_zero]
  set K : ℝ := ‖moment m k 3‖ + (moment m k 4).re / eta with hK
  have hK0 : Tendsto (fun w : ℝ => K / |w|) (atBot ⊔ atTop) (𝓝 0) := by
    have : Tendsto (fun w : ℝ => |w|) (atBot ⊔ atTop) atTop :=
      Tendsto.sup tendsto_abs_atBot_atTop tendsto_abs_atTop_atTop
    exact Tendsto.div_atTop tendsto_const_nhds this
  refine squeeze_zero' (Eventually.of_forall (fun _ => norm_nonneg _)) ?_ hK0
  have hne0 : ∀ᶠ w : ℝ in atBot ⊔ atTop, 0 < |w| := by
    rw [eventually_sup]
    constructor
    · filter_upwards [eventually_lt_atBot 0] with w hw
      exact abs_pos.2 hw.ne
    · filter_upwards [eventually_gt_atTop 0] with w hw
      exact abs_pos.2 hw.ne'
  filter_upwards [hne0] with w hw
  have hz : energyAt w eta ≠ 0 := fun q => by
    have := energyAt_im w eta
    rw [q, Complex.zero_im] at this
    exact heta.ne this
  have h4 := returned_moments (J := 1) hp ⟨rfl, rfl, rfl⟩ h2 hR h3 heta (returned_of_gives (hG w))
  set z := energyAt w eta with hzd
  set g := ⟪bare, resolvent H z bare⟫_ℂ
  have hzn : 0 < ‖z‖ := norm_pos_iff.2 hz
  simp only [Nat.mul_one, Nat.reduceAdd, Finset.sum_range_succ, Finset.range_zero, Finset.sum_empty, zero_add] at h4
  rw [m0, m1, pow_one] at h4
  have e : z ^ 3 * (g - 1 / z - ε / z ^ 2) - moment m k 2 =
      z ^ 3 * (g - (1 / z + ε / z ^ 2 + moment m k 2 / z ^ 3 + moment m k 3 / z ^ 4)) + moment m k 3 / z := by
    field_simp
    ring
  rw [e]
  have h5 : ‖z ^ 3 * (g - (1 / z + ε / z ^ 2 + moment m k 2 / z ^ 3 + moment m k 3 / z ^ 4))‖ ≤
      (moment m k 4).re / eta / ‖z‖ := by
    rw [norm_mul, norm_pow]
    refine (mul_le_mul_of_nonneg_left h4 (by positivity)).trans (le_of_eq ?_)
    field_simp
  have h6 : ‖moment m k 3 / z‖ = ‖moment m k 3‖ / ‖z‖ := norm_div _ _
  have hKn : 0 ≤ K := by
    have a1 : 0 ≤ (moment m k 4).re / eta / ‖z‖ := (norm_nonneg _).trans h5
    have a2 : 0 ≤ (moment m k 4).re / eta := by
      rcases le_or_gt 0 ((moment m k 4).re / eta) with q | q
      · exact q
      · exact absurd a1 (not_le.2 (div_neg_of_neg_of_pos q hzn))
    positivity
  calc _ ≤ (moment m k 4).re / eta / ‖z‖ + ‖moment m k 3‖ / ‖z‖ := (norm_add_le _ _).trans (add_le_add h5 h6.le)
    _ = K / ‖z‖ := by rw [hK]; ring
    _ ≤ K / |w| := div_le_div_of_nonneg_left hKn hw (norm_energyAt_ge w eta)

/-- **C80**. Whatever the limits, the returned numbers at high frequencies are those of a spectral function with the
textbook second moment: `z³ (G - 1/z - ε/z²)` tends to `ε²` plus the variance, `z = w + i eta`. -/
theorem C80_width (σ : SetOrder) (hopping lattice T : ℝ)
    (hl : hopping = 0 ∨ (0 < hopping ∧ lattice = 1)) (cap : Option Int) (hcap : ∀ c, cap = some c → 1 ≤ c)
    (as : List (AddArgs ℝ)) (hne : as ≠ []) (hc : Clean realPrims hopping T as)
    (hf : ((modes T as).map (·.freq)).Nodup)
    (hb : (∀ a ∈ as, a.ctype = "BondPeierls") ∨ (∀ a ∈ as, a.ctype ≠ "BondPeierls"))
    (hpos : 0 < T → ∀ a ∈ as, 0 < a.freq) (he : 0 < T → ∀ a ∈ as, a.ctype ≠ "EdwardsFermionBoson") :
    ∃ m b, (Model.fromParameters hopping lattice T cap 1).adds realPrims as = .ok m ∧ buildSystem σ m = .ok b ∧
      ∀ k eta ε : ℝ, 0 < eta → ε = -(2 * hopping * Real.cos (k * lattice)) →
        ∃ G : ℝ → ℂ, (∀ w, Gives m b ⟨k, w, eta⟩ (G w)) ∧
          Tendsto (fun w => energyAt w eta ^ 3 * (G w - 1 / energyAt w eta - ε / energyAt w eta ^ 2)) (atBot ⊔ atTop)
            (𝓝 ((ε ^ 2 + textbookVariance hopping T (k * lattice) as : ℝ) : ℂ)) := by
  obtain ⟨m, b, h1, h2, h3⟩ := width_assembled σ hopping lattice T hl cap hcap as hne hc hf hb hpos
  refine ⟨m, b, h1, h2, fun k eta ε heta hε => ?_⟩
  rw [variance_textbook as he]
  exact h3 k eta ε heta hε

/-- The hypotheses of C79 and C80 are met by a Holstein–Peierls model, whose variance is `1 + (2 + 4 sin² k)/4`, and
by a BondPeierls model at temperature 1. -/
example (σ : SetOrder) :
    (∃ m b, (Model.fromParameters (1 : ℝ) 1 0 none 1).adds realPrims exCalls = .ok m ∧ buildSystem σ m = .ok b ∧
      ∀ k eta : ℝ, 0 < eta → ∃ G : ℝ → ℂ, (∀ w, Gives m b ⟨k, w, eta⟩ (G w)) ∧
          Tendsto (fun w => energyAt w eta ^ 3 * (G w - 1 / energyAt w eta -
              (-(2 * Real.cos k) : ℝ) / energyAt w eta ^ 2)) (atBot ⊔ atTop)
            (𝓝 (((-(2 * Real.cos k)) ^ 2 + (1 + (2 + 4 * Real.sin k ^ 2) / 4) : ℝ) : ℂ))) ∧
    (∃ m, (Model.fromParameters (1 : ℝ) 1 1 none 1).adds realPrims exBondCalls = .ok m ∧
      ∀ k, moment m k 2 = (((-(2 * Real.cos k)) ^ 2 + 2 * (2 * (1 / (Real.exp 2 - 1)) + 1) : ℝ) : ℂ)) := by
  constructor
  · obtain ⟨h1, h2, h3⟩ := exCalls_clean
    obtain ⟨m, b, q1, q2, q3⟩ := C80_width σ 1 1 0 (Or.inr ⟨one_pos, rfl⟩) none (by simp) exCalls (by simp [exCalls]) h1 h2
      (Or.inr h3) (fun h => absurd h (lt_irrefl _)) (fun h => absurd h (lt_irrefl _))
    refine ⟨m, b, q1, q2, fun k eta heta => ?_⟩
    obtain ⟨G, g1, g2⟩ := q3 k eta _ heta rfl
    refine ⟨G, g1, ?_⟩
    have e : textbookVariance 1 0 (k * 1) exCalls = 1 + (2 + 4 * Real.sin k ^ 2) / 4 := by
      simp [textbookVariance, exCalls, spread, strengthSq, thermal]
      ring
    rw [e, mul_one, mul_one] at g2
    exact g2
  · obtain ⟨h1, h2, h3⟩ := exBondCalls_clean
    have hpos : (0 : ℝ) < 1 → ∀ a ∈ exBondCalls, 0 < a.freq := by
      intro _ a ha
      simp only [exBondCalls, List.mem_singleton] at ha
      rw [ha]; norm_num
    have he : (0 : ℝ) < 1 → ∀ a ∈ exBondCalls, a.ctype ≠ "EdwardsFermionBoson" := by simp [exBondCalls]
    obtain ⟨m, -, q1, -, -⟩ := C80_width σ 1 1 1 (Or.inr ⟨one_pos, rfl⟩) none (by simp) exBondCalls (by simp [exBondCalls])
      h1 h2 (Or.inl h3) hpos he
    refine ⟨m, q1, fun k => ?_⟩
    rw [(C80_textbook h1 h2 hpos he q1 k).2.2, variance_textbook _ he]
    simp [variance, exBondCalls, spread, strengthSq, thermal]

end GGCE.Props
