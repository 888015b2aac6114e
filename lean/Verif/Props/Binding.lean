import Verif.Spec.Binding
import Verif.Proofs.Krylov
import Verif.Proofs.ThirdMoment
import Verif.Props.Sumrules
import Verif.Props.Edge
import Verif.Props.SecondOrder

/-!
Property C117: the polaron is bound. Upper bounds for the lower edge of the spectral function from the moments of the
Hamiltonian without limits.
-/

set_option linter.unusedSectionVars false

namespace GGCE.Props
open Spec Arr Complex
open scoped InnerProductSpace

variable {m m' : Model ℝ} {ae : ℤ} {k : ℝ}

/-- no weight below `e`: the quadratic form of the moments -/
theorem below_moments {J : ℕ} (hp : Physical m) {σ : SetOrder} (hs : SameSystem m m') (hm' : WellFormed m' ae)
    (hR : ∀ n, (hops m k).Reach J n → Allowed m' ae n) {b : Built ℝ} (hb : buildSystem σ m' = .ok b) {F : ℝ → ℝ → ℂ}
    (hF : ∀ w eta, 0 < eta → Returned m' b ⟨k, w, eta⟩ (F w eta)) {e : ℝ} (he : EmptyBelow F e) (a : ℕ → ℝ) :
    0 ≤ ∑ i ∈ Finset.range (J + 1), ∑ j ∈ Finset.range (J + 1),
      a i * a j * ((moment m k (i + j + 1)).re - e * (moment m k (i + j)).re) := by
  obtain ⟨c, hsh⟩ := hp.shifts
  have hQ := hops_ok (k := k) hsh hp.adj
  have hp' : Physical m' := by
    refine ⟨⟨c, ?_⟩, ?_, ?_⟩
    · unfold ShiftsOk; rw [hs.ham]; exact hsh
    · rw [hs.ham]; exact hp.adj
    · rw [hs.ham, hs.lattice]; exact hp.lattice
  obtain ⟨H, h1, h2, h3⟩ := C56_returned σ m' ae hm' b hb hp' k
  have hsub := hops_sub (k := k) hm'.toListsOk (allowed_zero hm'.toShaped)
  rw [hops_same hs] at hsub
  have hop : H = (hops m k).op (Allowed m' ae) := by
    ext f n
    rw [h2, Hops.op_apply hQ hsub, ← hops_same hs, hops_act_allowed]
  obtain ⟨c', hc, hec⟩ : ∃ c', ‖H‖ ≤ c' ∧ e < c' := ⟨max ‖H‖ (e + 1), le_max_left _ _, by
    have := le_max_right ‖H‖ (e + 1); linarith⟩
  have hg : GrowsLike (algebraMap ℝ (States →L[ℂ] States) c' - H) (c' - e) bare :=
    ⟨1, zero_le_one, fun j => by rw [one_mul]; exact (emptyBelow_iff h1 h3 hF hc hec.le).1 he j⟩
  have h4 := moments_form h1 hec hg a (J + 1)
  refine h4.trans (le_of_eq ?_)
  refine Finset.sum_congr rfl (fun i hi => Finset.sum_congr rfl (fun j hj => ?_))
  have hi' := Finset.mem_range.1 hi
  have hj' := Finset.mem_range.1 hj
  have q : ∀ l ≤ 2 * J + 1, ⟪bare, (H ^ l) bare⟫_ℂ = moment m k l := by
    intro l hl
    have := Hops.moment_eq hQ hsub (v := bare) (bare_iter m k) inner_bare hR hl
    rw [← hop] at this
    rw [this, iter_powers]
    rfl
  rw [q _ (by omega), q _ (by omega)]

/-- **C117**. Fix the couplings. Whatever the limits, as long as they are all at least `J + 1`, and at any temperature:
if the spectral function has no weight below `e`, then `e` is below the energies of all states made of the first `J`
powers of the Hamiltonian without limits on the bare electron. (So the `J + 1`-step Lanczos energy is an upper bound.) -/
theorem C117_lanczos (hopping lattice T : ℝ) (hl : hopping = 0 ∨ (0 < hopping ∧ lattice = 1))
    (as : List (AddArgs ℝ)) (hne : as ≠ []) (hc : Clean realPrims hopping T as)
    (hf : ((modes T as).map (·.freq)).Nodup)
    (hb : (∀ a ∈ as, a.ctype = "BondPeierls") ∨ (∀ a ∈ as, a.ctype ≠ "BondPeierls")) :
    ∃ m : Model ℝ, (Model.fromParameters hopping lattice T none 1).adds realPrims as = .ok m ∧
      ∀ (J : ℕ) (σ : SetOrder) (cap : Option Int) (as' : List (AddArgs ℝ)),
        (∀ c, cap = some c → (J + 1 : ℤ) ≤ c) → List.Forall₂ SameCall as as' →
        (∀ a ∈ as', Valid T a ∧ CallAtLeast (J + 1) a) →
        ∃ m' b, (Model.fromParameters hopping lattice T cap 1).adds realPrims as' = .ok m' ∧
          buildSystem σ m' = .ok b ∧ ∀ (k : ℝ) (F : ℝ → ℝ → ℂ), (∀ w eta, 0 < eta → Returned m' b ⟨k, w, eta⟩ (F w eta)) →
          ∀ e, EmptyBelow F e → ∀ a : ℕ → ℝ, 0 ≤ ∑ i ∈ Finset.range (J + 1), ∑ j ∈ Finset.range (J + 1),
            a i * a j * ((moment m k (i + j + 1)).re - e * (moment m k (i + j)).re) := by
  obtain ⟨m, -, h1, -, -⟩ := assembled C42_names.known hopping lattice T none (by simp) as hne hc hf
  refine ⟨m, h1, fun J σ cap as' hcap hs hv => ?_⟩
  obtain ⟨m', b, ae, k1, k2, k3, k4, k5, k6⟩ := same_assembled σ hne hc hf hb
    (fun c h => le_trans (by omega) (hcap c h)) hs (fun a ha => (hv a ha).1) h1
  refine ⟨m', b, k1, k2, fun k F hF e he a => ?_⟩
  have hp := physical_assembled h1 hb hl
  obtain ⟨c, hsh⟩ := hp.shifts
  exact below_moments hp k4 k3 (fun n h => reach_allowed (hops_ok hsh hp.adj) (adjacent_assembled hc hf h1) k4.types
    (k5 _ hcap (fun a ha => (hv a ha).2)) h) k2 hF he a

/-! ### two states -/

theorem parts_scattered {hopping T x : ℝ} : ∀ (as : List (AddArgs ℝ)), Clean realPrims hopping T as →
    (0 < T → ∀ a ∈ as, 0 < a.freq) →
    ((parts realPrims hopping T as).map (fun d => (spread d.ctype x * d.freq - drift d.ctype hopping x) * d.g ^ 2)).sum =
      scatteredEnergy hopping T x as
  | [], _, _ => by simp [parts, scatteredEnergy]
  | a :: as, hc, hpos => by
    have ih := parts_scattered (x := x) as hc.tail (fun hT b hb => hpos hT b (List.mem_cons_of_mem _ hb))
    have hk := hc.known a List.mem_cons_self
    have ho := (hc.valid a List.mem_cons_self).strength
    have hd := hc.defined a List.mem_cons_self
    unfold scatteredEnergy at ih ⊢
    rw [parts_cons, List.map_append, List.sum_append, ih, List.map_cons, List.sum_cons]
    congr 1
    have e1 := strengthD_sq hk ho hd (Or.inl rfl)
    have e2 := strengthD_sq hk ho hd (Or.inr rfl)
    unfold partsAt
    by_cases hT : 0 < T
    · obtain ⟨t1, t2⟩ := tfd_thermal hT (hpos hT a List.mem_cons_self)
      rw [if_pos hT]
      simp only [List.map_cons, List.map_nil, List.sum_cons, List.sum_nil, add_zero, mul_pow]
      rw [e1, e2, show realPrims.tfd T a.freq = tfdR T a.freq from rfl, t1, t2]
      ring
    · rw [if_neg hT]
      simp only [List.map_cons, List.map_nil, List.sum_cons, List.sum_nil, add_zero, mul_one]
      rw [e1]
      unfold thermal
      rw [if_neg hT]
      ring

/-- C117, the third moment. -/
theorem third_assembled {hopping lattice T : ℝ} {cap : Option Int} {as : List (AddArgs ℝ)} {m : Model ℝ}
    (hc : Clean realPrims hopping T as) (hf : ((modes T as).map (·.freq)).Nodup) (hpos : 0 < T → ∀ a ∈ as, 0 < a.freq)
    (h1 : (Model.fromParameters hopping lattice T cap 1).adds realPrims as = .ok m) (k ε : ℝ)
    (hε : ε = -(2 * hopping * Real.cos (k * lattice))) :
    moment m k 3 = ((ε ^ 3 + 2 * ε * variance hopping T (k * lattice) as + scatteredEnergy hopping T (k * lattice) as : ℝ) : ℂ) := by
  obtain ⟨-, -, h2⟩ := moments_assembled hc hf hpos h1 k
  rw [fromParameters_blueprint hopping lattice T cap as hc hf] at h1
  cases h1
  rw [moment_three (fun h hh => ?_)]
  · have hkn : ∀ d ∈ parts realPrims hopping T as, Known d.ctype := by
      intro d hd
      obtain ⟨a, ha, hd⟩ := List.mem_flatMap.1 hd
      unfold partsAt at hd
      have := hc.known a ha
      split at hd <;> simp at hd
      · rcases hd with rfl | rfl <;> exact this
      · rw [hd]; exact this
    have h3 := return_blueprint (hopping := hopping) (lattice := lattice) (T := T) (cap := cap) (k := k) hkn
    rw [parts_scattered as hc hpos] at h3
    rw [h3, h2, ← hε]
    have h4 : freeE (blueprint hopping lattice T cap (parts realPrims hopping T as)) k = ε := hε.symm
    rw [h4]
    push_cast
    ring
  · obtain ⟨q, hq, hq'⟩ := List.mem_flatMap.1 (show h ∈ partTerms _ 0 from hh)
    rw [termsOf_index hq']
    have := List.snd_lt_of_mem_zipIdx hq
    show q.2 < (parts realPrims hopping T as).length
    simpa using this

theorem level_of_form {ε τ v e : ℝ} (hv : 0 < v)
    (h : ∀ x y : ℝ, 0 ≤ x * x * (ε - e) + 2 * (x * y) * (ε ^ 2 + v - e * ε) +
      y * y * (ε ^ 3 + 2 * ε * v + τ - e * (ε ^ 2 + v))) : e ≤ lowerLevel ε (τ / v) v := by
  unfold lowerLevel
  set s := √(((τ / v - ε) / 2) ^ 2 + v) with hs
  have hs2 : s ^ 2 = ((τ / v - ε) / 2) ^ 2 + v := Real.sq_sqrt (by positivity)
  have hs0 : 0 ≤ s := Real.sqrt_nonneg _
  set d := τ / v - ε with hd
  have hτ : τ = (d + ε) * v := by rw [hd]; field_simp; ring
  set l := d / 2 - s with hl
  have hl0 : l < 0 := by
    rw [hl]
    nlinarith [abs_le_of_sq_le_sq' (a := d / 2) (b := s) (by nlinarith) hs0]
  have hll : l ^ 2 = d * l + v := by rw [hl]; nlinarith
  have h1 := h (v - ε * l) l
  have h2 : 0 ≤ (ε + l - e) * (l ^ 2 + v) := by
    refine le_of_mul_le_mul_left (a := v) ?_ hv
    rw [mul_zero]
    refine h1.trans (le_of_eq ?_)
    rw [hτ]
    linear_combination (-(v * l)) * hll
  have h3 : 0 < l ^ 2 + v := by positivity
  have h4 : 0 ≤ ε + l - e := by
    by_contra hc
    rw [not_le] at hc
    nlinarith
  have : (ε + τ / v) / 2 - s = ε + l := by rw [hl, hd]; ring
  linarith

/-- no weight below `e`, for the calls of a user -/
theorem below_level (σ : SetOrder) {hopping lattice T : ℝ} (hl : hopping = 0 ∨ (0 < hopping ∧ lattice = 1))
    {cap : Option Int} (hcap : ∀ c, cap = some c → 1 ≤ c) {as : List (AddArgs ℝ)} (hne : as ≠ [])
    (hc : Clean realPrims hopping T as) (hf : ((modes T as).map (·.freq)).Nodup)
    (hb : (∀ a ∈ as, a.ctype = "BondPeierls") ∨ (∀ a ∈ as, a.ctype ≠ "BondPeierls"))
    (hpos : 0 < T → ∀ a ∈ as, 0 < a.freq) {k v ε : ℝ} (hε : ε = -(2 * hopping * Real.cos (k * lattice)))
    (hv : v = variance hopping T (k * lattice) as) (hv0 : 0 < v) :
    ∃ m b, (Model.fromParameters hopping lattice T cap 1).adds realPrims as = .ok m ∧ buildSystem σ m = .ok b ∧
      Physical m ∧ (∃ ae, WellFormed m ae) ∧
      ∀ F : ℝ → ℝ → ℂ, (∀ w eta, 0 < eta → Returned m b ⟨k, w, eta⟩ (F w eta)) → ∀ e, EmptyBelow F e →
        e ≤ lowerLevel ε (scatteredEnergy hopping T (k * lattice) as / v) v := by
  obtain ⟨m, b, h1, ⟨ae, h2⟩, h3⟩ := C16_assembled σ realPrims C42_names hopping lattice T cap hcap as hne hc hf hb
  have hp := physical_assembled h1 hb hl
  refine ⟨m, b, h1, h3, hp, ⟨ae, h2⟩, fun F hF e he => ?_⟩
  obtain ⟨c, hsh⟩ := hp.shifts
  have hB : LimitsAtLeast 1 m ae := limits_assembled hc h1 h2 hcap (fun a ha => by
    have := hc.valid a ha
    exact ⟨this.extent, this.number, this.extentTfd, this.numberTfd⟩)
  have h4 := below_moments (J := 1) (k := k) hp ⟨rfl, rfl, rfl⟩ h2
    (fun n h => reach_one_allowed (hops_ok (k := k) hsh hp.adj) rfl hB h) h3 hF he
  obtain ⟨m0, m1, m2⟩ := moments_assembled hc hf hpos h1 k
  have m3 := third_assembled hc hf hpos h1 k ε hε
  rw [← hε] at m1 m2
  rw [← hv] at m2 m3
  refine level_of_form hv0 (fun x y => ?_)
  have h5 := h4 (fun i => if i = 0 then x else y)
  simp only [Finset.sum_range_succ, Finset.sum_range_zero, zero_add, add_zero, if_true, one_ne_zero, if_false,
    m0, m1, m2, m3, Complex.one_re, Complex.ofReal_re] at h5
  linarith

theorem lowerLevel_lt {a b v : ℝ} (hv : 0 < v) : lowerLevel a b v < a ∧ lowerLevel a b v < b := by
  unfold lowerLevel
  have h : |(b - a) / 2| < √(((b - a) / 2) ^ 2 + v) := by
    rw [← Real.sqrt_sq_eq_abs]
    exact Real.sqrt_lt_sqrt (by positivity) (by linarith)
  have h1 := abs_lt.1 h
  constructor <;> linarith [h1.1, h1.2]

/-- **C117**. For every history of acceptable calls, whatever the limits and the temperature, and for both solvers, the
lower edge of the spectral function exists and is at most the lower level of the bare electron, with energy
`ε = -2 t cos(k a)`, and of the state into which it is scattered, with energy `τ / v`, coupled by `√v`. So the edge is
below the energy of the free electron unless the couplings are zero. -/
theorem C117_bound (σ : SetOrder) (hopping lattice T : ℝ) (hl : hopping = 0 ∨ (0 < hopping ∧ lattice = 1))
    (cap : Option Int) (hcap : ∀ c, cap = some c → 1 ≤ c) (as : List (AddArgs ℝ)) (hne : as ≠ [])
    (hc : Clean realPrims hopping T as) (hf : ((modes T as).map (·.freq)).Nodup)
    (hb : (∀ a ∈ as, a.ctype = "BondPeierls") ∨ (∀ a ∈ as, a.ctype ≠ "BondPeierls"))
    (hpos : 0 < T → ∀ a ∈ as, 0 < a.freq) :
    ∃ m b, (Model.fromParameters hopping lattice T cap 1).adds realPrims as = .ok m ∧ buildSystem σ m = .ok b ∧
      ∀ k v ε : ℝ, ε = -(2 * hopping * Real.cos (k * lattice)) → v = variance hopping T (k * lattice) as → 0 < v →
        ∃ F e, (∀ w eta : ℝ, 0 < eta → Gives m b ⟨k, w, eta⟩ (F w eta)) ∧ Edge F e ∧
          e ≤ lowerLevel ε (scatteredEnergy hopping T (k * lattice) as / v) v ∧ e < ε := by
  obtain ⟨m, b, h1, ⟨ae, h2⟩, h3⟩ := C16_assembled σ realPrims C42_names hopping lattice T cap hcap as hne hc hf hb
  refine ⟨m, b, h1, h3, fun k v ε hε hv hv0 => ?_⟩
  have hp := physical_assembled h1 hb hl
  obtain ⟨m', b', q1, q2, -, -, q3⟩ := below_level σ hl hcap hne hc hf hb hpos hε hv hv0
  rw [h1] at q1; cases q1
  rw [h3] at q2; cases q2
  obtain ⟨H, -, -, h⟩ := C56_operator σ m ae h2 b h3 hp k
  have hG : ∀ w eta : ℝ, 0 < eta → Gives m b ⟨k, w, eta⟩ (green H bare (energyAt w eta)) := fun w eta heta =>
    ⟨(h w eta heta).2.1, (h w eta heta).2.2⟩
  have hR : ∀ w eta : ℝ, 0 < eta → Returned m b ⟨k, w, eta⟩ (green H bare (energyAt w eta)) := fun w eta heta =>
    returned_of_gives (hG w eta heta)
  obtain ⟨e, he, -⟩ := C88_edge σ m ae h2 b h3 hp k _ hR
  have h4 := q3 _ hR e he.1
  exact ⟨_, e, hG, he, h4, h4.trans_lt (lowerLevel_lt hv0).1⟩

/-- C117, both sides: at zero temperature, with positive frequencies, the edge is between `-2 t - Σ callFloor` and the
lower level. -/
theorem C117_bracket (σ : SetOrder) (hopping lattice : ℝ) (hl : hopping = 0 ∨ (0 < hopping ∧ lattice = 1))
    (cap : Option Int) (hcap : ∀ c, cap = some c → 1 ≤ c) (as : List (AddArgs ℝ)) (hne : as ≠ [])
    (hc : Clean realPrims hopping 0 as) (hf : ((modes 0 as).map (·.freq)).Nodup)
    (hb : (∀ a ∈ as, a.ctype = "BondPeierls") ∨ (∀ a ∈ as, a.ctype ≠ "BondPeierls"))
    (hpos : ∀ a ∈ as, 0 < a.freq ∧ a.g.isSome) :
    ∃ m b, (Model.fromParameters hopping lattice 0 cap 1).adds realPrims as = .ok m ∧ buildSystem σ m = .ok b ∧
      ∀ k v ε : ℝ, ε = -(2 * hopping * Real.cos (k * lattice)) → v = variance hopping 0 (k * lattice) as → 0 < v →
        ∃ F e, (∀ w eta : ℝ, 0 < eta → Gives m b ⟨k, w, eta⟩ (F w eta)) ∧ Edge F e ∧
          -(2 * hopping) - (as.map callFloor).sum ≤ e ∧
          e ≤ lowerLevel ε (scatteredEnergy hopping 0 (k * lattice) as / v) v := by
  obtain ⟨m, b, h1, h3, h⟩ := C117_bound σ hopping lattice 0 hl cap hcap as hne hc hf hb (fun h => absurd h (lt_irrefl _))
  obtain ⟨m', b', q1, q2, q⟩ := C67_assembled σ hopping lattice hl cap hcap as hne hc hf hb hpos
  rw [h1] at q1; cases q1
  rw [h3] at q2; cases q2
  refine ⟨m, b, h1, h3, fun k v ε hε hv hv0 => ?_⟩
  obtain ⟨F, e, g1, g2, g3, -⟩ := h k v ε hε hv hv0
  refine ⟨F, e, g1, g2, g2.2 _ (fun w hw eta heta => ?_), g3⟩
  obtain ⟨G, r1, -, r2⟩ := q _ rfl k w eta heta hw
  have : F w eta = G := by
    have a1 := (g1 w eta heta).2
    have a2 := r1.2
    rw [a1] at a2
    exact Option.some.inj (Except.ok.inj a2)
  rw [this]
  exact r2

/-- C117, one Holstein coupling: the polaron energy at momentum `k` is between `-2 t - g²/Ω` and the lower level of the
matrix with diagonal `-2 t cos(k a)`, `Ω` and off-diagonal `g`. -/
theorem C117_holstein (σ : SetOrder) (hopping lattice : ℝ) (hl : hopping = 0 ∨ (0 < hopping ∧ lattice = 1))
    (cap : Option Int) (hcap : ∀ c, cap = some c → 1 ≤ c) (Omega g : ℝ) (hO : 0 < Omega) (hg : g ≠ 0) (M N : ℤ)
    (hM : 1 ≤ M) (hN : 1 ≤ N) :
    ∃ m b, (Model.fromParameters hopping lattice 0 cap 1).adds realPrims
        [{ ctype := "Holstein", freq := Omega, M := M, N := N, g := some g }] = .ok m ∧ buildSystem σ m = .ok b ∧
      ∀ k : ℝ, ∃ F e, (∀ w eta : ℝ, 0 < eta → Gives m b ⟨k, w, eta⟩ (F w eta)) ∧ Edge F e ∧
        -(2 * hopping) - g ^ 2 / Omega ≤ e ∧ e ≤ lowerLevel (-(2 * hopping * Real.cos (k * lattice))) Omega (g ^ 2) ∧
        e < -(2 * hopping * Real.cos (k * lattice)) := by
  obtain ⟨hc, hf, hb⟩ := clean_one (hopping := hopping) (Omega := Omega) (g := g) (ct := "Holstein") (Or.inl rfl) hM hN
  obtain ⟨m, b, h1, h3, h⟩ := C117_bracket σ hopping lattice hl cap hcap _ (by simp) hc hf hb (by simp [hO])
  refine ⟨m, b, h1, h3, fun k => ?_⟩
  have hg2 : 0 < g ^ 2 := by positivity
  obtain ⟨F, e, g1, g2, g3, g4⟩ := h k (g ^ 2) _ rfl (by simp [variance, spread, strengthSq, thermal]) hg2
  have e1 : scatteredEnergy hopping 0 (k * lattice)
      [{ ctype := "Holstein", freq := Omega, M := M, N := N, g := some g }] / g ^ 2 = Omega := by
    simp [scatteredEnergy, spread, strengthSq, drift, thermal]
    field_simp
  rw [e1] at g4
  refine ⟨F, e, g1, g2, ?_, g4, g4.trans_lt (lowerLevel_lt hg2).1⟩
  refine le_trans (le_of_eq ?_) g3
  simp [callFloor]

/-- C117, the reading of `drift`: it is the mean of the square of the vertex times `2 t cos(q)`, minus the energy of the
scattered electron. -/
theorem C117_drift (ctype : String) (hk : Known ctype) (g t x : ℝ) :
    1 / (2 * Real.pi) * ∫ q in (-Real.pi)..Real.pi, vertex ctype g x q ^ 2 * (2 * t * Real.cos q) =
      drift ctype t x * g ^ 2 := by
  have hpi := Real.pi_ne_zero
  have c0 : ∫ q in (-Real.pi)..Real.pi, Real.cos q = 0 := by rw [integral_cos]; simp
  have c2 : ∫ q in (-Real.pi)..Real.pi, Real.cos q ^ 2 = Real.pi := by rw [integral_cos_sq]; simp
  have sc : ∫ q in (-Real.pi)..Real.pi, Real.sin q * Real.cos q = 0 := by
    rw [integral_sin_mul_cos₁]; simp
  have s2c : ∫ q in (-Real.pi)..Real.pi, Real.sin q ^ 2 * Real.cos q = 0 := by
    rw [integral_sin_sq_mul_cos]; simp
  have c3 : ∫ q in (-Real.pi)..Real.pi, Real.cos q ^ 3 = 0 := by
    rw [integral_cos_pow_three]; simp
  rcases hk with rfl | rfl | rfl | rfl
  · have e : ∀ q, vertex "Holstein" g x q ^ 2 * (2 * t * Real.cos q) = 2 * t * g ^ 2 * Real.cos q := fun q => by
      simp [vertex]; ring
    simp only [e, intervalIntegral.integral_const_mul, c0]
    simp [drift]
  · have e : ∀ q, vertex "EdwardsFermionBoson" g x q ^ 2 * (2 * t * Real.cos q) = 8 * t * g ^ 2 * Real.cos q ^ 3 := fun q => by
      simp [vertex]; ring
    simp only [e, intervalIntegral.integral_const_mul, c3]
    simp [drift]
  · have e : ∀ q, vertex "BondPeierls" g x q ^ 2 * (2 * t * Real.cos q) =
        4 * t * g ^ 2 * Real.cos q + (4 * t * g ^ 2 * Real.cos x * Real.cos q ^ 2 -
          4 * t * g ^ 2 * Real.sin x * (Real.sin q * Real.cos q)) := fun q => by
      have h := Real.cos_sq ((x + q) / 2)
      rw [show 2 * ((x + q) / 2) = x + q by ring, Real.cos_add] at h
      simp [vertex]
      rw [mul_pow, h]
      ring
    simp only [e]
    rw [intervalIntegral.integral_add (Continuous.intervalIntegrable (by fun_prop) _ _)
        (Continuous.intervalIntegrable (by fun_prop) _ _),
      intervalIntegral.integral_sub (Continuous.intervalIntegrable (by fun_prop) _ _)
        (Continuous.intervalIntegrable (by fun_prop) _ _), intervalIntegral.integral_const_mul, intervalIntegral.integral_const_mul,
      intervalIntegral.integral_const_mul, c0, c2, sc]
    simp [drift]
    field_simp
    ring
  · have e : ∀ q, vertex "Peierls" g x q ^ 2 * (2 * t * Real.cos q) =
        8 * t * g ^ 2 * Real.sin x ^ 2 * Real.cos q + (8 * t * g ^ 2 * (Real.sin q ^ 2 * Real.cos q) -
          16 * t * g ^ 2 * Real.sin x * (Real.sin q * Real.cos q)) := fun q => by
      simp [vertex]
      ring
    simp only [e]
    rw [intervalIntegral.integral_add (Continuous.intervalIntegrable (by fun_prop) _ _)
        (Continuous.intervalIntegrable (by fun_prop) _ _),
      intervalIntegral.integral_sub (Continuous.intervalIntegrable (by fun_prop) _ _)
        (Continuous.intervalIntegrable (by fun_prop) _ _), intervalIntegral.integral_const_mul, intervalIntegral.integral_const_mul,
      intervalIntegral.integral_const_mul, c0, s2c, sc]
    simp [drift]

/-! ### the bound is attained -/

theorem level_im (w eta x : ℝ) : (1 / (energyAt w eta - x)).im = -(eta / ((x - w) ^ 2 + eta ^ 2)) := by
  rw [one_div, Complex.inv_im, Complex.normSq_apply, Complex.sub_im, Complex.sub_re, energyAt_im, Complex.ofReal_re,
    Complex.ofReal_im, show (energyAt w eta).re = w by unfold energyAt; simp, sub_zero, neg_div]
  congr 2
  ring

/-- two levels -/
theorem two_levels {A B x y : ℝ} (hB : 0 ≤ B) (hAB : A + B = 1) (hxy : x ≤ y) :
    EmptyBelow (fun w eta => A * (1 / (energyAt w eta - x)) + B * (1 / (energyAt w eta - y))) x := by
  intro w hw eta heta
  have hpi := Real.pi_pos
  have h1 : 0 < (x - w) ^ 2 + eta ^ 2 := by positivity
  have h2 : eta / ((y - w) ^ 2 + eta ^ 2) ≤ eta / ((x - w) ^ 2 + eta ^ 2) :=
    div_le_div_of_nonneg_left heta.le h1 (by nlinarith)
  rw [Complex.add_im, Complex.im_ofReal_mul, Complex.im_ofReal_mul, level_im, level_im,
    show eta / (Real.pi * ((x - w) ^ 2 + eta ^ 2)) = eta / ((x - w) ^ 2 + eta ^ 2) / Real.pi by field_simp]
  refine div_le_div_of_nonneg_right ?_ hpi.le
  have h3 := mul_le_mul_of_nonneg_left h2 hB
  have h4 : A = 1 - B := by linarith
  rw [h4]
  linarith

/-- C117 is sharp: without hopping and with at most one phonon the edge is the lower level, for every coupling type. -/
theorem C117_sharp (σ : SetOrder) (lattice : ℝ) (cap : Option Int) (hcap : ∀ c, cap = some c → 1 ≤ c) (ct : String)
    (hct : ct = "Holstein" ∨ ct = "EdwardsFermionBoson" ∨ ct = "Peierls" ∨ ct = "BondPeierls") (Omega g : ℝ)
    (hg : g ≠ 0) (M : ℤ) (hM : 1 ≤ M) :
    ∃ m b, (Model.fromParameters 0 lattice 0 cap 1).adds realPrims
        [{ ctype := ct, freq := Omega, M := M, N := 1, g := some g }] = .ok m ∧ buildSystem σ m = .ok b ∧
      ∀ k : ℝ, ∃ F, (∀ w eta : ℝ, 0 < eta → Gives m b ⟨k, w, eta⟩ (F w eta)) ∧ Edge F (lowerLevel 0 Omega (spread ct (k * lattice) * g ^ 2)) := by
  obtain ⟨hc, hf, hb⟩ := clean_one (hopping := (0 : ℝ)) (Omega := Omega) (g := g) (ct := ct) hct hM le_rfl
  obtain ⟨m, b, h1, h3, h⟩ := C117_bound σ 0 lattice 0 (Or.inl rfl) cap hcap _ (by simp) hc hf hb
    (fun h => absurd h (lt_irrefl _))
  obtain ⟨m', b', q1, q2, q⟩ := C72_second_order σ 0 lattice (Or.inl rfl) cap hcap ct hct Omega g M hM
  rw [h1] at q1; cases q1
  rw [h3] at q2; cases q2
  refine ⟨m, b, h1, h3, fun k => ?_⟩
  have hk : Known ct := by rcases hct with rfl | rfl | rfl | rfl <;> simp [Known]
  set S := spread ct (k * lattice) * g ^ 2 with hSd
  have hsp : 0 < spread ct (k * lattice) := by unfold spread; split_ifs <;> positivity
  have hg2 : 0 < S := by positivity
  have hv : S = variance 0 0 (k * lattice) [{ ctype := ct, freq := Omega, M := M, N := 1, g := some g }] := by
    simp [variance, strengthSq, thermal, hSd]
  obtain ⟨F, e, g1, g2, g3, -⟩ := h k S 0 (by simp) hv hg2
  have e1 : scatteredEnergy 0 0 (k * lattice) [{ ctype := ct, freq := Omega, M := M, N := 1, g := some g }] / S = Omega := by
    have : drift ct 0 (k * lattice) = 0 := by unfold drift; simp
    rw [div_eq_iff hg2.ne', hSd]
    simp [scatteredEnergy, strengthSq, this]
    ring
  rw [e1] at g3
  set s := √((Omega / 2) ^ 2 + S) with hs
  have hs2 : s ^ 2 = (Omega / 2) ^ 2 + S := Real.sq_sqrt (by positivity)
  have hs0 : 0 < s := Real.sqrt_pos.2 (by positivity)
  have hL : lowerLevel 0 Omega S = Omega / 2 - s := by
    unfold lowerLevel; rw [hs, zero_add, sub_zero]
  have habs : |Omega / 2| ≤ s := by
    rw [hs, ← Real.sqrt_sq_eq_abs]
    exact Real.sqrt_le_sqrt (by linarith)
  set A : ℝ := (s + Omega / 2) / (2 * s) with hA
  set B : ℝ := (s - Omega / 2) / (2 * s) with hBd
  have hB : 0 ≤ B := div_nonneg (by linarith [(abs_le.1 habs).2]) (by linarith)
  have hAB : A + B = 1 := by rw [hA, hBd]; field_simp; ring
  have hF : ∀ w eta : ℝ, 0 < eta → F w eta =
      A * (1 / (energyAt w eta - (Omega / 2 - s : ℝ))) + B * (1 / (energyAt w eta - (Omega / 2 + s : ℝ))) := by
    intro w eta heta
    have a1 := (g1 w eta heta).2
    have a2 := (q k w eta heta).2
    rw [a1] at a2
    rw [Option.some.inj (Except.ok.inj a2), ← energyAt_eq]
    set z := energyAt w eta with hz
    have him : z.im = eta := by rw [hz, energyAt_im]
    have hne : ∀ x : ℝ, z - x ≠ 0 := fun x h0 => by
      have := congrArg Complex.im h0
      rw [Complex.sub_im, him, Complex.ofReal_im, sub_zero, Complex.zero_im] at this
      exact heta.ne' this
    have e2 : secondOrderSelf ct g 0 Omega (k * lattice) z = (S : ℂ) / (z - Omega) := by
      unfold secondOrderSelf
      have : ∀ x : ℝ, ((vertex ct g (k * lattice) x ^ 2 : ℝ) : ℂ) / (z - Omega + 2 * (0 : ℝ) * Real.cos x) =
          ((vertex ct g (k * lattice) x ^ 2 : ℝ) : ℂ) / (z - Omega) := fun x => by simp
      simp only [this]
      rw [intervalIntegral.integral_div, intervalIntegral.integral_ofReal, hSd, ← mean_vertex ct hk g (k * lattice)]
      push_cast
      ring
    unfold secondOrder
    rw [e2]
    have h5 := hne Omega
    have h6 := hne (Omega / 2 - s)
    have h7 := hne (Omega / 2 + s)
    have hsC : (s : ℂ) ≠ 0 := by exact_mod_cast hs0.ne'
    have hsC2 : (s : ℂ) ^ 2 = ((Omega : ℂ) / 2) ^ 2 + (S : ℂ) := by exact_mod_cast hs2
    have h8 : z * (z - Omega) - (S : ℂ) = (z - (Omega / 2 - s : ℝ)) * (z - (Omega / 2 + s : ℝ)) := by
      push_cast
      linear_combination hsC2
    have h9 : z + 2 * (0 : ℝ) * Real.cos (k * lattice) - (S : ℂ) / (z - Omega) =
        (z - (Omega / 2 - s : ℝ)) * (z - (Omega / 2 + s : ℝ)) / (z - Omega) := by
      rw [← h8]
      push_cast
      field_simp
      ring
    have h10 : z - Omega = A * (z - (Omega / 2 + s : ℝ)) + B * (z - (Omega / 2 - s : ℝ)) := by
      rw [hA, hBd]
      push_cast
      field_simp
      ring
    rw [h9, one_div_div, h10]
    generalize z - ((Omega / 2 - s : ℝ) : ℂ) = X at h6 ⊢
    generalize z - ((Omega / 2 + s : ℝ) : ℂ) = Y at h7 ⊢
    field_simp
  rw [hL]
  rw [hL] at g3
  have hE : EmptyBelow F (Omega / 2 - s) := by
    intro w hw eta heta
    rw [hF w eta heta]
    exact two_levels hB hAB (by linarith) w hw eta heta
  have : e = Omega / 2 - s := le_antisymm g3 (g2.2 _ hE)
  exact ⟨F, g1, this ▸ g2⟩

/-! ### concrete cases -/

/-- The hypotheses are met by a Holstein–Peierls model at zero temperature: at zero momentum the edge is below `-2.3` and
not below `-6.5`. -/
example (σ : SetOrder) : ∃ m b, (Model.fromParameters (1 : ℝ) 1 0 none 1).adds realPrims exCalls = .ok m ∧
    buildSystem σ m = .ok b ∧ ∃ F e, (∀ w eta : ℝ, 0 < eta → Gives m b ⟨0, w, eta⟩ (F w eta)) ∧ Edge F e ∧
      -13 / 2 ≤ e ∧ e < -23 / 10 := by
  obtain ⟨h1, h2, h3⟩ := exCalls_clean
  obtain ⟨m, b, q1, q2, q3⟩ := C117_bracket σ 1 1 (Or.inr ⟨one_pos, rfl⟩) none (by simp) exCalls (by simp [exCalls]) h1 h2
    (Or.inr h3) (by simp [exCalls])
  have hv : variance 1 0 (0 * 1) exCalls = 3 / 2 := by
    simp [variance, exCalls, spread, strengthSq, thermal]; norm_num
  have hs : scatteredEnergy 1 0 (0 * 1) exCalls = 5 / 2 := by
    simp [scatteredEnergy, exCalls, spread, strengthSq, thermal, drift]; norm_num
  obtain ⟨F, e, r1, r2, r3, r4⟩ := q3 0 (3 / 2) (-2) (by simp) hv.symm (by norm_num)
  refine ⟨m, b, q1, q2, F, e, r1, r2, ?_, ?_⟩
  · refine le_trans (le_of_eq ?_) r3
    simp [exCalls, callFloor]; norm_num
  · refine r4.trans_lt ?_
    rw [hs]
    unfold lowerLevel
    have : (22 / 10 : ℝ) < √(((5 / 2 / (3 / 2) - -2) / 2) ^ 2 + 3 / 2) := by
      apply Real.lt_sqrt_of_sq_lt
      norm_num
    linarith

/-- Those of `C117_bound` are met by a BondPeierls model at `T = 1`. -/
example (σ : SetOrder) : ∃ m b, (Model.fromParameters (1 : ℝ) 1 1 none 1).adds realPrims exBondCalls = .ok m ∧
    buildSystem σ m = .ok b ∧ ∀ k : ℝ, ∃ F e, (∀ w eta : ℝ, 0 < eta → Gives m b ⟨k, w, eta⟩ (F w eta)) ∧ Edge F e ∧
      e < -(2 * 1 * Real.cos (k * 1)) := by
  obtain ⟨h1, h2, h3⟩ := exBondCalls_clean
  obtain ⟨m, b, q1, q2, q3⟩ := C117_bound σ 1 1 1 (Or.inr ⟨one_pos, rfl⟩) none (by simp) exBondCalls (by simp [exBondCalls])
    h1 h2 (Or.inl h3) (by simp [exBondCalls])
  refine ⟨m, b, q1, q2, fun k => ?_⟩
  obtain ⟨F, e, r1, r2, -, r3⟩ := q3 k _ _ rfl rfl (by
    have : 0 ≤ thermal 1 (2 : ℝ) := by
      unfold thermal
      rw [if_pos one_pos]
      have : (1 : ℝ) ≤ Real.exp (2 / 1) := Real.one_le_exp (by norm_num)
      positivity
    simp [variance, exBondCalls, spread, strengthSq]
    linarith)
  exact ⟨F, e, r1, r2, r3⟩

/-- Those of `C117_lanczos` are met by the Holstein–Peierls model and its own limits with `J = 1`. -/
example (σ : SetOrder) : ∃ m b m0, (Model.fromParameters (1 : ℝ) 1 0 none 1).adds realPrims exCalls = .ok m ∧
    buildSystem σ m = .ok b ∧ ∀ (k : ℝ) (F : ℝ → ℝ → ℂ), (∀ w eta, 0 < eta → Returned m b ⟨k, w, eta⟩ (F w eta)) →
      ∀ e, EmptyBelow F e → ∀ a : ℕ → ℝ, 0 ≤ ∑ i ∈ Finset.range 2, ∑ j ∈ Finset.range 2,
        a i * a j * ((moment m0 k (i + j + 1)).re - e * (moment m0 k (i + j)).re) := by
  obtain ⟨h1, h2, h3⟩ := exCalls_clean
  obtain ⟨m0, -, q⟩ := C117_lanczos 1 1 0 (Or.inr ⟨one_pos, rfl⟩) exCalls (by simp [exCalls]) h1 h2 (Or.inr h3)
  obtain ⟨m, b, q1, q2, q3⟩ := q 1 σ none exCalls (by simp) (List.forall₂_same.2 (fun _ _ => ⟨rfl, rfl, rfl, rfl, rfl⟩))
    (fun a ha => ⟨h1.valid a ha, by
      simp only [exCalls, List.mem_cons, List.not_mem_nil, or_false] at ha
      rcases ha with rfl | rfl <;> constructor <;> simp⟩)
  exact ⟨m, b, m0, q1, q2, q3⟩

end GGCE.Props
