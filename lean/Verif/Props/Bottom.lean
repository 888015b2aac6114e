import Verif.Spec.Bottom
import Verif.Proofs.Bottom
import Verif.Props.Measure
import Verif.Props.Edge

/-!
Property C122: the computed polaron energy is an upper bound of the exact one, and converges to it as the limits grow.
-/

set_option linter.unusedSectionVars false

namespace GGCE.Props
open Spec Arr Complex Filter Topology MeasureTheory
open scoped InnerProductSpace Nat

/-- the spectral measure of a finite system: its moments are those of the operator, and it has no mass below `e` exactly
if the spectral function has no weight there -/
theorem finite_measure {σ : SetOrder} {m : Model ℝ} {ae : Int} (hm : WellFormed m ae) {b : Built ℝ}
    (hb : buildSystem σ m = .ok b) (hp : Physical m) (k : ℝ) :
    ∃ ρ : ProbabilityMeasure ℝ, (∀ j : ℕ, Integrable (fun x : ℝ => x ^ j) (ρ : Measure ℝ) ∧
        ((∫ x, x ^ j ∂(ρ : Measure ℝ) : ℝ) : ℂ) = ⟪bare, (hamOp m ae k ^ j) bare⟫_ℂ) ∧
      (∀ᵐ x ∂(ρ : Measure ℝ), |x| ≤ ‖hamOp m ae k‖) ∧
      (∀ w eta : ℝ, 0 < eta → Gives m b ⟨k, w, eta⟩ (stieltjes ρ (energyAt w eta))) ∧
      ∀ (F : ℝ → ℝ → ℂ), (∀ w eta, 0 < eta → Returned m b ⟨k, w, eta⟩ (F w eta)) → ∀ e : ℝ,
        EmptyBelow F e ↔ (ρ : Measure ℝ) (Set.Iio e) = 0 := by
  obtain ⟨H, h1, h2, h3⟩ := C56_returned σ m ae hm b hb hp k
  obtain ⟨H', q1, q2, q3⟩ := C56_operator σ m ae hm b hb hp k
  have hH := operator_eq hm.toListsOk h2
  have hH' := operator_eq hm.toListsOk q2
  subst hH
  subst hH'
  obtain ⟨ρ, p1, p2, p3⟩ := spectral_measure h1 norm_bare
  have hsup := support_norm h1 norm_bare p2
  refine ⟨⟨ρ, p1⟩, p2, hsup, fun w eta heta => ?_, fun F hF e => ?_⟩
  · have := p3 (energyAt w eta) (by rw [energyAt_im]; exact heta.ne')
    unfold stieltjes
    show Gives m b ⟨k, w, eta⟩ (∫ x, 1 / (energyAt w eta - x) ∂ρ)
    rw [this]
    exact ⟨(q3 w eta heta).2.1, (q3 w eta heta).2.2⟩
  · rw [emptyBelow_iff h1 h3 hF (le_max_left _ e) (le_max_right _ _)]
    exact powers_iff_mass h1 norm_bare p2 (le_max_left _ e) (le_max_right _ _)

/-- the exponential averages of the stronger model bound the masses of the weaker one -/
theorem mass_stronger {m m' : Model ℝ} {ae ae' : Int} (hm : WellFormed m ae) (hm' : WellFormed m' ae')
    (hst : Stronger m m' ae ae') (hone : OneSign m') {k : ℝ} {ρ ρ' : ProbabilityMeasure ℝ}
    (hρ : ∀ j : ℕ, Integrable (fun x : ℝ => x ^ j) (ρ : Measure ℝ) ∧
        ((∫ x, x ^ j ∂(ρ : Measure ℝ) : ℝ) : ℂ) = ⟪bare, (hamOp m ae k ^ j) bare⟫_ℂ)
    (hρ' : ∀ j : ℕ, Integrable (fun x : ℝ => x ^ j) (ρ' : Measure ℝ) ∧
        ((∫ x, x ^ j ∂(ρ' : Measure ℝ) : ℝ) : ℂ) = ⟪bare, (hamOp m' ae' 0 ^ j) bare⟫_ℂ)
    (hn : ∀ᵐ x ∂(ρ : Measure ℝ), |x| ≤ ‖hamOp m ae k‖) (hn' : ∀ᵐ x ∂(ρ' : Measure ℝ), |x| ≤ ‖hamOp m' ae' 0‖)
    {s : ℝ} (hs : 0 < s) (x₀ : ℝ) :
    (ρ : Measure ℝ).real (Set.Iic x₀) * Real.exp (-(s * x₀)) ≤ ∫ x, Real.exp (-(s * x)) ∂(ρ' : Measure ℝ) := by
  obtain ⟨c, c1, c2, c3, c4, c5⟩ : ∃ c, ‖hamOp m ae k‖ ≤ c ∧ ‖hamOp m' ae' 0‖ ≤ c ∧ x₀ ≤ c ∧ energyBound m ≤ c ∧
      energyBound m' ≤ c :=
    ⟨max ‖hamOp m ae k‖ (max ‖hamOp m' ae' 0‖ (max x₀ (max (energyBound m) (energyBound m')))), by simp⟩
  obtain ⟨ε, hε⟩ := hone.signs
  refine mass_le (c := c) ?_ ?_ (fun j => (shifted_average hρ c j).1) (fun j => (shifted_average hρ' c j).1) (fun j => ?_)
    hs c3 ?_
  · filter_upwards [hn] with x hx
    exact ((abs_le.1 hx).2).trans c1
  · filter_upwards [hn'] with x hx
    exact ((abs_le.1 hx).2).trans c2
  · have e1 := congrArg Complex.re (shifted_average hρ c j).2
    have e2 := congrArg Complex.re (shifted_average hρ' c j).2
    rw [Complex.ofReal_re, inner_bare] at e1 e2
    rw [e1, e2]
    obtain ⟨r, r1, r2⟩ := (dominated_powers (k := k) hm hm' hst hε c4 c5 j).2 0
    refine (Complex.re_le_norm _).trans (r1.trans (le_of_eq ?_))
    simp only [occSign_zero] at r2
    refine Eq.trans ?_ (congrArg Complex.re r2).symm
    simp
  · refine (integrable_const (Real.exp (s * ‖hamOp m' ae' 0‖))).mono' (by fun_prop) ?_
    filter_upwards [hn'] with x hx
    rw [Real.norm_eq_abs, abs_of_pos (Real.exp_pos _)]
    refine Real.exp_le_exp.2 ?_
    rw [← mul_neg]
    exact mul_le_mul_of_nonneg_left (by linarith [(abs_le.1 hx).1]) hs.le

/-- no mass below `e` in the limit of stronger models leaves no mass there in the weaker one -/
theorem mass_zero {ρ₁ : Measure ℝ} [IsProbabilityMeasure ρ₁] {μ : ℕ → ProbabilityMeasure ℝ} {ρ : ProbabilityMeasure ℝ}
    {U : Filter ℕ} [U.NeBot] (h : Tendsto μ U (𝓝 ρ)) {e₀ e : ℝ} (he : ∀ n, (μ n : Measure ℝ) (Set.Iio e₀) = 0)
    (hρ : (ρ : Measure ℝ) (Set.Iio e) = 0)
    (hC : ∀ᶠ n in U, ∀ s : ℝ, 0 < s → ∀ x₀ : ℝ,
      ρ₁.real (Set.Iic x₀) * Real.exp (-(s * x₀)) ≤ ∫ x, Real.exp (-(s * x)) ∂(μ n : Measure ℝ)) : ρ₁ (Set.Iio e) = 0 := by
  have key : ∀ x₀ < e, ρ₁ (Set.Iic x₀) = 0 := by
    intro x₀ hx
    have h1 : ∀ n : ℕ, ρ₁.real (Set.Iic x₀) ≤ (Real.exp (-(e - x₀))) ^ (n + 1) := by
      intro n
      have hs : (0 : ℝ) < (n + 1 : ℕ) := by positivity
      have := exp_limit h (s := (n + 1 : ℕ)) hs he hρ (hC.mono (fun i hi => hi _ hs x₀))
      rw [← Real.exp_nat_mul]
      refine le_of_mul_le_mul_right (this.trans (le_of_eq ?_)) (Real.exp_pos (-(((n + 1 : ℕ) : ℝ) * x₀)))
      rw [← Real.exp_add]
      congr 1
      ring
    have h2 : Tendsto (fun n : ℕ => (Real.exp (-(e - x₀))) ^ (n + 1)) atTop (𝓝 0) :=
      (tendsto_pow_atTop_nhds_zero_of_lt_one (Real.exp_pos _).le (by rw [Real.exp_lt_one_iff]; linarith)).comp
        (tendsto_add_atTop_nat 1)
    have h3 := ge_of_tendsto' h2 h1
    exact (measureReal_eq_zero_iff).1 (le_antisymm h3 measureReal_nonneg)
  refine measure_mono_null (t := ⋃ n : ℕ, Set.Iic (e - 1 / ((n : ℝ) + 1))) (fun x hx => ?_)
    (measure_iUnion_null (fun n => key _ (by have : 0 < 1 / ((n : ℝ) + 1) := by positivity
                                             linarith)))
  obtain ⟨n, hn⟩ := exists_nat_one_div_lt (sub_pos.2 (show x < e from hx))
  exact Set.mem_iUnion.2 ⟨n, by show x ≤ _; linarith⟩

/-- larger limits make a stronger model -/
theorem limits_stronger {hopping lattice : ℝ} (ht : 0 ≤ hopping) {as₁ as₂ : List (AddArgs ℝ)} {cap₁ cap₂ : Option Int}
    (hlo : Looser cap₁ cap₂) (hsur : List.Forall₂ Surpassed as₁ as₂)
    (hc₁ : Clean realPrims hopping 0 as₁) (hc₂ : Clean realPrims hopping 0 as₂)
    (hf₁ : ((modes 0 as₁).map (·.freq)).Nodup) (hf₂ : ((modes 0 as₂).map (·.freq)).Nodup) {m₁ m₂ : Model ℝ} {ae₁ ae₂ : ℤ}
    (h₁ : (Model.fromParameters hopping lattice 0 cap₁ 1).adds realPrims as₁ = .ok m₁)
    (h₂ : (Model.fromParameters hopping lattice 0 cap₂ 1).adds realPrims as₂ = .ok m₂)
    (w₁ : WellFormed m₁ ae₁) (w₂ : WellFormed m₂ ae₂) : Stronger m₁ m₂ ae₁ ae₂ := by
  rw [fromParameters_blueprint hopping lattice 0 cap₁ as₁ hc₁ hf₁] at h₁
  rw [fromParameters_blueprint hopping lattice 0 cap₂ as₂ hc₂ hf₂] at h₂
  cases h₁
  cases h₂
  have := blueprint_stronger (es := []) (lattice := lattice) (lattice' := lattice) (T := 0) (T' := 0)
    (abs_of_nonneg ht).le hlo
    (dom_parts hsur (fun a ha => (hc₁.valid a ha).strength) (fun a ha => (hc₂.valid a ha).strength))
    w₁.absExtent (by rw [List.append_nil]; exact w₂.absExtent)
  rwa [List.append_nil] at this

section
variable {hopping lattice : ℝ} {as : List (AddArgs ℝ)} {m : Model ℝ}

theorem callAtLeast_withLimits (j : ℤ) (a : AddArgs ℝ) : CallAtLeast j (withLimits j a) :=
  ⟨le_rfl, le_rfl, fun _ h => (map_const h).ge, fun _ h => (map_const h).ge⟩

theorem same_withLimits (j : ℤ) (as : List (AddArgs ℝ)) : List.Forall₂ SameCall as (as.map (withLimits j)) :=
  List.forall₂_map_right_iff.2 (List.forall₂_same.2 (fun _ _ => ⟨rfl, rfl, rfl, rfl, rfl⟩))

/-- models with growing limits; their spectral measures converge to that of the Hamiltonian without limits -/
theorem limit_sequence (σ : SetOrder) (hl : hopping = 0 ∨ (0 < hopping ∧ lattice = 1)) (hne : as ≠ [])
    (hc : Clean realPrims hopping 0 as) (hf : ((modes 0 as).map (·.freq)).Nodup)
    (hb : (∀ a ∈ as, a.ctype = "BondPeierls") ∨ (∀ a ∈ as, a.ctype ≠ "BondPeierls"))
    (hpos : ∀ a ∈ as, 0 < a.freq ∧ a.g.isSome)
    (h1 : (Model.fromParameters hopping lattice 0 none 1).adds realPrims as = .ok m)
    (cap : ℕ → Option Int) (hcap : ∀ n c, cap n = some c → (n + 1 : ℤ) ≤ c) (k : ℝ) :
    ∃ (M : ℕ → Model ℝ) (b : ℕ → Built ℝ) (ae : ℕ → ℤ) (μ : ℕ → ProbabilityMeasure ℝ) (ρ : ProbabilityMeasure ℝ)
      (U : Ultrafilter ℕ),
      (∀ n, (Model.fromParameters hopping lattice 0 (cap n) 1).adds realPrims (as.map (withLimits (n + 1 : ℕ))) = .ok (M n) ∧
        buildSystem σ (M n) = .ok (b n) ∧ WellFormed (M n) (ae n) ∧ Physical (M n)) ∧
      (∀ n, ∀ j : ℕ, Integrable (fun x : ℝ => x ^ j) (μ n : Measure ℝ) ∧
        ((∫ x, x ^ j ∂(μ n : Measure ℝ) : ℝ) : ℂ) = ⟪bare, (hamOp (M n) (ae n) k ^ j) bare⟫_ℂ) ∧
      (∀ n, ∀ᵐ x ∂(μ n : Measure ℝ), |x| ≤ ‖hamOp (M n) (ae n) k‖) ∧
      (∀ n, ∀ w eta : ℝ, 0 < eta → Gives (M n) (b n) ⟨k, w, eta⟩ (stieltjes (μ n) (energyAt w eta))) ∧
      (∀ n, ∀ e : ℝ, EmptyBelow (fun w eta => stieltjes (μ n) (energyAt w eta)) e ↔ (μ n : Measure ℝ) (Set.Iio e) = 0) ∧
      (∀ n, (μ n : Measure ℝ) (Set.Iio (-(2 * hopping) - (as.map callFloor).sum)) = 0) ∧
      (U : Filter ℕ) ≤ atTop ∧ Tendsto μ U (𝓝 ρ) ∧ HasMoments (ρ : Measure ℝ) (moment m k) := by
  have hcap' : ∀ n c, cap n = some c → 1 ≤ c := fun n c h => by have := hcap n c h; omega
  have hv : ∀ n : ℕ, ∀ a ∈ as.map (withLimits (n + 1 : ℕ)), Valid 0 a := fun n => valid_withLimits hc (by omega)
  have hp := physical_assembled h1 hb hl
  choose M b ae k1 k2 k3 k4 k5 k6 using fun n : ℕ => same_assembled σ hne hc hf hb (cap := cap n) (hcap' n)
    (same_withLimits (n + 1 : ℕ) as) (hv n) h1
  have hpn : ∀ n, Physical (M n) := fun n => physical_assembled (k1 n) (k6 n) hl
  choose μ q1 q2 q3 q4 using fun n : ℕ => finite_measure (k3 n) (k2 n) (hpn n) k
  have q5 : ∀ n, ∀ e : ℝ, EmptyBelow (fun w eta => stieltjes (μ n) (energyAt w eta)) e ↔ (μ n : Measure ℝ) (Set.Iio e) = 0 :=
    fun n => q4 n _ (fun w eta heta => returned_of_gives (q3 n w eta heta))
  obtain ⟨c, hsh⟩ := hp.shifts
  have hQ := hops_ok (k := k) hsh hp.adj
  have hmom : ∀ n j : ℕ, j ≤ 2 * n + 1 → ((∫ x, x ^ j ∂(μ n : Measure ℝ) : ℝ) : ℂ) = moment m k j := by
    intro n j hj
    have hsub := hops_sub (k := k) (k3 n).toListsOk (allowed_zero (k3 n).toShaped)
    rw [hops_same (k4 n)] at hsub
    have hop : hamOp (M n) (ae n) k = (hops m k).op (Allowed (M n) (ae n)) := by
      ext f i
      rw [hamOp_apply (k3 n).toListsOk, Hops.op_apply hQ hsub, ← hops_same (k4 n), hops_act_allowed]
    rw [(q1 n j).2, hop, Hops.moment_eq hQ hsub (bare_iter m k) inner_bare
      (fun i h => reach_allowed hQ (adjacent_assembled hc hf h1) (k4 n).types
        (k5 n (n + 1 : ℤ) (hcap n) (fun a ha => by
          obtain ⟨x, -, rfl⟩ := List.mem_map.1 ha
          exact_mod_cast callAtLeast_withLimits (n + 1 : ℕ) x)) h) hj, iter_powers]
    rfl
  have hev : ∀ j : ℕ, ∀ᶠ n in atTop, ∫ x, x ^ j ∂(μ n : Measure ℝ) = (moment m k j).re := by
    intro j
    filter_upwards [eventually_ge_atTop j] with n hn
    rw [← hmom n j (by omega), Complex.ofReal_re]
  obtain ⟨ρ, U, hU, hT, hρ⟩ := moments_limit (μ := μ) (fun n j => (q1 n j).1) hev
  refine ⟨M, b, ae, μ, ρ, U, fun n => ⟨k1 n, k2 n, k3 n, hpn n⟩, q1, q2, q3, q5, fun n => ?_, hU, hT, fun j => ⟨(hρ j).1, ?_⟩⟩
  · rw [← q5]
    intro w hw eta heta
    have hcn := clean_same hc (same_withLimits (n + 1 : ℕ) as) (hv n)
    have hfn : ((modes 0 (as.map (withLimits (n + 1 : ℕ)))).map (·.freq)).Nodup := by
      rw [modes_of_clean hcn, freqs_same (same_withLimits (n + 1 : ℕ) as), ← modes_of_clean hc]; exact hf
    obtain ⟨m₂, b₂, r1, r2, r3⟩ := C67_assembled σ hopping lattice hl (cap n) (hcap' n) _ (by simpa using hne) hcn hfn (k6 n)
      (fun a ha => by obtain ⟨x, hx, rfl⟩ := List.mem_map.1 ha; exact hpos x hx)
    rw [k1 n] at r1
    cases r1
    rw [k2 n] at r2
    cases r2
    obtain ⟨G, g1, -, g2⟩ := r3 _ rfl k w eta heta (by rw [List.map_map]; exact hw)
    have e := g1.2.symm.trans (q3 n w eta heta).2
    have e : G = stieltjes (μ n) (energyAt w eta) := by simpa using e
    rw [List.map_map] at g2
    show -(stieltjes (μ n) (energyAt w eta)).im / Real.pi ≤ _
    rw [← e]
    exact g2
  · rw [(hρ j).2]
    have := hmom j j (by omega)
    rw [← this, Complex.ofReal_re]

theorem surpassed_above {as' : List (AddArgs ℝ)} {j : ℤ} (hs : List.Forall₂ SameCall as as') (hg : ∀ a ∈ as, a.g.isSome)
    (hB : ∀ a ∈ as', a.M ≤ j ∧ a.N ≤ j) : List.Forall₂ Surpassed as' (as.map (withLimits j)) := by
  induction hs with
  | nil => exact .nil
  | cons h _ ih =>
    obtain ⟨g, e⟩ := Option.isSome_iff_exists.1 (hg _ List.mem_cons_self)
    exact .cons ⟨h.ctype.symm, ⟨g, g, h.g.trans e, e, le_rfl⟩, h.freq.ge, (hB _ (by simp)).1, (hB _ (by simp)).2⟩
      (ih (fun a ha => hg a (List.mem_cons_of_mem _ ha)) (fun a ha => hB a (List.mem_cons_of_mem _ ha)))

theorem surpassed_below {as' : List (AddArgs ℝ)} {j : ℤ} (hs : List.Forall₂ SameCall as as') (hg : ∀ a ∈ as, a.g.isSome)
    (hB : ∀ a ∈ as', CallAtLeast j a) : List.Forall₂ Surpassed (as.map (withLimits j)) as' := by
  induction hs with
  | nil => exact .nil
  | cons h _ ih =>
    obtain ⟨g, e⟩ := Option.isSome_iff_exists.1 (hg _ List.mem_cons_self)
    exact .cons ⟨h.ctype, ⟨g, g, e, h.g.trans e, le_rfl⟩, h.freq.le, (hB _ (by simp)).M, (hB _ (by simp)).N⟩
      (ih (fun a ha => hg a (List.mem_cons_of_mem _ ha)) (fun a ha => hB a (List.mem_cons_of_mem _ ha)))

theorem limits_bounded (as : List (AddArgs ℝ)) : ∃ B : ℕ, ∀ a ∈ as, a.M ≤ B ∧ a.N ≤ B := by
  induction as with
  | nil => exact ⟨0, by simp⟩
  | cons a as ih =>
    obtain ⟨B, hB⟩ := ih
    refine ⟨B + a.M.toNat + a.N.toNat, fun x hx => ?_⟩
    rcases List.mem_cons.1 hx with rfl | hx
    · omega
    · have := hB x hx
      omega

theorem oneSign_assembled {cap : Option Int} (hc : Clean realPrims hopping 0 as) (hf : ((modes 0 as).map (·.freq)).Nodup)
    (hs : ∀ a ∈ as, a.ctype ≠ "Peierls") (h : (Model.fromParameters hopping lattice 0 cap 1).adds realPrims as = .ok m) :
    OneSign m := by
  rw [fromParameters_blueprint hopping lattice 0 cap as hc hf] at h
  cases h
  exact oneSign_blueprint hs

end

/-- **C122**. Zero temperature, couplings other than `Peierls` given by `coupling_strength`. The Hamiltonian without limits
has a lowest energy `E`, the lower end of its spectral measure `ρ` at zero momentum; it lies between the floor of C67 and
`-2 t`, and at no momentum is there weight below it.
Whatever the limits, the lower edge of the computed spectral function is not below `E`, at any momentum; and at zero
momentum it is at most `E + ε` once the limits are large enough. -/
theorem C122_polaron (hopping lattice : ℝ) (hl : hopping = 0 ∨ (0 < hopping ∧ lattice = 1))
    (as : List (AddArgs ℝ)) (hne : as ≠ []) (hc : Clean realPrims hopping 0 as)
    (hf : ((modes 0 as).map (·.freq)).Nodup)
    (hb : (∀ a ∈ as, a.ctype = "BondPeierls") ∨ (∀ a ∈ as, a.ctype ≠ "BondPeierls"))
    (hp : ∀ a ∈ as, a.ctype ≠ "Peierls") (hpos : ∀ a ∈ as, 0 < a.freq ∧ a.g.isSome) :
    ∃ m : Model ℝ, (Model.fromParameters hopping lattice 0 none 1).adds realPrims as = .ok m ∧
      ∃ (ρ : Measure ℝ) (E : ℝ), IsProbabilityMeasure ρ ∧ HasMoments ρ (moment m 0) ∧ Begins ρ E ∧
        (-(2 * hopping) - (as.map callFloor).sum ≤ E ∧ E ≤ -(2 * hopping)) ∧
        (∀ (k : ℝ) (ρ' : Measure ℝ), IsProbabilityMeasure ρ' → HasMoments ρ' (moment m k) → ρ' (Set.Iio E) = 0) ∧
        (∀ (σ : SetOrder) (cap : Option Int) (as' : List (AddArgs ℝ)), (∀ c, cap = some c → 1 ≤ c) →
          List.Forall₂ SameCall as as' → (∀ a ∈ as', Valid 0 a) →
          ∃ m' b, (Model.fromParameters hopping lattice 0 cap 1).adds realPrims as' = .ok m' ∧ buildSystem σ m' = .ok b ∧
            ∀ k : ℝ, ∃ F e, (∀ w eta : ℝ, 0 < eta → Gives m' b ⟨k, w, eta⟩ (F w eta)) ∧ Edge F e ∧ E ≤ e) ∧
        ∀ ε > 0, ∃ B : ℤ, ∀ (σ : SetOrder) (cap : Option Int) (as' : List (AddArgs ℝ)),
          (∀ c, cap = some c → 1 ≤ c ∧ B ≤ c) → List.Forall₂ SameCall as as' → (∀ a ∈ as', Valid 0 a ∧ CallAtLeast B a) →
          ∃ m' b F e, (Model.fromParameters hopping lattice 0 cap 1).adds realPrims as' = .ok m' ∧ buildSystem σ m' = .ok b ∧
            (∀ w eta : ℝ, 0 < eta → Gives m' b ⟨0, w, eta⟩ (F w eta)) ∧ Edge F e ∧ E ≤ e ∧ e ≤ E + ε := by
  obtain ⟨m, -, h1, -, -⟩ := assembled C42_names.known hopping lattice 0 none (by simp) as hne hc hf
  have ht : 0 ≤ hopping := by rcases hl with h | h <;> [exact h.ge; exact h.1.le]
  have hphys := physical_assembled h1 hb hl
  let σ₀ : SetOrder := ⟨id, fun l => List.Perm.refl l⟩
  have hcl : ∀ {as'}, List.Forall₂ SameCall as as' → (∀ a ∈ as', Valid 0 a) →
      Clean realPrims hopping 0 as' ∧ ((modes 0 as').map (·.freq)).Nodup ∧ (∀ a ∈ as', a.ctype ≠ "Peierls") := by
    intro as' hs hv
    have hc' := clean_same hc hs hv
    refine ⟨hc', by rw [modes_of_clean hc', freqs_same hs, ← modes_of_clean hc]; exact hf, fun a ha => ?_⟩
    obtain ⟨x, hx, h⟩ := forall₂_mem hs a ha
    rw [h.ctype]
    exact hp x hx
  obtain ⟨M, b, ae, μ, ρ, U, a1, a2, a3, a4, a5, a6, a7, a8, a9⟩ :=
    limit_sequence σ₀ hl hne hc hf hb hpos h1 (fun _ => none) (by simp) 0
  obtain ⟨A, hA, hgr⟩ := moment_growth hphys 0
  obtain ⟨E, e1, e2⟩ := exists_bottom (ρ := (ρ : Measure ℝ)) (mass_limit a8 a6)
  have hbeg : Begins (ρ : Measure ℝ) E := ⟨e1, fun e' he' h => absurd (e2 e' h) (not_le.2 he')⟩
  have hup : ∀ (σ : SetOrder) (cap : Option Int) (as' : List (AddArgs ℝ)), (∀ c, cap = some c → 1 ≤ c) →
      List.Forall₂ SameCall as as' → (∀ a ∈ as', Valid 0 a) →
      ∃ m' b' ae', (Model.fromParameters hopping lattice 0 cap 1).adds realPrims as' = .ok m' ∧ buildSystem σ m' = .ok b' ∧
        WellFormed m' ae' ∧ Physical m' ∧ ∀ k : ℝ, ∀ F : ℝ → ℝ → ℂ,
          (∀ w eta, 0 < eta → Returned m' b' ⟨k, w, eta⟩ (F w eta)) → EmptyBelow F E := by
    intro σ cap as' hcap hs hv
    obtain ⟨m', b', ae', k1, k2, k3, -, -, k6⟩ := same_assembled σ hne hc hf hb hcap hs hv h1
    have hp' := physical_assembled k1 k6 hl
    refine ⟨m', b', ae', k1, k2, k3, hp', fun k F hF => ?_⟩
    obtain ⟨ρ₁, q1, q2, q3, q4⟩ := finite_measure k3 k2 hp' k
    rw [q4 F hF]
    obtain ⟨B, hB⟩ := limits_bounded as'
    refine mass_zero a8 a6 e1 ?_
    filter_upwards [a7 (eventually_ge_atTop B)] with n hn s hs' x₀
    have hvn : ∀ a ∈ as.map (withLimits (n + 1 : ℕ)), Valid 0 a := valid_withLimits hc (by omega)
    obtain ⟨c1, c2, c3⟩ := hcl (same_withLimits (n + 1 : ℕ) as) hvn
    obtain ⟨d1, d2, d3⟩ := hcl hs hv
    refine mass_stronger k3 (a1 n).2.2.1 ?_ (oneSign_assembled c1 c2 c3 (a1 n).1) q1 (a2 n) q2 (a3 n) hs' x₀
    refine limits_stronger ht (fun c h => by simp at h) (surpassed_above hs (fun a ha => (hpos a ha).2) (fun a ha => ?_))
      d1 c1 d2 c2 k1 (a1 n).1 k3 (a1 n).2.2.1
    have := hB a ha
    push_cast
    omega
  have hedge : ∀ (σ : SetOrder) (cap : Option Int) (as' : List (AddArgs ℝ)), (∀ c, cap = some c → 1 ≤ c) →
      List.Forall₂ SameCall as as' → (∀ a ∈ as', Valid 0 a) →
      ∃ m' b' ae', (Model.fromParameters hopping lattice 0 cap 1).adds realPrims as' = .ok m' ∧ buildSystem σ m' = .ok b' ∧
        WellFormed m' ae' ∧ Physical m' ∧ ∀ k : ℝ, ∃ F e, (∀ w eta : ℝ, 0 < eta → Gives m' b' ⟨k, w, eta⟩ (F w eta)) ∧
          Edge F e ∧ E ≤ e := by
    intro σ cap as' hcap hs hv
    obtain ⟨m', b', ae', k1, k2, k3, hp', k4⟩ := hup σ cap as' hcap hs hv
    refine ⟨m', b', ae', k1, k2, k3, hp', fun k => ?_⟩
    obtain ⟨ρ₁, -, -, q3, -⟩ := finite_measure k3 k2 hp' k
    have hF := fun w eta heta => returned_of_gives (q3 w eta heta)
    obtain ⟨e, he, -⟩ := C88_edge σ m' ae' k3 b' k2 hp' k _ hF
    exact ⟨_, e, q3, he, he.2 E (k4 k _ hF)⟩
  refine ⟨m, h1, ρ, E, inferInstance, a9, hbeg, ⟨e2 _ (mass_limit a8 a6), ?_⟩, fun k ρ' i1 i2 => ?_, fun σ cap as' hcap hs hv => ?_, fun ε hε => ?_⟩
  · obtain ⟨m', b', ae', k1, k2, k3, hp', k4⟩ := hup σ₀ none as (by simp)
      (List.forall₂_same.2 (fun _ _ => ⟨rfl, rfl, rfl, rfl, rfl⟩)) hc.valid
    obtain ⟨ρ₁, -, -, q3, -⟩ := finite_measure k3 k2 hp' 0
    have hF := fun w eta heta => returned_of_gives (q3 w eta heta)
    obtain ⟨e, he, he2⟩ := C88_edge σ₀ m' ae' k3 b' k2 hp' 0 _ hF
    rw [fromParameters_blueprint hopping lattice 0 none as hc hf] at k1
    cases k1
    rw [zero_mul, Real.cos_zero, mul_one] at he2
    exact (he.2 E (k4 0 _ hF)).trans he2
  · obtain ⟨M, b, ae, μ', ρ₂, U', b1, b2, b3, b4, b5, b6, b7, b8, b9⟩ :=
      limit_sequence σ₀ hl hne hc hf hb hpos h1 (fun _ => none) (by simp) k
    obtain ⟨A, hA, hgr⟩ := moment_growth hphys k
    rw [hasMoments_unique hA hgr i2 b9]
    refine mass_limit b8 (fun n => ?_)
    obtain ⟨m', b', ae', k1, k2, -, -, k4⟩ := hup σ₀ none _ (by simp) (same_withLimits (n + 1 : ℕ) as)
      (valid_withLimits hc (by omega))
    rw [(b1 n).1] at k1
    cases k1
    rw [(b1 n).2.1] at k2
    cases k2
    rw [← b5 n]
    exact k4 k _ (fun w eta heta => returned_of_gives (b4 n w eta heta))
  · obtain ⟨m', b', ae', k1, k2, -, -, k3⟩ := hedge σ cap as' hcap hs hv
    exact ⟨m', b', k1, k2, k3⟩
  · obtain ⟨M, b, ae, μ', ρ₂, U', b1, b2, b3, b4, b5, b6, b7, b8, b9⟩ :=
      limit_sequence σ₀ hl hne hc hf hb hpos h1 (fun n => some (n + 1 : ℕ)) (by simp) 0
    have hρ : (ρ₂ : Measure ℝ) = ρ := hasMoments_unique hA hgr b9 a9
    obtain ⟨n, hn⟩ : ∃ n, (μ' n : Measure ℝ) (Set.Iio (E + ε)) ≠ 0 := by
      by_contra hno
      push Not at hno
      exact hbeg.2 (E + ε) (by linarith) (hρ ▸ mass_limit b8 hno)
    refine ⟨(n + 1 : ℕ), fun σ cap as' hcap hs hv => ?_⟩
    obtain ⟨m', b', ae', k1, k2, k3, hp', k4⟩ := hedge σ cap as' (fun c h => (hcap c h).1) hs (fun a ha => (hv a ha).1)
    obtain ⟨F, e, f1, f2, f3⟩ := k4 0
    refine ⟨m', b', F, e, k1, k2, f1, f2, f3, ?_⟩
    by_contra hlt
    rw [not_le] at hlt
    obtain ⟨c1, c2, c3⟩ := hcl (same_withLimits (n + 1 : ℕ) as) (valid_withLimits hc (by omega))
    obtain ⟨d1, d2, d3⟩ := hcl hs (fun a ha => (hv a ha).1)
    have hst := limits_stronger ht (fun c h => ⟨_, rfl, (hcap c h).2⟩)
      (surpassed_below hs (fun a ha => (hpos a ha).2) (fun a ha => (hv a ha).2)) c1 d1 c2 d2 (b1 n).1 k1 (b1 n).2.2.1 k3
    have hem := C88_stronger σ₀ σ (M n) m' (ae n) ae' (b1 n).2.2.1 k3 (b n) b' (b1 n).2.1 k2 (b1 n).2.2.2 hp' hst
      (oneSign_assembled d1 d2 d3 k1) 0 _ F (fun w eta heta => returned_of_gives (b4 n w eta heta))
      (fun w eta heta => returned_of_gives (f1 w eta heta)) e f2.1
    rw [b5 n] at hem
    exact hn (measure_mono_null (Set.Iio_subset_Iio hlt.le) hem)

/-! ### the hypotheses are met -/

/-- A Holstein model with hopping 1, frequency 2 and coupling 1: the energy of the polaron computed with any `M` and `N` is
not below the exact one, and with some `M = N` it is less than a thousandth above it. -/
example (σ : SetOrder) : ∃ E : ℝ,
    (∀ M N : ℤ, 1 ≤ M → 1 ≤ N → ∃ m b F e, (Model.fromParameters (1 : ℝ) 1 0 none 1).adds realPrims
        [{ ctype := "Holstein", freq := 2, M := M, N := N, g := some 1 }] = .ok m ∧ buildSystem σ m = .ok b ∧
      (∀ w eta : ℝ, 0 < eta → Gives m b ⟨0, w, eta⟩ (F w eta)) ∧ Edge F e ∧ E ≤ e) ∧
    ∃ j : ℤ, 1 ≤ j ∧ ∃ m b F e, (Model.fromParameters (1 : ℝ) 1 0 none 1).adds realPrims
        [{ ctype := "Holstein", freq := 2, M := j, N := j, g := some 1 }] = .ok m ∧ buildSystem σ m = .ok b ∧
      (∀ w eta : ℝ, 0 < eta → Gives m b ⟨0, w, eta⟩ (F w eta)) ∧ Edge F e ∧ E ≤ e ∧ e ≤ E + 1 / 1000 := by
  have hv : ∀ M N : ℤ, 1 ≤ M → 1 ≤ N → ∀ a ∈ [({ ctype := "Holstein", freq := 2, M := M, N := N, g := some 1 } : AddArgs ℝ)],
      Valid 0 a := by
    intro M N hM hN a ha
    rw [List.mem_singleton] at ha
    subst ha
    exact ⟨hM, hN, by simp, by simp, by simp, Or.inl ⟨1, rfl, rfl⟩, by simp⟩
  have hc : Clean realPrims 1 0 [({ ctype := "Holstein", freq := 2, M := 1, N := 1, g := some 1 } : AddArgs ℝ)] :=
    ⟨hv 1 1 le_rfl le_rfl, by simp [Known], by simp, by simp [Defined]⟩
  obtain ⟨_, -, -, E, -, -, -, -, -, h1, h2⟩ := C122_polaron 1 1 (Or.inr (by norm_num)) _ (by simp) hc
    (by rw [modes_of_clean hc]; simp [modesAt]) (Or.inr (by simp)) (by simp) (by simp)
  refine ⟨E, fun M N hM hN => ?_, ?_⟩
  · obtain ⟨m, b, q1, q2, q3⟩ := h1 σ none [{ ctype := "Holstein", freq := 2, M := M, N := N, g := some 1 }] (by simp)
      (.cons ⟨rfl, rfl, rfl, rfl, rfl⟩ .nil) (hv M N hM hN)
    obtain ⟨F, e, r1, r2, r3⟩ := q3 0
    exact ⟨m, b, F, e, q1, q2, r1, r2, r3⟩
  · obtain ⟨B, hB⟩ := h2 (1 / 1000) (by norm_num)
    have hj : (1 : ℤ) ≤ max 1 B := le_max_left _ _
    refine ⟨max 1 B, hj, ?_⟩
    exact hB σ none [{ ctype := "Holstein", freq := 2, M := max 1 B, N := max 1 B, g := some 1 }] (by simp)
      (.cons ⟨rfl, rfl, rfl, rfl, rfl⟩ .nil) (fun a ha => ⟨hv _ _ hj hj a ha, by
        rw [List.mem_singleton] at ha
        subst ha
        exact ⟨le_max_right _ _, le_max_right _ _, by simp, by simp⟩⟩)

end GGCE.Props
