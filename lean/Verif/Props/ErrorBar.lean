import Verif.Proofs.ErrorBar
import Verif.Proofs.Floor
import Verif.Props.Limit

/-!
Property C94: how far the returned number can be from the Green's function without limits on the phonons.
-/

set_option linter.unusedSectionVars false

namespace GGCE.Props
open Spec Arr Complex Filter Topology
open scoped InnerProductSpace

variable {m m' : Model ℝ} {ae : ℤ} {k w eta : ℝ}

theorem near_assembled {P : Prims ℝ} {hopping lattice T : ℝ} {cap : Option Int} {dim : Nat}
    {as : List (AddArgs ℝ)} {m : Model ℝ}
    (h : (Model.fromParameters hopping lattice T cap dim).adds P as = .ok m) : Near m := by
  intro x hx
  obtain ⟨a, ha, g, i, f, hxm⟩ := (adds_ctypes as h x hx).resolve_left
    (by simp [Model.fromParameters, Hamiltonian.new])
  generalize a.ctype = ct at hxm
  simp only [termsOf, List.mem_map] at hxm
  obtain ⟨s, hs, rfl⟩ := hxm
  unfold termShapes at hs
  unfold bosonSite electronSite
  split at hs
  · simp [Num.int] at hs; rcases hs with rfl | rfl <;> simp
  split at hs
  · simp [Num.int] at hs; rcases hs with rfl | rfl | rfl | rfl <;> simp
  split at hs
  · simp [Num.int] at hs; rcases hs with rfl | rfl | rfl | rfl <;> simp
  split at hs
  · simp [Num.int] at hs
    rcases hs with rfl | rfl | rfl | rfl | rfl | rfl | rfl | rfl <;> simp
  · simp at hs

/-- C94, for well-formed models: with all limits at least `B`, the returned number differs from the Green's function
without limits by at most the error bar. -/
theorem C94_error (m : Model ℝ) (hp : Physical m) (hnear : Near m) (k w eta : ℝ) (heta : 0 < eta) (u : States)
    (hu : Untruncated m k w eta u) (β : ℝ) (hβ : Rate m eta β) (B : ℤ) (σ : SetOrder) (m' : Model ℝ) (ae : ℤ)
    (b : Built ℝ) (G : ℂ) (hsame : SameSystem m m') (hlim : LimitsAtLeast B m' ae) (hm' : WellFormed m' ae)
    (hb : buildSystem σ m' = .ok b) (hG : Returned m' b ⟨k, w, eta⟩ G) : ‖G - u 0‖ ≤ errorBar m eta β B := by
  obtain ⟨c, hs⟩ := hp.shifts
  have hQ := hops_ok (k := k) hs hp.adj
  have hzi : |(energyAt w eta).im| = eta := by rw [energyAt_im, abs_of_pos heta]
  have hz : (energyAt w eta).im ≠ 0 := by rw [energyAt_im]; exact heta.ne'
  have hu' := (untruncated_iff u).1 hu
  have hp' : Physical m' := by
    refine ⟨⟨c, ?_⟩, ?_, ?_⟩
    · unfold ShiftsOk; rw [hsame.ham]; exact hs
    · rw [hsame.ham]; exact hp.adj
    · rw [hsame.ham, hsame.lattice]; exact hp.lattice
  obtain ⟨H, h1, h2, h3⟩ := C56_returned σ m' ae hm' b hb hp' k
  have h0 := allowed_zero hm'.toShaped
  have hsub := hops_sub (k := k) hm'.toListsOk h0
  rw [hops_same hsame] at hsub
  have hop : H = (hops m k).op (Allowed m' ae) := by
    ext f n
    rw [h2, Hops.op_apply hQ hsub, ← hops_same hsame, hops_act_allowed]
  refine le_of_forall_pos_le_add (fun ε hε => ?_)
  obtain ⟨F, hFS, hF⟩ := Hops.converges hQ hz bare_off hu' hε
  obtain ⟨r, hr0, hrF, hrm⟩ : ∃ r : ℝ, 0 ≤ r ∧ (∀ x ∈ F, (hops m k).N x ≤ r) ∧
      ((m'.nTypes * numBound m' : ℤ) : ℝ) ≤ r := by
    refine ⟨∑ x ∈ F, |(hops m k).N x| + |((m'.nTypes * numBound m' : ℤ) : ℝ)|, by positivity, fun x hx => ?_, ?_⟩
    · have := Finset.single_le_sum (f := fun x => |(hops m k).N x|) (fun _ _ => abs_nonneg _) hx
      have h5 := le_abs_self ((hops m k).N x)
      have h6 := abs_nonneg ((m'.nTypes * numBound m' : ℤ) : ℝ)
      linarith
    · have h5 := le_abs_self ((m'.nTypes * numBound m' : ℤ) : ℝ)
      have h6 : 0 ≤ ∑ x ∈ F, |(hops m k).N x| := Finset.sum_nonneg (fun _ _ => abs_nonneg _)
      linarith
  have hup := Hops.upto_sub hQ hr0
  have h4 := hF _ r hup (fun n hn => ⟨hFS n hn, hrF n hn⟩) 0 hup.base
  have h5 := truncation_close (k := k) (z := energyAt w eta) hs hp.adj hnear hsame hm'.toListsOk h0 hlim hrm
    (by rw [hzi]; exact heta) (by rw [hzi]; exact hβ) (v := bare) (bare_off (m := m) (k := k)) norm_bare
  rw [hzi, inner_bare, inner_bare] at h5
  rw [h3 w eta heta G hG]
  unfold green
  rw [inner_bare, hop]
  have h6 := norm_sub_le_norm_sub_add_norm_sub (resolvent ((hops m k).op (Allowed m' ae)) (energyAt w eta) bare 0)
    (resolvent ((hops m k).op ((hops m k).upto r)) (energyAt w eta) bare 0) (u 0)
  rw [norm_sub_rev] at h5
  linarith

/-- the sum of the couplings, by phonon mode -/
theorem partTerms_total : ∀ (ds : List (Part ℝ)) (i : ℕ), (∀ d ∈ ds, Known d.ctype) →
    ((partTerms ds i).map (fun h : SingleTerm ℝ => |h.coupling|)).sum = (ds.map (fun d => termCount d.ctype * |d.g|)).sum
  | [], _, _ => by simp [partTerms]
  | d :: ds, i, hk => by
    rw [partTerms_cons, List.map_append, List.sum_append, partTerms_total ds (i + 1)
      (fun d hd => hk d (List.mem_cons_of_mem _ hd)), List.map_cons, List.sum_cons]
    congr 1
    have := hk d (by simp)
    rcases this with h | h | h | h <;> rw [h] <;> simp [termsOf, termShapes, termCount] <;> ring

/-- The sum of the couplings of a model at zero temperature whose couplings are given as `phonon_coupling`: each call
adds its strength as many times as its coupling type has terms (2, 4, 4, 8). -/
theorem C94_coupling (hopping lattice : ℝ) (as : List (AddArgs ℝ)) (hc : Clean realPrims hopping 0 as)
    (hf : ((modes 0 as).map (·.freq)).Nodup) (g : AddArgs ℝ → ℝ) (hg : ∀ a ∈ as, a.g = some (g a)) :
    ∃ m, (Model.fromParameters hopping lattice 0 none 1).adds realPrims as = .ok m ∧
      m.ham.hopping = hopping ∧ totalCoupling m = (as.map (fun a => termCount a.ctype * |g a|)).sum := by
  refine ⟨_, fromParameters_blueprint hopping lattice 0 none as hc hf, rfl, ?_⟩
  have e : parts realPrims hopping 0 as = as.map (fun a => ⟨a.ctype, a.freq, a.M, a.N, g a⟩) := by
    unfold parts
    rw [List.map_eq_flatMap]
    refine List.flatMap_congr (fun a ha => ?_)
    have hl : a.lam = none := by
      rcases (hc.valid a ha).strength with ⟨x, -, h⟩ | ⟨x, -, h⟩
      · exact h
      · rw [hg a ha] at h; cases h
    have hs : strengthD realPrims hopping a a.freq = g a :=
      strengthD_ok (by simp [Hamiltonian.strength, hg a ha, hl])
    simp only [partsAt, lt_irrefl, if_false, hs, mul_one]
  unfold totalCoupling
  show ((partTerms (parts realPrims hopping 0 as) 0).map _).sum = _
  rw [e, partTerms_total _ 0 (fun d hd => by
    obtain ⟨a, ha, rfl⟩ := List.mem_map.1 hd
    exact hc.known a ha), List.map_map]
  rfl

/-- **C94**. The error caused by the limits on the phonons is at most `4 Γ / (β η²) · exp(-β √(B/2))` when all limits
are at least `B`: for every history of acceptable calls, whatever the limits, at any temperature, for both solvers. -/
theorem C94_assembled (hopping lattice T : ℝ) (hl : hopping = 0 ∨ (0 < hopping ∧ lattice = 1))
    (as : List (AddArgs ℝ)) (hne : as ≠ []) (hc : Clean realPrims hopping T as)
    (hf : ((modes T as).map (·.freq)).Nodup)
    (hb : (∀ a ∈ as, a.ctype = "BondPeierls") ∨ (∀ a ∈ as, a.ctype ≠ "BondPeierls"))
    (k w eta : ℝ) (heta : 0 < eta) :
    ∃ (m : Model ℝ) (u : States), (Model.fromParameters hopping lattice T none 1).adds realPrims as = .ok m ∧
      Untruncated m k w eta u ∧ (∀ u', Untruncated m k w eta u' → u' = u) ∧
      ∀ (B : ℤ) (σ : SetOrder) (cap : Option Int) (as' : List (AddArgs ℝ)),
        (∀ c, cap = some c → 1 ≤ c ∧ B ≤ c) → List.Forall₂ SameCall as as' →
        (∀ a ∈ as', Valid T a ∧ CallAtLeast B a) →
        ∃ m' b, (Model.fromParameters hopping lattice T cap 1).adds realPrims as' = .ok m' ∧
          buildSystem σ m' = .ok b ∧ (∃ G, Returned m' b ⟨k, w, eta⟩ G) ∧
          ∀ G, Returned m' b ⟨k, w, eta⟩ G → ∀ β, Rate m eta β → ‖G - u 0‖ ≤ errorBar m eta β B := by
  obtain ⟨m, -, h1, -, -⟩ := assembled C42_names.known hopping lattice T none (by simp) as hne hc hf
  have hp := physical_assembled h1 hb hl
  obtain ⟨u, hu, huniq, -⟩ := C60_converges m hp k w eta heta
  refine ⟨m, u, h1, hu, huniq, fun B σ cap as' hcap hs hv => ?_⟩
  have hc' := clean_same hc hs (fun a ha => (hv a ha).1)
  have hne' : as' ≠ [] := by rintro rfl; cases hs; exact hne rfl
  have hf' : ((modes T as').map (·.freq)).Nodup := by
    rw [modes_of_clean hc', freqs_same hs, ← modes_of_clean hc]; exact hf
  have hb' : (∀ a ∈ as', a.ctype = "BondPeierls") ∨ (∀ a ∈ as', a.ctype ≠ "BondPeierls") := by
    rcases hb with hb | hb
    · refine Or.inl (fun a ha => ?_)
      obtain ⟨x, hx, h⟩ := forall₂_mem hs a ha
      rw [h.ctype]; exact hb x hx
    · refine Or.inr (fun a ha => ?_)
      obtain ⟨x, hx, h⟩ := forall₂_mem hs a ha
      rw [h.ctype]; exact hb x hx
  obtain ⟨m', b, k1, ⟨ae, k2⟩, k3⟩ := C16_assembled σ realPrims C42_names hopping lattice T cap
    (fun c h => (hcap c h).1) as' hne' hc' hf' hb'
  refine ⟨m', b, k1, k3, ?_, fun G hG β hβ => ?_⟩
  · obtain ⟨H, -, -, h⟩ := C56_operator σ m' ae k2 b k3 (physical_assembled k1 hb' hl) k
    exact ⟨_, Or.inr (h w eta heta).2.2⟩
  · exact C94_error m hp (near_assembled h1) k w eta heta u hu β hβ B σ m' ae b G
      (adds_same hs (m := Model.fromParameters hopping lattice T none 1) (m' := Model.fromParameters hopping lattice T cap 1)
        ⟨rfl, rfl, rfl⟩ rfl hc.valid hc'.valid h1 k1)
      (limits_assembled hc' k1 k2 (fun c h => (hcap c h).2) (fun a ha => (hv a ha).2)) k2 k3 hG

theorem totalCoupling_nonneg (m : Model ℝ) : 0 ≤ totalCoupling m :=
  List.sum_nonneg (fun x hx => by obtain ⟨h, -, rfl⟩ := List.mem_map.1 hx; exact abs_nonneg _)

/-- C94: limits that suffice for a given accuracy. If all limits are at least `B` with
`β √(B/2) ≥ log (4 Γ / (β η² ε))`, the error is at most `ε`. -/
theorem C94_accuracy (m : Model ℝ) (eta β ε : ℝ) (heta : 0 < eta) (hβ : Rate m eta β) (hε : 0 < ε) (B : ℤ)
    (hB : Real.log (4 * totalCoupling m / (β * eta ^ 2 * ε)) ≤ β * √((B : ℝ) / 2)) : errorBar m eta β B ≤ ε := by
  have hβ0 := hβ.pos
  unfold errorBar
  rcases (totalCoupling_nonneg m).eq_or_lt with h | h
  · rw [← h]; simpa using hε.le
  · have h1 : 0 < 4 * totalCoupling m / (β * eta ^ 2 * ε) := by positivity
    have h2 := (Real.log_le_iff_le_exp h1).1 hB
    rw [Real.exp_neg, ← div_eq_mul_inv, div_le_iff₀ (Real.exp_pos _), div_le_iff₀ (by positivity)]
    rw [div_le_iff₀ (by positivity)] at h2
    linarith

/-- C94: the smallest rate is never the obstacle: whatever the couplings, an admissible rate exists. -/
theorem C94_rate (m : Model ℝ) (eta : ℝ) (heta : 0 < eta) : ∃ β, Rate m eta β := by
  have h := totalCoupling_nonneg m
  have h2 := abs_nonneg m.ham.hopping
  refine ⟨min (1 / 5) (eta / (8 * (2 * |m.ham.hopping| + totalCoupling m + 1))), lt_min (by norm_num) (by positivity),
    min_le_left _ _, ?_⟩
  have h3 := min_le_right (1 / 5 : ℝ) (eta / (8 * (2 * |m.ham.hopping| + totalCoupling m + 1)))
  have h4 : 0 < 8 * (2 * |m.ham.hopping| + totalCoupling m + 1) := by positivity
  rw [le_div_iff₀ h4] at h3
  have h5 : 0 < min (1 / 5 : ℝ) (eta / (8 * (2 * |m.ham.hopping| + totalCoupling m + 1))) :=
    lt_min (by norm_num) (by positivity)
  nlinarith

/-- The hypotheses of C94 are met, at `η = 1`, `t = 1`, by a Holstein–Peierls model, whose couplings add up to
`2 · 1 + 8 · 1/2 = 6` and for which `β = 1/64` is admissible; and by a BondPeierls model at finite temperature. -/
example (k w : ℝ) :
    (∃ (m : Model ℝ) (u : States), (Model.fromParameters (1 : ℝ) 1 0 none 1).adds realPrims exCalls = .ok m ∧
      Untruncated m k w 1 u ∧ totalCoupling m = 6 ∧ Rate m 1 (1 / 64) ∧
      ∀ (j : ℕ), 1 ≤ j → ∀ σ, ∃ m' b,
        (Model.fromParameters (1 : ℝ) 1 0 none 1).adds realPrims (exCalls.map (withLimits j)) = .ok m' ∧
        buildSystem σ m' = .ok b ∧ (∃ G, Returned m' b ⟨k, w, 1⟩ G) ∧
        ∀ G, Returned m' b ⟨k, w, 1⟩ G → ‖G - u 0‖ ≤ 1536 * Real.exp (-(1 / 64 * √((j : ℝ) / 2)))) ∧
    (∃ (m : Model ℝ) (u : States) (β : ℝ), (Model.fromParameters (1 : ℝ) 1 1 none 1).adds realPrims exBondCalls = .ok m ∧
      Untruncated m k w 1 u ∧ Rate m 1 β) := by
  constructor
  · obtain ⟨h1, h2, h3⟩ := exCalls_clean
    obtain ⟨m, u, q1, q2, -, q3⟩ := C94_assembled 1 1 0 (Or.inr ⟨one_pos, rfl⟩) exCalls (by simp [exCalls]) h1 h2
      (Or.inr h3) k w 1 one_pos
    obtain ⟨m0, e1, e2, e3⟩ := C94_coupling 1 1 exCalls h1 h2 (fun a => a.g.getD 0) (by simp [exCalls])
    rw [q1] at e1; cases e1
    have e4 : totalCoupling m = 6 := by
      rw [e3]
      simp [exCalls, termCount]
      norm_num [abs_of_pos]
    have hr : Rate m 1 (1 / 64) := ⟨by norm_num, by norm_num, by rw [e2, e4]; norm_num⟩
    refine ⟨m, u, q1, q2, e4, hr, fun j hj σ => ?_⟩
    obtain ⟨m', b, k1, k2, k3, k4⟩ := q3 j σ none (exCalls.map (withLimits j)) (by simp)
      (by
        rw [List.forall₂_map_right_iff, List.forall₂_same]
        exact fun a _ => ⟨rfl, rfl, rfl, rfl, rfl⟩)
      (fun a ha => ⟨valid_withLimits h1 hj a ha, by
        obtain ⟨x, hx, rfl⟩ := List.mem_map.1 ha
        exact ⟨le_rfl, le_rfl, fun y h => by rw [map_const h], fun y h => by rw [map_const h]⟩⟩)
    refine ⟨m', b, k1, k2, k3, fun G hG => (k4 G hG _ hr).trans (le_of_eq ?_)⟩
    unfold errorBar
    rw [e4]
    norm_num
  · obtain ⟨h1, h2, h3⟩ := exBondCalls_clean
    obtain ⟨m, u, q1, q2, -⟩ := C94_assembled 1 1 1 (Or.inr ⟨one_pos, rfl⟩) exBondCalls (by simp [exBondCalls]) h1 h2
      (Or.inl h3) k w 1 one_pos
    obtain ⟨β, hβ⟩ := C94_rate m 1 one_pos
    exact ⟨m, u, β, q1, q2, hβ⟩

end GGCE.Props
