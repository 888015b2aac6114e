import Verif.Proofs.Spread
import Verif.Props.ErrorBar

/-!
Property C95: at fixed numbers of phonons, the results converge exponentially as the extents grow.
-/

set_option linter.unusedSectionVars false

namespace GGCE.Props
open Spec Arr Complex Filter Topology
open scoped InnerProductSpace

variable {m m' : Model ℝ} {ae : ℤ} {k w eta : ℝ}

/-- C95, for well-formed models: one solution of the problem without extents exists. -/
theorem C95_exists (m : Model ℝ) (hp : Physical m) (ae : ℤ) (hm : WellFormed m ae) (k w eta : ℝ) (heta : 0 < eta) :
    ∃ u, Spread m k w eta u ∧ ∀ u', Spread m k w eta u' → u' = u := by
  obtain ⟨c, hs⟩ := hp.shifts
  have h0 := (allowed_zero hm.toShaped).admitted
  refine ⟨_, (spread_iff hs hp.adj hm.toListsOk h0 heta _).2 rfl, fun u' hu' => ?_⟩
  exact (spread_iff hs hp.adj hm.toListsOk h0 heta _).1 hu'

/-- C95, for well-formed models: with all extents at least `B`, the returned number differs from the Green's function
without extents by at most the bar. -/
theorem C95_error (m : Model ℝ) (hp : Physical m) (hnear : Near m) (hm : ListsOk m)
    (hi : ∀ h ∈ m.ham.terms, h.phononIndex < m.nTypes) (k w eta : ℝ) (heta : 0 < eta) (u : States)
    (hu : Spread m k w eta u) (α : ℝ) (hα : SiteRate m eta α) (B : ℤ) (σ : SetOrder) (m' : Model ℝ) (ae : ℤ)
    (b : Built ℝ) (G : ℂ) (hsame : SameNumbers m m') (hext : ExtentsAtLeast B m' ae) (hm' : WellFormed m' ae)
    (hb : buildSystem σ m' = .ok b) (hG : Returned m' b ⟨k, w, eta⟩ G) : ‖G - u 0‖ ≤ extentBar m eta α B := by
  obtain ⟨c, hs⟩ := hp.shifts
  have hQ := hops_ok (k := k) hs hp.adj
  have hzi : |(energyAt w eta).im| = eta := by rw [energyAt_im, abs_of_pos heta]
  have hp' : Physical m' := by
    refine ⟨⟨c, ?_⟩, ?_, ?_⟩
    · unfold ShiftsOk; rw [hsame.ham]; exact hs
    · rw [hsame.ham]; exact hp.adj
    · rw [hsame.ham, hsame.lattice]; exact hp.lattice
  obtain ⟨H, h1, h2, h3⟩ := C56_returned σ m' ae hm' b hb hp' k
  have h0 := allowed_zero hm'.toShaped
  have hsub := hops_sub (k := k) hm'.toListsOk h0
  rw [hops_same hsame.toSameSystem] at hsub
  have hop : H = (hops m k).op (Allowed m' ae) := by
    ext f n
    rw [h2, Hops.op_apply hQ hsub, ← hops_same hsame.toSameSystem, hops_act_allowed]
  have hu' := (spread_iff hs hp.adj hm ((admitted_same hsame).1 h0.admitted) heta u).1 hu
  have h5 := extents_close (k := k) (z := energyAt w eta) hs hp.adj hnear hm hi hsame hm'.toListsOk h0 hext
    (by rw [hzi]; exact heta) (by rw [hzi]; exact hα) (v := bare) (bare_off (m := m) (k := k)) norm_bare
  rw [hzi, inner_bare, inner_bare, ← hu', norm_sub_rev] at h5
  rw [h3 w eta heta G hG]
  unfold green
  rw [inner_bare, hop]
  exact h5

theorem sameCalls {as as' : List (AddArgs ℝ)} (h : List.Forall₂ SameNumbersCall as as') : List.Forall₂ SameCall as as' :=
  h.imp (fun _ _ q => q.toSameCall)

theorem numbers_same {T : ℝ} {as as' : List (AddArgs ℝ)} (hs : List.Forall₂ SameNumbersCall as as') :
    ((as'.flatMap (modesAt T)).map (·.N)) = ((as.flatMap (modesAt T)).map (·.N)) := by
  induction hs with
  | nil => rfl
  | cons h _ ih =>
    simp only [List.flatMap_cons, List.map_append, ih]
    congr 1
    unfold modesAt
    split <;> simp [h.N, h.Ntfd]

theorem extents_assembled {P : Prims ℝ} {hopping lattice T : ℝ} {cap : Option Int} {as : List (AddArgs ℝ)}
    {m : Model ℝ} {ae B : ℤ} (hc : Clean P hopping T as)
    (h : (Model.fromParameters hopping lattice T cap 1).adds P as = .ok m) (hm : WellFormed m ae)
    (hB : ∀ a ∈ as, CallExtentsAtLeast B a) : ExtentsAtLeast B m ae := by
  have hr := adds_records (records_new hopping lattice T cap 1) h
  rw [List.nil_append, show (Model.fromParameters hopping lattice T cap 1).temperature = T from rfl,
    modes_of_clean hc] at hr
  have hmodes : ∀ d ∈ as.flatMap (modesAt T), B ≤ d.M := by
    intro d hd
    obtain ⟨a, ha, hd⟩ := List.mem_flatMap.1 hd
    unfold modesAt at hd
    split at hd
    · rename_i hT
      rcases List.mem_cons.1 hd with rfl | hd
      · exact (hB a ha).M
      · rcases List.mem_singleton.1 hd with rfl
        obtain ⟨⟨x, hx⟩, -⟩ := (hc.valid a ha).tfd hT
        show B ≤ a.Mtfd.getD 0
        rw [hx]
        exact (hB a ha).Mtfd x hx
    · rcases List.mem_singleton.1 hd with rfl
      exact (hB a ha).M
  have hext : ∀ M ∈ m.extent, B ≤ M := fun M hM => by
    rw [hr.extent] at hM
    obtain ⟨d, hd, rfl⟩ := List.mem_map.1 hM
    exact hmodes d hd
  obtain ⟨-, -, -, -, h2, -⟩ := adds_fixed as h
  refine ⟨?_, hext⟩
  have := hm.absExtent
  unfold Model.absExtent at this
  rw [h2] at this
  exact hext ae (List.max?_mem this)

theorem sameNumbers_assembled {P : Prims ℝ} {hopping lattice T : ℝ} {cap : Option Int} {as as' : List (AddArgs ℝ)}
    (hs : List.Forall₂ SameNumbersCall as as') (hc : Clean P hopping T as) (hc' : Clean P hopping T as')
    (h : (Model.fromParameters hopping lattice T cap 1).adds P as = .ok m)
    (h' : (Model.fromParameters hopping lattice T cap 1).adds P as' = .ok m') : SameNumbers m m' where
  toSameSystem := adds_same (sameCalls hs) (m := Model.fromParameters hopping lattice T cap 1)
    (m' := Model.fromParameters hopping lattice T cap 1) ⟨rfl, rfl, rfl⟩ rfl hc.valid hc'.valid h h'
  number := by
    have r1 := (adds_records (records_new hopping lattice T cap 1) h).number
    have r2 := (adds_records (records_new hopping lattice T cap 1) h').number
    rw [r1, r2, List.nil_append, List.nil_append,
      show (Model.fromParameters hopping lattice T cap 1).temperature = T from rfl, modes_of_clean hc, modes_of_clean hc']
    exact numbers_same hs
  cap := by
    obtain ⟨-, -, -, h1, -, -⟩ := adds_fixed as h
    obtain ⟨-, -, -, h2, -, -⟩ := adds_fixed as' h'
    rw [h1, h2]

/-- **C95**. Fix the couplings and the numbers of phonons, and let the extents vary. The problem without extents has one
solution, and the returned number differs from it by at most `4 V / η² · exp(-α (B - 2))` when all extents are at least
`B`: for every history of acceptable calls, at any temperature, for both solvers. -/
theorem C95_assembled (hopping lattice T : ℝ) (hl : hopping = 0 ∨ (0 < hopping ∧ lattice = 1))
    (cap : Option Int) (hcap : ∀ c, cap = some c → 1 ≤ c)
    (as : List (AddArgs ℝ)) (hne : as ≠ []) (hc : Clean realPrims hopping T as)
    (hf : ((modes T as).map (·.freq)).Nodup)
    (hb : (∀ a ∈ as, a.ctype = "BondPeierls") ∨ (∀ a ∈ as, a.ctype ≠ "BondPeierls"))
    (k w eta : ℝ) (heta : 0 < eta) :
    ∃ (m : Model ℝ) (u : States), (Model.fromParameters hopping lattice T cap 1).adds realPrims as = .ok m ∧
      Spread m k w eta u ∧ (∀ u', Spread m k w eta u' → u' = u) ∧
      ∀ (B : ℤ) (σ : SetOrder) (as' : List (AddArgs ℝ)), List.Forall₂ SameNumbersCall as as' →
        (∀ a ∈ as', Valid T a ∧ CallExtentsAtLeast B a) →
        ∃ m' b, (Model.fromParameters hopping lattice T cap 1).adds realPrims as' = .ok m' ∧
          buildSystem σ m' = .ok b ∧ (∃ G, Returned m' b ⟨k, w, eta⟩ G) ∧
          ∀ G, Returned m' b ⟨k, w, eta⟩ G → ∀ α, SiteRate m eta α → ‖G - u 0‖ ≤ extentBar m eta α B := by
  obtain ⟨m, -, h1, ⟨ae0, h2⟩, -⟩ := C16_assembled ⟨id, fun _ => List.Perm.refl _⟩ realPrims C42_names hopping lattice T cap hcap as hne hc hf hb
  have hp := physical_assembled h1 hb hl
  obtain ⟨u, hu, huniq⟩ := C95_exists m hp ae0 h2 k w eta heta
  refine ⟨m, u, h1, hu, huniq, fun B σ as' hs hv => ?_⟩
  have hs' := sameCalls hs
  have hc' := clean_same hc hs' (fun a ha => (hv a ha).1)
  have hne' : as' ≠ [] := by rintro rfl; cases hs; exact hne rfl
  have hf' : ((modes T as').map (·.freq)).Nodup := by
    rw [modes_of_clean hc', freqs_same hs', ← modes_of_clean hc]; exact hf
  have hb' : (∀ a ∈ as', a.ctype = "BondPeierls") ∨ (∀ a ∈ as', a.ctype ≠ "BondPeierls") := by
    rcases hb with hb | hb
    · refine Or.inl (fun a ha => ?_)
      obtain ⟨x, hx, h⟩ := forall₂_mem hs' a ha
      rw [h.ctype]; exact hb x hx
    · refine Or.inr (fun a ha => ?_)
      obtain ⟨x, hx, h⟩ := forall₂_mem hs' a ha
      rw [h.ctype]; exact hb x hx
  obtain ⟨m', b, k1, ⟨ae, k2⟩, k3⟩ := C16_assembled σ realPrims C42_names hopping lattice T cap hcap as' hne' hc' hf' hb'
  refine ⟨m', b, k1, k3, ?_, fun G hG α hα => ?_⟩
  · obtain ⟨H, -, -, h⟩ := C56_operator σ m' ae k2 b k3 (physical_assembled k1 hb' hl) k
    exact ⟨_, Or.inr (h w eta heta).2.2⟩
  · exact C95_error m hp (near_assembled h1) h2.toListsOk (fun h hh => h2.index h hh) k w eta heta u hu α hα B σ m' ae b G
      (sameNumbers_assembled hs hc hc' h1 k1) (extents_assembled hc' k1 k2 (fun a ha => (hv a ha).2)) k2 k3 hG

/-- C95: two calculations that differ in their extents only, all of them at least `B`. -/
theorem C95_pair (hopping lattice T : ℝ) (hl : hopping = 0 ∨ (0 < hopping ∧ lattice = 1))
    (cap : Option Int) (hcap : ∀ c, cap = some c → 1 ≤ c)
    (as : List (AddArgs ℝ)) (hne : as ≠ []) (hc : Clean realPrims hopping T as)
    (hf : ((modes T as).map (·.freq)).Nodup)
    (hb : (∀ a ∈ as, a.ctype = "BondPeierls") ∨ (∀ a ∈ as, a.ctype ≠ "BondPeierls"))
    (k w eta : ℝ) (heta : 0 < eta) (B : ℤ) (hB : ∀ a ∈ as, CallExtentsAtLeast B a) (as' : List (AddArgs ℝ))
    (hs : List.Forall₂ SameNumbersCall as as') (hv : ∀ a ∈ as', Valid T a ∧ CallExtentsAtLeast B a) (σ σ' : SetOrder)
    (m m' : Model ℝ) (b b' : Built ℝ) (G G' : ℂ)
    (h1 : (Model.fromParameters hopping lattice T cap 1).adds realPrims as = .ok m)
    (h2 : (Model.fromParameters hopping lattice T cap 1).adds realPrims as' = .ok m')
    (h3 : buildSystem σ m = .ok b) (h4 : buildSystem σ' m' = .ok b')
    (hG : Returned m b ⟨k, w, eta⟩ G) (hG' : Returned m' b' ⟨k, w, eta⟩ G') (α : ℝ) (hα : SiteRate m eta α) :
    ‖G - G'‖ ≤ 2 * extentBar m eta α B := by
  obtain ⟨m0, u, q1, -, -, q2⟩ := C95_assembled hopping lattice T hl cap hcap as hne hc hf hb k w eta heta
  rw [q1] at h1; cases h1
  obtain ⟨m1, b1, k1, k2, -, k3⟩ := q2 B σ as (List.forall₂_same.2 (fun a _ => ⟨⟨rfl, rfl, rfl, rfl, rfl⟩, rfl, rfl⟩))
    (fun a ha => ⟨hc.valid a ha, hB a ha⟩)
  rw [q1] at k1; cases k1
  rw [h3] at k2; cases k2
  obtain ⟨m2, b2, e1, e2, -, e3⟩ := q2 B σ' as' hs hv
  rw [h2] at e1; cases e1
  rw [h4] at e2; cases e2
  have a1 := k3 G hG α hα
  have a2 := e3 G' hG' α hα
  have a3 := norm_sub_le_norm_sub_add_norm_sub G (u 0) G'
  rw [norm_sub_rev (u 0) G'] at a3
  linarith

theorem partTerms_interaction : ∀ (ds : List (Part ℝ)) (i : ℕ) (f : ℕ → ℝ), (∀ d ∈ ds, Known d.ctype) →
    (∀ j (hj : j < ds.length), f (i + j) = (ds[j].N : ℝ)) →
    ((partTerms ds i).map (fun h : SingleTerm ℝ => |h.coupling| * √(f h.phononIndex))).sum =
      (ds.map (fun d => termCount d.ctype * |d.g| * √(d.N : ℝ))).sum
  | [], _, _, _, _ => by simp [partTerms]
  | d :: ds, i, f, hk, hf => by
    rw [partTerms_cons, List.map_append, List.sum_append, partTerms_interaction ds (i + 1) f
      (fun d hd => hk d (List.mem_cons_of_mem _ hd)) (fun j hj => by
        have := hf (j + 1) (by simpa using hj)
        rw [show i + (j + 1) = i + 1 + j by ring] at this
        simpa using this), List.map_cons, List.sum_cons]
    congr 1
    have h0 := hf 0 (by simp)
    rw [add_zero] at h0
    have e : (termsOf d.ctype d.g i d.freq).map (fun h : SingleTerm ℝ => |h.coupling| * √(f h.phononIndex)) =
        (termsOf d.ctype d.g i d.freq).map (fun h : SingleTerm ℝ => √(d.N : ℝ) * |h.coupling|) :=
      List.map_congr_left (fun h hh => by
        rw [(mem_termsOf hh).1, h0, mul_comm]; simp)
    rw [e, list_const_sum, mul_comm]
    congr 1
    have := hk d (by simp)
    rcases this with h | h | h | h <;> rw [h] <;> simp [termsOf, termShapes, termCount] <;> ring

/-- The size of the interaction of a model at zero temperature whose couplings are given as `phonon_coupling`: each call
contributes `|g| √N` as many times as its coupling type has terms (2, 4, 4, 8). -/
theorem C95_interaction (hopping lattice : ℝ) (cap : Option Int) (as : List (AddArgs ℝ))
    (hc : Clean realPrims hopping 0 as)
    (hf : ((modes 0 as).map (·.freq)).Nodup) (g : AddArgs ℝ → ℝ) (hg : ∀ a ∈ as, a.g = some (g a)) :
    ∃ m, (Model.fromParameters hopping lattice 0 cap 1).adds realPrims as = .ok m ∧
      m.ham.hopping = hopping ∧ interaction m = (as.map (fun a => termCount a.ctype * |g a| * √(a.N : ℝ))).sum := by
  refine ⟨_, fromParameters_blueprint hopping lattice 0 cap as hc hf, rfl, ?_⟩
  have e : parts realPrims hopping 0 as = as.map (fun a => ⟨a.ctype, a.freq, a.M, a.N, g a⟩) := by
    unfold parts
    rw [List.map_eq_flatMap]
    refine List.flatMap_congr (fun a ha => ?_)
    have hl : a.lam = none := by
      rcases (hc.valid a ha).strength with ⟨x, -, h⟩ | ⟨x, -, h⟩
      · exact h
      · rw [hg a ha] at h; cases h
    have hs : strengthD realPrims hopping a a.freq = g a :=
      strengthD_ok (by simp [Hamiltonian.strength, hg a ha, hl])
    simp only [partsAt, lt_irrefl, if_false, hs, mul_one]
  unfold interaction
  show ((partTerms (parts realPrims hopping 0 as) 0).map _).sum = _
  rw [e, partTerms_interaction _ 0 _ (fun d hd => by
    obtain ⟨a, ha, rfl⟩ := List.mem_map.1 hd
    exact hc.known a ha) (fun j hj => by
      unfold maxNumber blueprint
      rw [zero_add, List.getD_eq_getElem?_getD, List.getElem?_map, List.getElem?_eq_getElem hj]
      rfl), List.map_map]
  rfl

/-- C95: extents that suffice for a given accuracy grow like its logarithm. If all extents are at least `B` with
`α (B - 2) ≥ log (4 V / (η² ε))`, the error is at most `ε`. -/
theorem C95_accuracy (m : Model ℝ) (eta α ε : ℝ) (heta : 0 < eta) (hε : 0 < ε) (B : ℤ)
    (hB : Real.log (4 * interaction m / (eta ^ 2 * ε)) ≤ α * ((B : ℝ) - 2)) : extentBar m eta α B ≤ ε := by
  unfold extentBar
  rcases (interaction_nonneg m).eq_or_lt with h | h
  · rw [← h]; simpa using hε.le
  · have h1 : 0 < 4 * interaction m / (eta ^ 2 * ε) := by positivity
    have h2 := (Real.log_le_iff_le_exp h1).1 hB
    rw [Real.exp_neg, ← div_eq_mul_inv, div_le_iff₀ (Real.exp_pos _), div_le_iff₀ (by positivity)]
    rw [div_le_iff₀ (by positivity)] at h2
    linarith

/-- C95: whatever the couplings, an admissible rate exists. -/
theorem C95_rate (m : Model ℝ) (eta : ℝ) (heta : 0 < eta) : ∃ α, SiteRate m eta α := by
  have h := interaction_nonneg m
  have h2 := abs_nonneg m.ham.hopping
  refine ⟨min (3 / 20) (eta / (6 * (2 * |m.ham.hopping| + interaction m + 1))), lt_min (by norm_num) (by positivity),
    min_le_left _ _, ?_⟩
  have h3 := min_le_right (3 / 20 : ℝ) (eta / (6 * (2 * |m.ham.hopping| + interaction m + 1)))
  have h4 : 0 < 6 * (2 * |m.ham.hopping| + interaction m + 1) := by positivity
  rw [le_div_iff₀ h4] at h3
  have h5 : 0 < min (3 / 20 : ℝ) (eta / (6 * (2 * |m.ham.hopping| + interaction m + 1))) :=
    lt_min (by norm_num) (by positivity)
  nlinarith

/-- a call with other extents -/
def withExtent (j : ℤ) (a : AddArgs ℝ) : AddArgs ℝ := { a with M := j, Mtfd := a.Mtfd.map (fun _ => j) }

/-- The hypotheses of C95 are met, at `η = 1`, `t = 1`, by a Holstein–Peierls model with at most 3 and 2 phonons, for
which `V = 2 √3 + 4 √2 ≤ 10` and `α = 1/72` is admissible; and by a BondPeierls model at finite temperature. -/
example (k w : ℝ) :
    (∃ (m : Model ℝ) (u : States), (Model.fromParameters (1 : ℝ) 1 0 none 1).adds realPrims exCalls = .ok m ∧
      Spread m k w 1 u ∧ interaction m = 2 * √3 + 4 * √2 ∧ SiteRate m 1 (1 / 72) ∧
      ∀ (j : ℕ), 1 ≤ j → ∀ σ, ∃ m' b,
        (Model.fromParameters (1 : ℝ) 1 0 none 1).adds realPrims (exCalls.map (withExtent j)) = .ok m' ∧
        buildSystem σ m' = .ok b ∧ (∃ G, Returned m' b ⟨k, w, 1⟩ G) ∧
        ∀ G, Returned m' b ⟨k, w, 1⟩ G → ‖G - u 0‖ ≤ 40 * Real.exp (-(1 / 72 * ((j : ℝ) - 2)))) ∧
    (∃ (m : Model ℝ) (u : States) (α : ℝ), (Model.fromParameters (1 : ℝ) 1 1 none 1).adds realPrims exBondCalls = .ok m ∧
      Spread m k w 1 u ∧ SiteRate m 1 α) := by
  constructor
  · obtain ⟨h1, h2, h3⟩ := exCalls_clean
    obtain ⟨m, u, q1, q2, -, q3⟩ := C95_assembled 1 1 0 (Or.inr ⟨one_pos, rfl⟩) none (by simp) exCalls (by simp [exCalls])
      h1 h2 (Or.inr h3) k w 1 one_pos
    obtain ⟨m0, e1, e2, e3⟩ := C95_interaction 1 1 none exCalls h1 h2 (fun a => a.g.getD 0) (by simp [exCalls])
    rw [q1] at e1; cases e1
    have e4 : interaction m = 2 * √3 + 4 * √2 := by
      rw [e3]
      simp [exCalls, termCount]
      norm_num [abs_of_pos]
    have s3 : √3 ≤ (2 : ℝ) := Real.sqrt_le_iff.2 ⟨by norm_num, by norm_num⟩
    have s2 : √2 ≤ (3 / 2 : ℝ) := Real.sqrt_le_iff.2 ⟨by norm_num, by norm_num⟩
    have hr : SiteRate m 1 (1 / 72) := ⟨by norm_num, by norm_num, by rw [e2, e4, abs_one]; linarith⟩
    refine ⟨m, u, q1, q2, e4, hr, fun j hj σ => ?_⟩
    obtain ⟨m', b, k1, k2, k3, k4⟩ := q3 j σ (exCalls.map (withExtent j))
      (by
        rw [List.forall₂_map_right_iff, List.forall₂_same]
        exact fun a _ => ⟨⟨rfl, rfl, rfl, rfl, rfl⟩, rfl, rfl⟩)
      (fun a ha => by
        obtain ⟨x, hx, rfl⟩ := List.mem_map.1 ha
        have hv := h1.valid x hx
        have hj' : (1 : ℤ) ≤ j := by exact_mod_cast hj
        refine ⟨⟨hj', hv.number, fun y h => by rw [map_const h]; exact hj', hv.numberTfd,
          fun hT => absurd hT (lt_irrefl _), hv.strength, hv.override⟩, le_rfl, fun y h => by rw [map_const h]⟩)
    refine ⟨m', b, k1, k2, k3, fun G hG => (k4 G hG _ hr).trans ?_⟩
    unfold extentBar
    rw [e4]
    refine mul_le_mul_of_nonneg_right ?_ (Real.exp_pos _).le
    linarith
  · obtain ⟨h1, h2, h3⟩ := exBondCalls_clean
    obtain ⟨m, u, q1, q2, -⟩ := C95_assembled 1 1 1 (Or.inr ⟨one_pos, rfl⟩) none (by simp) exBondCalls
      (by simp [exBondCalls]) h1 h2 (Or.inl h3) k w 1 one_pos
    obtain ⟨α, hα⟩ := C95_rate m 1 one_pos
    exact ⟨m, u, α, q1, q2, hα⟩

end GGCE.Props
