import Verif.Props.Operator
import Verif.Proofs.Untruncated

/-!
Property C60: as the limits grow, the returned numbers converge to the Green's function of the Hamiltonian
without limits.
-/

set_option linter.unusedSectionVars false

namespace GGCE.Props
open Spec Arr Complex ComplexConjugate Filter Topology
open scoped InnerProductSpace

variable {m m' : Model ℝ} {ae : ℤ} {k w eta : ℝ}

theorem bare_off (n : Occ) (h : n ≠ (hops m k).o) : (bare : States) n = 0 := by
  rw [bare_apply]; exact if_neg h

theorem untruncated_iff (u : States) : Untruncated m k w eta u ↔ (hops m k).Exact (energyAt w eta) bare u := by
  constructor
  · intro h
    refine ⟨h.outside, h.number, fun n hn => ?_⟩
    have := h.motion n hn
    rw [bare_apply]
    rw [← hops_act_all u hn] at this
    exact this
  · intro h
    refine ⟨h.outside, h.number, fun n hn => ?_⟩
    have := h.motion n hn
    rw [bare_apply] at this
    rw [← hops_act_all u hn]
    exact this

/-- C60, for well-formed models. The Hamiltonian without limits has exactly one Green's function `u`, and the
numbers returned by the solvers for any models that differ from it in their limits only converge to `u 0` as the
limits grow, in whatever way they grow. -/
theorem C60_converges (m : Model ℝ) (hp : Physical m) (k w eta : ℝ) (heta : 0 < eta) :
    ∃ u : States, Untruncated m k w eta u ∧ (∀ u', Untruncated m k w eta u' → u' = u) ∧
      ∀ ε > 0, ∃ B : ℤ, ∀ (σ : SetOrder) (m' : Model ℝ) (ae : ℤ) (b : Built ℝ) (G : ℂ), SameSystem m m' →
        LimitsAtLeast B m' ae → WellFormed m' ae → buildSystem σ m' = .ok b → Returned m' b ⟨k, w, eta⟩ G →
        ‖G - u 0‖ ≤ ε := by
  obtain ⟨c, hs⟩ := hp.shifts
  have hQ := hops_ok (k := k) hs hp.adj
  have hz : (energyAt w eta).im ≠ 0 := by rw [energyAt_im]; exact heta.ne'
  obtain ⟨u, hu⟩ := Hops.exists_exact hQ hz (v := bare) bare_off norm_bare
  refine ⟨u, (untruncated_iff u).2 hu, fun u' hu' =>
    Hops.exact_unique hQ hz bare_off ((untruncated_iff u').1 hu') hu, fun ε hε => ?_⟩
  obtain ⟨F, hFS, hF⟩ := Hops.converges hQ hz bare_off hu hε
  have hB : ∃ B : ℤ, ∀ n ∈ F, ∀ (m' : Model ℝ) (ae : ℤ), m'.nTypes = m.nTypes → ListsOk m' →
      LimitsAtLeast B m' ae → Allowed m' ae n := by
    clear hF
    induction F using Finset.cons_induction with
    | empty => exact ⟨0, fun n hn => by simp at hn⟩
    | cons a F ha ih =>
      obtain ⟨B, hB⟩ := ih (fun n hn => hFS n (Finset.mem_cons_of_mem hn))
      obtain ⟨B', hB'⟩ := Conceivable.allowed (hFS a (Finset.mem_cons_self a F))
      refine ⟨max B B', fun n hn m' ae h1 h2 h3 => ?_⟩
      have mono : ∀ {B B' : ℤ}, B ≤ B' → LimitsAtLeast B' m' ae → LimitsAtLeast B m' ae := fun hle h =>
        ⟨hle.trans h.window, fun x hx => hle.trans (h.extent x hx), fun x hx => hle.trans (h.number x hx),
          fun c hc => hle.trans (h.cap c hc)⟩
      rcases Finset.mem_cons.1 hn with rfl | hn
      · exact hB' m' ae h1 h2 (mono (le_max_right _ _) h3)
      · exact hB n hn m' ae h1 h2 (mono (le_max_left _ _) h3)
  obtain ⟨B, hB⟩ := hB
  refine ⟨B, fun σ m' ae b G hsame hlim hm' hb hG => ?_⟩
  have hp' : Physical m' := by
    refine ⟨⟨c, ?_⟩, ?_, ?_⟩
    · unfold ShiftsOk; rw [hsame.ham]; exact hs
    · rw [hsame.ham]; exact hp.adj
    · rw [hsame.ham, hsame.lattice]; exact hp.lattice
  obtain ⟨H, h1, h2, h3⟩ := C56_returned σ m' ae hm' b hb hp' k
  have hsub := hops_sub (k := k) hm'.toListsOk (allowed_zero hm'.toShaped)
  rw [hops_same hsame] at hsub
  have hop : H = (hops m k).op (Allowed m' ae) := by
    ext f n
    rw [h2, Hops.op_apply hQ hsub, ← hops_same hsame, hops_act_allowed]
  have h4 := hF (Allowed m' ae) _ hsub (fun n hn => hB n hn m' ae hsame.types hm'.toListsOk hlim) 0
    (allowed_zero hm'.toShaped)
  rw [h3 w eta heta G hG]
  unfold green
  rw [inner_bare, hop]
  exact h4

/-! ### from the user's side -/

theorem add_same {P : Prims ℝ} {m m' m1 m1' : Model ℝ} {a a' : AddArgs ℝ} (hs : SameSystem m m')
    (hT : m'.temperature = m.temperature) (ha : SameCall a a') (hv : Valid m.temperature a)
    (hv' : Valid m.temperature a') (h : m.add P a = .ok m1) (h' : m'.add P a' = .ok m1') : SameSystem m1 m1' := by
  have e1 : m.addRejected a = false := (rejected_iff m a).2 hv
  have e2 : m'.addRejected a' = false := (rejected_iff m' a').2 (by rw [hT]; exact hv')
  have e3 : m'.callIndex a' = m.callIndex a := by unfold Model.callIndex; rw [ha.override, hs.types]
  have e4 : m'.tfdPrefactors P a'.freq = m.tfdPrefactors P a.freq := by
    unfold Model.tfdPrefactors; rw [hT, ha.freq]
  unfold Model.add at h h'
  rw [e1] at h
  rw [e2, e3, e4, hT, hs.ham, ha.ctype, ha.freq, ha.g, ha.lam] at h'
  simp only [Bool.false_eq_true, if_false] at h h'
  split at h
  · cases h
  · rename_i ham1 hh
    rw [hh] at h'
    simp only at h h'
    split at h
    · rename_i hpos
      rw [if_pos hpos] at h'
      split at h
      · cases h
      · rename_i ham2 hh2
        simp only [hh2] at h'
        split at h
        · cases h
          split at h'
          · cases h'
            exact ⟨rfl, hs.lattice, by simp [hs.types]⟩
          · cases h'
        · cases h
    · rename_i hpos
      rw [if_neg hpos] at h'
      cases h
      cases h'
      exact ⟨rfl, hs.lattice, by simp [hs.types]⟩

theorem adds_same {P : Prims ℝ} {as as' : List (AddArgs ℝ)} (hsame : List.Forall₂ SameCall as as') :
    ∀ {m m' m1 m1' : Model ℝ}, SameSystem m m' → m'.temperature = m.temperature →
      (∀ a ∈ as, Valid m.temperature a) → (∀ a ∈ as', Valid m.temperature a) →
      m.adds P as = .ok m1 → m'.adds P as' = .ok m1' → SameSystem m1 m1' := by
  induction hsame with
  | nil =>
    intro m m' m1 m1' hs _ _ _ h h'
    cases h; cases h'; exact hs
  | cons ha _ ih =>
    intro m m' m1 m1' hs hT hv hv' h h'
    unfold Model.adds at h h'
    split at h
    · cases h
    · rename_i m2 h2
      split at h'
      · cases h'
      · rename_i m2' h2'
        have t1 : m2.temperature = m.temperature := (add_fixed h2).1
        have t2 : m2'.temperature = m'.temperature := (add_fixed h2').1
        refine ih (add_same hs hT ha (hv _ List.mem_cons_self) (hv' _ List.mem_cons_self) h2 h2')
          (by rw [t2, hT, t1]) (fun a ha => by rw [t1]; exact hv a (List.mem_cons_of_mem _ ha))
          (fun a ha => by rw [t1]; exact hv' a (List.mem_cons_of_mem _ ha)) h h'

theorem forall₂_mem {α : Type} {R : α → α → Prop} {l l' : List α} (h : List.Forall₂ R l l') :
    ∀ b ∈ l', ∃ a ∈ l, R a b := by
  induction h with
  | nil => simp
  | cons hab _ ih =>
    intro b hb
    rcases List.mem_cons.1 hb with rfl | hb
    · exact ⟨_, List.mem_cons_self, hab⟩
    · obtain ⟨a, ha, hr⟩ := ih b hb
      exact ⟨a, List.mem_cons_of_mem _ ha, hr⟩

theorem clean_same {P : Prims ℝ} {hopping T : ℝ} {as as' : List (AddArgs ℝ)} (hc : Clean P hopping T as)
    (hs : List.Forall₂ SameCall as as') (hv : ∀ a ∈ as', Valid T a) : Clean P hopping T as' where
  valid := hv
  known a ha := by
    obtain ⟨x, hx, h⟩ := forall₂_mem hs a ha
    rw [h.ctype]; exact hc.known x hx
  noOverride a ha := by
    obtain ⟨x, hx, h⟩ := forall₂_mem hs a ha
    rw [h.override]; exact hc.noOverride x hx
  defined a ha := by
    obtain ⟨x, hx, h⟩ := forall₂_mem hs a ha
    unfold Defined
    rw [h.ctype, h.freq, h.lam]; exact hc.defined x hx

theorem freqs_same {T : ℝ} {as as' : List (AddArgs ℝ)} (hs : List.Forall₂ SameCall as as') :
    ((as'.flatMap (modesAt T)).map (·.freq)) = ((as.flatMap (modesAt T)).map (·.freq)) := by
  induction hs with
  | nil => rfl
  | cons h _ ih =>
    simp only [List.flatMap_cons, List.map_append, ih]
    congr 1
    unfold modesAt
    split <;> simp [h.freq]

theorem limits_assembled {P : Prims ℝ} {hopping lattice T : ℝ} {cap : Option Int} {as : List (AddArgs ℝ)}
    {m : Model ℝ} {ae B : ℤ} (hc : Clean P hopping T as)
    (h : (Model.fromParameters hopping lattice T cap 1).adds P as = .ok m) (hm : WellFormed m ae)
    (hcap : ∀ c, cap = some c → B ≤ c) (hB : ∀ a ∈ as, CallAtLeast B a) : LimitsAtLeast B m ae := by
  have hr := adds_records (records_new hopping lattice T cap 1) h
  rw [List.nil_append, show (Model.fromParameters hopping lattice T cap 1).temperature = T from rfl,
    modes_of_clean hc] at hr
  have hmodes : ∀ d ∈ as.flatMap (modesAt T), B ≤ d.M ∧ B ≤ d.N := by
    intro d hd
    obtain ⟨a, ha, hd⟩ := List.mem_flatMap.1 hd
    unfold modesAt at hd
    split at hd
    · rename_i hT
      rcases List.mem_cons.1 hd with rfl | hd
      · exact ⟨(hB a ha).M, (hB a ha).N⟩
      · rcases List.mem_singleton.1 hd with rfl
        obtain ⟨⟨x, hx⟩, y, hy⟩ := (hc.valid a ha).tfd hT
        show B ≤ a.Mtfd.getD 0 ∧ B ≤ a.Ntfd.getD 0
        rw [hx, hy]
        exact ⟨(hB a ha).Mtfd x hx, (hB a ha).Ntfd y hy⟩
    · rcases List.mem_singleton.1 hd with rfl
      exact ⟨(hB a ha).M, (hB a ha).N⟩
  have hext : ∀ M ∈ m.extent, B ≤ M := fun M hM => by
    rw [hr.extent] at hM
    obtain ⟨d, hd, rfl⟩ := List.mem_map.1 hM
    exact (hmodes d hd).1
  obtain ⟨-, -, -, h1, h2, -⟩ := adds_fixed as h
  refine ⟨?_, hext, fun N hN => ?_, fun c hc' => hcap c ?_⟩
  · have := hm.absExtent
    unfold Model.absExtent at this
    rw [h2] at this
    exact hext ae (List.max?_mem this)
  · rw [hr.number] at hN
    obtain ⟨d, hd, rfl⟩ := List.mem_map.1 hN
    exact (hmodes d hd).2
  · rw [h1] at hc'; exact hc'

/-- **C60**. Fix the couplings, and let the limits (`M`, `N`, the limits of the fictitious phonons at finite
temperature, the cap) grow in whatever way. Then the model can be made, the system can be built, both solvers
return a number, and that number converges to the one Green's function of the Hamiltonian without limits. -/
theorem C60_assembled (hopping lattice T : ℝ) (hl : hopping = 0 ∨ (0 < hopping ∧ lattice = 1))
    (as : List (AddArgs ℝ)) (hne : as ≠ []) (hc : Clean realPrims hopping T as)
    (hf : ((modes T as).map (·.freq)).Nodup)
    (hb : (∀ a ∈ as, a.ctype = "BondPeierls") ∨ (∀ a ∈ as, a.ctype ≠ "BondPeierls"))
    (k w eta : ℝ) (heta : 0 < eta) :
    ∃ (m : Model ℝ) (u : States), (Model.fromParameters hopping lattice T none 1).adds realPrims as = .ok m ∧
      Untruncated m k w eta u ∧ (∀ u', Untruncated m k w eta u' → u' = u) ∧
      ∀ ε > 0, ∃ B : ℤ, ∀ (σ : SetOrder) (cap : Option Int) (as' : List (AddArgs ℝ)),
        (∀ c, cap = some c → 1 ≤ c ∧ B ≤ c) → List.Forall₂ SameCall as as' →
        (∀ a ∈ as', Valid T a ∧ CallAtLeast B a) →
        ∃ m' b, (Model.fromParameters hopping lattice T cap 1).adds realPrims as' = .ok m' ∧
          buildSystem σ m' = .ok b ∧ (∃ G, Returned m' b ⟨k, w, eta⟩ G) ∧
          ∀ G, Returned m' b ⟨k, w, eta⟩ G → ‖G - u 0‖ ≤ ε := by
  obtain ⟨m, -, h1, -, -⟩ := assembled C42_names.known hopping lattice T none (by simp) as hne hc hf
  obtain ⟨u, hu, huniq, hlim⟩ := C60_converges m (physical_assembled h1 hb hl) k w eta heta
  refine ⟨m, u, h1, hu, huniq, fun ε hε => ?_⟩
  obtain ⟨B, hB⟩ := hlim ε hε
  refine ⟨B, fun σ cap as' hcap hs hv => ?_⟩
  have hc' := clean_same hc hs (fun a ha => (hv a ha).1)
  have hne' : as' ≠ [] := by rintro rfl; cases hs; exact hne rfl
  have hf' : ((modes T as').map (·.freq)).Nodup := by
    rw [modes_of_clean hc', freqs_same hs, ← modes_of_clean hc]; exact hf
  have hb' : (∀ a ∈ as', a.ctype = "BondPeierls") ∨ (∀ a ∈ as', a.ctype ≠ "BondPeierls") := by
    rcases hb with hb | hb
    · refine Or.inl (fun a ha => ?_)
      obtain ⟨x, hx, h⟩ := forall₂_mem hs a ha
      rw [h.ctype]; exact hb x hx
    · refine Or.inr (fun a ha => ?_)
      obtain ⟨x, hx, h⟩ := forall₂_mem hs a ha
      rw [h.ctype]; exact hb x hx
  obtain ⟨m', b, k1, ⟨ae, k2⟩, k3⟩ := C16_assembled σ realPrims C42_names hopping lattice T cap
    (fun c h => (hcap c h).1) as' hne' hc' hf' hb'
  refine ⟨m', b, k1, k3, ?_, fun G hG => ?_⟩
  · obtain ⟨H, -, -, h⟩ := C56_operator σ m' ae k2 b k3 (physical_assembled k1 hb' hl) k
    exact ⟨_, Or.inr (h w eta heta).2.2⟩
  · exact hB σ m' ae b G
      (adds_same hs (m := Model.fromParameters hopping lattice T none 1) (m' := Model.fromParameters hopping lattice T cap 1)
        ⟨rfl, rfl, rfl⟩ rfl hc.valid hc'.valid h1 k1)
      (limits_assembled hc' k1 k2 (fun c h => (hcap c h).2) (fun a ha => (hv a ha).2)) k2 k3 hG

/-- a call with all its limits set to `j` -/
def withLimits (j : ℤ) (a : AddArgs ℝ) : AddArgs ℝ :=
  { a with M := j, N := j, Mtfd := a.Mtfd.map (fun _ => j), Ntfd := a.Ntfd.map (fun _ => j) }

theorem map_const {o : Option ℤ} {j y : ℤ} (h : o.map (fun _ => j) = some y) : y = j := by
  cases o with
  | none => simp at h
  | some z => simpa using h.symm

theorem valid_withLimits {P : Prims ℝ} {hopping T : ℝ} {as : List (AddArgs ℝ)} (hc : Clean P hopping T as) {j : ℕ}
    (hj : 1 ≤ j) : ∀ a ∈ as.map (withLimits j), Valid T a := by
  intro a ha
  obtain ⟨x, hx, rfl⟩ := List.mem_map.1 ha
  have hv := hc.valid x hx
  have hj' : (1 : ℤ) ≤ j := by exact_mod_cast hj
  refine ⟨hj', hj', fun y h => by rw [map_const h]; exact hj', fun y h => by rw [map_const h]; exact hj',
    fun hT => ?_, hv.strength, hv.override⟩
  obtain ⟨⟨y, hy⟩, z, hz⟩ := hv.tfd hT
  exact ⟨⟨j, by simp [withLimits, hy]⟩, j, by simp [withLimits, hz]⟩

/-- C60 along the sequence of models with all limits equal to `j`: the values converge. -/
theorem C60_sequence (hopping lattice T : ℝ) (hl : hopping = 0 ∨ (0 < hopping ∧ lattice = 1))
    (as : List (AddArgs ℝ)) (hne : as ≠ []) (hc : Clean realPrims hopping T as)
    (hf : ((modes T as).map (·.freq)).Nodup)
    (hb : (∀ a ∈ as, a.ctype = "BondPeierls") ∨ (∀ a ∈ as, a.ctype ≠ "BondPeierls"))
    (k w eta : ℝ) (heta : 0 < eta) (σ : SetOrder) (G : ℕ → ℂ)
    (hG : ∀ j : ℕ, 1 ≤ j → ∀ m b, (Model.fromParameters hopping lattice T none 1).adds realPrims
      (as.map (withLimits j)) = .ok m → buildSystem σ m = .ok b → Returned m b ⟨k, w, eta⟩ (G j)) :
    ∃ (m : Model ℝ) (u : States), (Model.fromParameters hopping lattice T none 1).adds realPrims as = .ok m ∧
      Untruncated m k w eta u ∧ Tendsto G atTop (𝓝 (u 0)) := by
  obtain ⟨m, u, h1, h2, -, h4⟩ := C60_assembled hopping lattice T hl as hne hc hf hb k w eta heta
  refine ⟨m, u, h1, h2, Metric.tendsto_atTop.2 (fun ε hε => ?_)⟩
  obtain ⟨B, hB⟩ := h4 (ε / 2) (by positivity)
  refine ⟨max 1 B.toNat, fun j hj => ?_⟩
  have hj1 : 1 ≤ j := (le_max_left _ _).trans hj
  have hjB : B ≤ j := (Int.self_le_toNat B).trans (by exact_mod_cast (le_max_right _ _).trans hj)
  have hsame : List.Forall₂ SameCall as (as.map (withLimits j)) := by
    rw [List.forall₂_map_right_iff, List.forall₂_same]
    exact fun a _ => ⟨rfl, rfl, rfl, rfl, rfl⟩
  have hval : ∀ a ∈ as.map (withLimits j), Valid T a ∧ CallAtLeast B a := by
    intro a ha
    refine ⟨valid_withLimits hc hj1 a ha, ?_⟩
    obtain ⟨x, hx, rfl⟩ := List.mem_map.1 ha
    exact ⟨hjB, hjB, fun y h => by rw [map_const h]; exact hjB, fun y h => by rw [map_const h]; exact hjB⟩
  obtain ⟨m', b, k1, k2, -, k4⟩ := hB σ none (as.map (withLimits j)) (by simp) hsame hval
  have := k4 (G j) (hG j hj1 m' b k1 k2)
  rw [dist_eq_norm]
  linarith

/-- The hypotheses of C60 are met by a Holstein–Peierls model and by a BondPeierls model at finite temperature, for
which a converging sequence of values exists. -/
example (σ : SetOrder) (k w eta : ℝ) (heta : 0 < eta) :
    (∃ (m : Model ℝ) (u : States) (G : ℕ → ℂ), (Model.fromParameters (1 : ℝ) 1 0 none 1).adds realPrims exCalls = .ok m ∧
      (∀ j : ℕ, 1 ≤ j → ∀ m b, (Model.fromParameters (1 : ℝ) 1 0 none 1).adds realPrims (exCalls.map (withLimits j)) = .ok m →
        buildSystem σ m = .ok b → Returned m b ⟨k, w, eta⟩ (G j)) ∧
      Untruncated m k w eta u ∧ Tendsto G atTop (𝓝 (u 0))) ∧
    (∃ (m : Model ℝ) (u : States), (Model.fromParameters (1 : ℝ) 1 1 none 1).adds realPrims exBondCalls = .ok m ∧
      Untruncated m k w eta u) := by
  constructor
  · obtain ⟨h1, h2, h3⟩ := exCalls_clean
    have hex : ∀ j : ℕ, ∃ G : ℂ, 1 ≤ j → ∀ m b, (Model.fromParameters (1 : ℝ) 1 0 none 1).adds realPrims
        (exCalls.map (withLimits j)) = .ok m → buildSystem σ m = .ok b → Returned m b ⟨k, w, eta⟩ G := by
      intro j
      by_cases hj : 1 ≤ j
      · have hs : List.Forall₂ SameCall exCalls (exCalls.map (withLimits j)) := by
          rw [List.forall₂_map_right_iff, List.forall₂_same]
          exact fun a _ => ⟨rfl, rfl, rfl, rfl, rfl⟩
        have hc' := clean_same h1 hs (valid_withLimits h1 hj)
        have hf' : ((modes (0 : ℝ) (exCalls.map (withLimits j))).map (·.freq)).Nodup := by
          rw [modes_of_clean hc', freqs_same hs, ← modes_of_clean h1]; exact h2
        have hb' : ∀ a ∈ exCalls.map (withLimits j), a.ctype ≠ "BondPeierls" := fun a ha => by
          obtain ⟨x, hx, rfl⟩ := List.mem_map.1 ha
          exact h3 x hx
        obtain ⟨m, b, k1, ⟨ae, k2⟩, k3⟩ := C16_assembled σ realPrims C42_names 1 1 0 none (by simp)
          (exCalls.map (withLimits j)) (by simp [exCalls]) hc' hf' (Or.inr hb')
        obtain ⟨H, -, -, k4⟩ := C56_operator σ m ae k2 b k3
          (physical_assembled k1 (Or.inr hb') (Or.inr ⟨one_pos, rfl⟩)) k
        refine ⟨⟪bare, resolvent H (energyAt w eta) bare⟫_ℂ, fun _ m' b' q1 q2 => ?_⟩
        rw [k1] at q1; cases q1
        rw [k3] at q2; cases q2
        exact Or.inr (k4 w eta heta).2.2
      · exact ⟨0, fun h => absurd h hj⟩
    choose G hG using hex
    obtain ⟨m, u, q1, q2, q3⟩ := C60_sequence 1 1 0 (Or.inr ⟨one_pos, rfl⟩) exCalls (by simp [exCalls]) h1 h2 (Or.inr h3)
      k w eta heta σ G hG
    exact ⟨m, u, G, q1, hG, q2, q3⟩
  · obtain ⟨h1, h2, h3⟩ := exBondCalls_clean
    obtain ⟨m, u, q1, q2, -⟩ := C60_assembled 1 1 1 (Or.inr ⟨one_pos, rfl⟩) exBondCalls (by simp [exBondCalls]) h1 h2
      (Or.inl h3) k w eta heta
    exact ⟨m, u, q1, q2⟩

end GGCE.Props
