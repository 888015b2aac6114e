import Verif.Spec.Cold
import Verif.Props.Sumrules

/-!
Property C91: a cold model is close to the one at zero temperature.
-/

set_option linter.unusedSectionVars false

namespace GGCE.Props
open Spec Arr Complex Filter Topology

/-- the call whose phonons are the fictitious phonons of `a`, without coupling -/
noncomputable def ghost (a : AddArgs ℝ) : AddArgs ℝ :=
  { ctype := a.ctype, freq := -a.freq, M := a.Mtfd.getD 0, N := a.Ntfd.getD 0, g := some 0 }

theorem ghost_perm : ∀ as : List (AddArgs ℝ), (as ++ as.map ghost).Perm (as.flatMap (fun a => [a, ghost a]))
  | [] => by simp
  | a :: as => by
    rw [List.flatMap_cons, List.cons_append, List.map_cons, List.cons_append, List.cons_append, List.nil_append]
    exact (List.perm_middle.trans ((ghost_perm as).cons _)).cons _

theorem clean_ghost {hopping T : ℝ} {as : List (AddArgs ℝ)} (hT : 0 < T) (hc : Clean realPrims hopping T as) :
    Clean realPrims hopping 0 (as ++ as.map ghost) := by
  constructor <;> intro a ha <;> rcases List.mem_append.1 ha with ha | ha
  · have := hc.valid a ha
    exact ⟨this.extent, this.number, this.extentTfd, this.numberTfd, fun h => absurd h (lt_irrefl _), this.strength,
      fun h => absurd h (lt_irrefl _)⟩
  · obtain ⟨a, h, rfl⟩ := List.mem_map.1 ha
    have := hc.valid a h
    obtain ⟨⟨x, hx⟩, y, hy⟩ := this.tfd hT
    refine ⟨?_, ?_, by simp [ghost], by simp [ghost], fun h => absurd h (lt_irrefl _), Or.inl ⟨0, rfl, rfl⟩,
      fun h => absurd h (lt_irrefl _)⟩
    · show 1 ≤ a.Mtfd.getD 0
      rw [hx]; exact this.extentTfd x hx
    · show 1 ≤ a.Ntfd.getD 0
      rw [hy]; exact this.numberTfd y hy
  · exact hc.known a ha
  · obtain ⟨a, h, rfl⟩ := List.mem_map.1 ha
    exact hc.known a h
  · exact hc.noOverride a ha
  · obtain ⟨a, h, rfl⟩ := List.mem_map.1 ha
    rfl
  · exact hc.defined a ha
  · obtain ⟨a, h, rfl⟩ := List.mem_map.1 ha
    intro l hl
    cases hl

theorem strengthD_neg {hopping : ℝ} (a : AddArgs ℝ) (f : ℝ) :
    strengthD realPrims hopping a (-f) = strengthD realPrims hopping a f := by
  have : ∀ l, realPrims.couplingMap a.ctype hopping (-f) l = realPrims.couplingMap a.ctype hopping f l := by
    intro l
    show couplingMapR a.ctype hopping (-f) l = couplingMapR a.ctype hopping f l
    unfold couplingMapR
    rw [abs_neg]
  unfold strengthD Hamiltonian.strength
  simp only [this]

theorem tfd_values {T f : ℝ} (hT : 0 < T) (hf : 0 < f) :
    (realPrims.tfd T f).1 = √(1 + thermal T f) ∧ (realPrims.tfd T f).2 = √(thermal T f) ∧ 0 ≤ thermal T f := by
  obtain ⟨h1, h2⟩ := tfd_thermal hT hf
  have h3 := tfd_eq T f hT hf
  have e1 : 0 ≤ (tfdR T f).1 := by rw [h3]; positivity
  have e2 : 0 ≤ (tfdR T f).2 := by rw [h3]; positivity
  refine ⟨?_, ?_, by rw [← h2]; positivity⟩
  · rw [← h1, Real.sqrt_sq e1]; rfl
  · rw [← h2, Real.sqrt_sq e2]; rfl

theorem cold_parts {hopping T : ℝ} (hT : 0 < T) : ∀ as : List (AddArgs ℝ), Clean realPrims hopping T as →
    (∀ a ∈ as, 0 < a.freq) →
    List.Forall₂ SamePart (parts realPrims hopping T as) (parts realPrims hopping 0 (as.flatMap (fun a => [a, ghost a]))) ∧
    (List.zipWith (fun d d' : Part ℝ => |d.freq - d'.freq| * (d.N : ℝ)) (parts realPrims hopping T as)
        (parts realPrims hopping 0 (as.flatMap (fun a => [a, ghost a])))).sum +
      (List.zipWith (fun d d' : Part ℝ => termCount d.ctype * (|d.g - d'.g| * √(d.N : ℝ)))
        (parts realPrims hopping T as) (parts realPrims hopping 0 (as.flatMap (fun a => [a, ghost a])))).sum =
      (as.map (coldShift hopping T)).sum
  | [], _, _ => by simp [parts]
  | a :: as, hc, hpos => by
    obtain ⟨i1, i2⟩ := cold_parts hT as ⟨fun x hx => hc.valid x (List.mem_cons_of_mem _ hx),
      fun x hx => hc.known x (List.mem_cons_of_mem _ hx), fun x hx => hc.noOverride x (List.mem_cons_of_mem _ hx),
      fun x hx => hc.defined x (List.mem_cons_of_mem _ hx)⟩ (fun x hx => hpos x (List.mem_cons_of_mem _ hx))
    have hk := hc.known a (by simp)
    obtain ⟨t1, t2, t3⟩ := tfd_values hT (hpos a (by simp))
    set g := strengthD realPrims hopping a a.freq with hg
    have p1 : partsAt realPrims hopping T a = [⟨a.ctype, a.freq, a.M, a.N, g * √(1 + thermal T a.freq)⟩,
        ⟨a.ctype, -a.freq, a.Mtfd.getD 0, a.Ntfd.getD 0, g * √(thermal T a.freq)⟩] := by
      unfold partsAt
      rw [if_pos hT, t1, t2, strengthD_neg]
    have p2 : partsAt realPrims hopping 0 a = [⟨a.ctype, a.freq, a.M, a.N, g⟩] := by
      unfold partsAt
      rw [if_neg (lt_irrefl _), mul_one]
    have p3 : partsAt realPrims hopping 0 (ghost a) = [⟨a.ctype, -a.freq, a.Mtfd.getD 0, a.Ntfd.getD 0, 0⟩] := by
      unfold partsAt
      rw [if_neg (lt_irrefl _), strengthD_ok (g := 0) (by simp [Hamiltonian.strength, ghost]), mul_one]
      rfl
    rw [List.flatMap_cons, List.cons_append, List.cons_append, List.nil_append, parts_cons, parts_cons, parts_cons, p1, p2, p3]
    refine ⟨.cons ⟨rfl, hk, rfl, rfl⟩ (.cons ⟨rfl, hk, rfl, rfl⟩ i1), ?_⟩
    simp only [List.cons_append, List.nil_append, List.zipWith_cons_cons, List.sum_cons, List.map_cons]
    rw [← i2]
    have hgs : |g| = √(strengthSq hopping a) := by
      rw [← Real.sqrt_sq_eq_abs, hg, strengthD_sq hk (hc.valid a (by simp)).strength (hc.defined a (by simp)) (Or.inl rfl)]
    have h1 : 1 ≤ √(1 + thermal T a.freq) := by
      rw [Real.one_le_sqrt]; linarith
    have e1 : |g * √(1 + thermal T a.freq) - g| = |g| * (√(1 + thermal T a.freq) - 1) := by
      rw [← mul_sub_one, abs_mul, abs_of_nonneg (by linarith : 0 ≤ √(1 + thermal T a.freq) - 1)]
    have e2 : |g * √(thermal T a.freq) - 0| = |g| * √(thermal T a.freq) := by
      rw [sub_zero, abs_mul, abs_of_nonneg (Real.sqrt_nonneg _)]
    rw [e1, e2]
    unfold coldShift
    rw [← hgs]
    simp only [sub_self, abs_zero, zero_mul, zero_add]
    ring

/-- **C91**. At a temperature above zero and at zero temperature the same calls give results that differ by at most the
sum of `coldShift` over `eta²`, if the fictitious phonons do not enlarge the absolute extent or there is only one call. -/
theorem C91_cold (σ σ' : SetOrder) (hopping lattice T : ℝ) (hT : 0 < T) (hl : hopping = 0 ∨ (0 < hopping ∧ lattice = 1))
    (cap : Option Int) (hcap : ∀ c, cap = some c → 1 ≤ c) (as : List (AddArgs ℝ)) (hne : as ≠ [])
    (hc : Clean realPrims hopping T as) (hf : ((modes T as).map (·.freq)).Nodup)
    (hb : (∀ a ∈ as, a.ctype = "BondPeierls") ∨ (∀ a ∈ as, a.ctype ≠ "BondPeierls")) (hpos : ∀ a ∈ as, 0 < a.freq)
    (hM : (∀ a ∈ as, ∃ a' ∈ as, a.Mtfd.getD 0 ≤ a'.M) ∨ as.length = 1) :
    ∃ m b m' b', (Model.fromParameters hopping lattice T cap 1).adds realPrims as = .ok m ∧
      (Model.fromParameters hopping lattice 0 cap 1).adds realPrims as = .ok m' ∧
      buildSystem σ m = .ok b ∧ buildSystem σ' m' = .ok b' ∧
      ∀ k w eta : ℝ, 0 < eta → ∃ G G', Gives m b ⟨k, w, eta⟩ G ∧ Gives m' b' ⟨k, w, eta⟩ G' ∧
        ‖G - G'‖ ≤ (as.map (coldShift hopping T)).sum / eta ^ 2 := by
  have hcg := clean_ghost hT hc
  have hpm := ghost_perm as
  have hfm : (modes T as).map (·.freq) = (as.flatMap (fun a => [a, ghost a])).map (·.freq) := by
    rw [modes_of_clean hc]
    clear hne hc hf hb hpos hM hcg hpm
    induction as with
    | nil => rfl
    | cons a as ih =>
      rw [List.flatMap_cons, List.flatMap_cons, List.map_append, List.map_append, ih]
      unfold modesAt
      rw [if_pos hT]; rfl
  have hm0 : ∀ bs : List (AddArgs ℝ), Clean realPrims hopping 0 bs → (modes 0 bs).map (·.freq) = bs.map (·.freq) := by
    intro bs hbs
    rw [modes_of_clean hbs]
    clear hbs
    induction bs with
    | nil => rfl
    | cons a as ih =>
      rw [List.flatMap_cons, List.map_append, ih]
      unfold modesAt
      rw [if_neg (lt_irrefl _)]; rfl
  have hfg : ((modes 0 (as ++ as.map ghost)).map (·.freq)).Nodup := by
    rw [hm0 _ hcg, (hpm.map _).nodup_iff, ← hfm]; exact hf
  have hbg : (∀ a ∈ as ++ as.map ghost, a.ctype = "BondPeierls") ∨ (∀ a ∈ as ++ as.map ghost, a.ctype ≠ "BondPeierls") := by
    have : ∀ a ∈ as ++ as.map ghost, ∃ a' ∈ as, a.ctype = a'.ctype := by
      intro a ha
      rcases List.mem_append.1 ha with h | h
      · exact ⟨a, h, rfl⟩
      · obtain ⟨x, hx, rfl⟩ := List.mem_map.1 h
        exact ⟨x, hx, rfl⟩
    rcases hb with h | h
    · left; intro a ha; obtain ⟨x, hx, e⟩ := this a ha; rw [e]; exact h x hx
    · right; intro a ha; obtain ⟨x, hx, e⟩ := this a ha; rw [e]; exact h x hx
  have hca : Clean realPrims hopping 0 as :=
    ⟨fun a ha => hcg.valid a (List.mem_append_left _ ha), fun a ha => hcg.known a (List.mem_append_left _ ha),
      fun a ha => hcg.noOverride a (List.mem_append_left _ ha), fun a ha => hcg.defined a (List.mem_append_left _ ha)⟩
  have hmo : ∀ bs : List (AddArgs ℝ), Clean realPrims hopping 0 bs → modes (0 : ℝ) bs = bs.map (fun a => ⟨a.freq, a.M, a.N⟩) := by
    intro bs hbs
    rw [modes_of_clean hbs]
    clear hbs
    induction bs with
    | nil => rfl
    | cons a as ih =>
      rw [List.flatMap_cons, ih]
      unfold modesAt
      rw [if_neg (lt_irrefl _)]; rfl
  have hcgh : Clean realPrims hopping 0 (as.map ghost) :=
    ⟨fun a ha => hcg.valid a (List.mem_append_right _ ha), fun a ha => hcg.known a (List.mem_append_right _ ha),
      fun a ha => hcg.noOverride a (List.mem_append_right _ ha), fun a ha => hcg.defined a (List.mem_append_right _ ha)⟩
  obtain ⟨m0, b0, m1, b1, k1, k2, k3, k4, k5⟩ := C64_silent σ' σ' hopping lattice 0 hl cap hcap as (as.map ghost) _ hpm hne
    hcg hfg hbg (fun a ha => by obtain ⟨x, -, rfl⟩ := List.mem_map.1 ha; exact Or.inl rfl) (by
      rw [hmo _ hca, hmo _ hcgh]
      rcases hM with h | h
      · left
        intro d hd
        obtain ⟨y, hy, rfl⟩ := List.mem_map.1 hd
        obtain ⟨x, hx, rfl⟩ := List.mem_map.1 hy
        obtain ⟨a', ha', hle⟩ := h x hx
        exact ⟨_, List.mem_map.2 ⟨a', ha', rfl⟩, hle⟩
      · right; rw [List.length_map]; exact h)
  obtain ⟨m, b, h1, ⟨ae, h2⟩, h3⟩ := C16_assembled σ realPrims C42_names hopping lattice T cap hcap as hne hc hf hb
  refine ⟨m, b, m0, b0, h1, k1, h3, k3, fun k w eta heta => ?_⟩
  obtain ⟨G', g1, g2⟩ := k5 k w eta heta
  have hcf := clean_perm hpm hcg
  have hff : ((modes 0 (as.flatMap (fun a => [a, ghost a]))).map (·.freq)).Nodup := by
    rw [hm0 _ hcf, ← hfm]; exact hf
  have hbf : (∀ a ∈ as.flatMap (fun a => [a, ghost a]), a.ctype = "BondPeierls") ∨
      (∀ a ∈ as.flatMap (fun a => [a, ghost a]), a.ctype ≠ "BondPeierls") := by
    rcases hbg with h | h
    · exact Or.inl (fun a ha => h a (hpm.mem_iff.2 ha))
    · exact Or.inr (fun a ha => h a (hpm.mem_iff.2 ha))
  obtain ⟨m2, b2, q1, ⟨ae', q2⟩, q3⟩ := C16_assembled σ' realPrims C42_names hopping lattice 0 cap hcap _
    (by
      intro q
      rw [q] at hpm
      exact hne (List.append_eq_nil_iff.1 hpm.eq_nil).1) hcf hff hbf
  rw [k2] at q1; cases q1
  rw [k4] at q3; cases q3
  have hp := physical_assembled h1 hb hl
  have hp' := physical_assembled k2 hbf hl
  rw [fromParameters_blueprint hopping lattice T cap as hc hf] at h1
  rw [fromParameters_blueprint hopping lattice 0 cap _ hcf hff] at k2
  cases h1
  cases k2
  obtain ⟨hs, hd⟩ := cold_parts hT as hc hpos
  have hshape := blueprint_shape (hopping := hopping) (hopping' := hopping) (lattice := lattice) (T := T) (T' := 0)
    (cap := cap) hs
  have hae : ae' = ae := by
    have e1 := h2.absExtent
    have e2 := q2.absExtent
    have := hshape.extent
    simp only [Model.absExtent, blueprint] at this e1 e2
    rw [this, e1] at e2
    exact (Option.some.inj e2).symm
  subst hae
  obtain ⟨Ψ, -, -, r1, r2⟩ := C55_exact σ _ _ h2 b h3 hp ⟨k, w, eta⟩ heta
  have hfin := C66_parameters σ σ' _ _ _ h2 q2 b b1 h3 k4 hp hp' hshape k w eta heta _ _ (Or.inr r2) (returned_of_gives g2)
  rw [blueprint_distance hs, add_assoc, hd, sub_self, abs_zero, mul_zero, zero_add] at hfin
  exact ⟨Ψ 0 0, G', ⟨r1, r2⟩, g1, hfin⟩

theorem thermal_tendsto {f : ℝ} (hf : 0 < f) : Tendsto (fun T => thermal T f) (𝓝[>] 0) (𝓝 0) := by
  have h1 : Tendsto (fun T : ℝ => T / f) (𝓝[>] 0) (𝓝 0) := by
    have : Tendsto (fun T : ℝ => T / f) (𝓝 0) (𝓝 (0 / f)) := tendsto_id.div_const f
    rw [zero_div] at this
    exact this.mono_left nhdsWithin_le_nhds
  refine squeeze_zero' ?_ ?_ h1
  · filter_upwards [self_mem_nhdsWithin] with T hT
    exact (tfd_values hT hf).2.2
  · filter_upwards [self_mem_nhdsWithin] with T hT
    have hT : 0 < T := hT
    unfold thermal
    rw [if_pos hT]
    have hx : 0 < f / T := div_pos hf hT
    have := Real.add_one_le_exp (f / T)
    rw [div_le_iff₀ (by linarith)]
    calc (1 : ℝ) = T / f * (f / T) := by field_simp
      _ ≤ T / f * (Real.exp (f / T) - 1) := mul_le_mul_of_nonneg_left (by linarith) (by positivity)

theorem coldShift_tendsto {hopping : ℝ} {a : AddArgs ℝ} (hf : 0 < a.freq) :
    Tendsto (fun T => coldShift hopping T a) (𝓝[>] 0) (𝓝 0) := by
  have h := thermal_tendsto hf
  have h1 : Tendsto (fun T => √(1 + thermal T a.freq)) (𝓝[>] 0) (𝓝 (√(1 + 0))) := (h.const_add 1).sqrt
  have h2 : Tendsto (fun T => √(thermal T a.freq)) (𝓝[>] 0) (𝓝 (√0)) := h.sqrt
  have h3 := (((h1.sub_const 1).mul_const √(a.N : ℝ)).add (h2.mul_const √(a.Ntfd.getD 0 : ℝ))).const_mul
    (termCount a.ctype * √(strengthSq hopping a))
  simpa [coldShift] using h3

/-- C91, the limit: as the temperature falls to zero, the results tend to the one at zero temperature. -/
theorem C91_limit (σ : SetOrder) (σ' : ℝ → SetOrder) (hopping lattice : ℝ) (hl : hopping = 0 ∨ (0 < hopping ∧ lattice = 1))
    (cap : Option Int) (hcap : ∀ c, cap = some c → 1 ≤ c) (as : List (AddArgs ℝ)) (hne : as ≠ [])
    (hc : ∀ T, 0 < T → Clean realPrims hopping T as) (hf : ∀ T, 0 < T → ((modes T as).map (·.freq)).Nodup)
    (hb : (∀ a ∈ as, a.ctype = "BondPeierls") ∨ (∀ a ∈ as, a.ctype ≠ "BondPeierls")) (hpos : ∀ a ∈ as, 0 < a.freq)
    (hM : (∀ a ∈ as, ∃ a' ∈ as, a.Mtfd.getD 0 ≤ a'.M) ∨ as.length = 1) :
    ∃ m b, (Model.fromParameters hopping lattice 0 cap 1).adds realPrims as = .ok m ∧ buildSystem σ m = .ok b ∧
      ∀ k w eta : ℝ, 0 < eta → ∃ G, Gives m b ⟨k, w, eta⟩ G ∧ ∃ F : ℝ → ℂ,
        (∀ T, 0 < T → ∃ mT bT, (Model.fromParameters hopping lattice T cap 1).adds realPrims as = .ok mT ∧
          buildSystem (σ' T) mT = .ok bT ∧ Gives mT bT ⟨k, w, eta⟩ (F T)) ∧ Tendsto F (𝓝[>] 0) (𝓝 G) := by
  obtain ⟨-, -, m, b, -, h1, -, h3, -⟩ := C91_cold (σ' 1) σ hopping lattice 1 one_pos hl cap hcap as hne (hc 1 one_pos)
    (hf 1 one_pos) hb hpos hM
  refine ⟨m, b, h1, h3, fun k w eta heta => ?_⟩
  have key : ∀ T, 0 < T → ∃ mT bT G G', (Model.fromParameters hopping lattice T cap 1).adds realPrims as = .ok mT ∧
      buildSystem (σ' T) mT = .ok bT ∧ Gives mT bT ⟨k, w, eta⟩ G' ∧ Gives m b ⟨k, w, eta⟩ G ∧
      ‖G' - G‖ ≤ (as.map (coldShift hopping T)).sum / eta ^ 2 := by
    intro T hT
    obtain ⟨mT, bT, m', b', q1, q2, q3, q4, q5⟩ := C91_cold (σ' T) σ hopping lattice T hT hl cap hcap as hne (hc T hT)
      (hf T hT) hb hpos hM
    rw [h1] at q2; cases q2
    rw [h3] at q4; cases q4
    obtain ⟨G', G, r1, r2, r3⟩ := q5 k w eta heta
    exact ⟨mT, bT, G, G', q1, q3, r1, r2, r3⟩
  obtain ⟨-, -, G, -, -, -, -, hG, -⟩ := key 1 one_pos
  refine ⟨G, hG, ?_⟩
  have huniq : ∀ {G'}, Gives m b ⟨k, w, eta⟩ G' → G' = G := by
    intro G' h
    have := h.2.symm.trans hG.2
    simpa using this
  have key2 : ∀ T, ∃ G', 0 < T → (∃ mT bT, (Model.fromParameters hopping lattice T cap 1).adds realPrims as = .ok mT ∧
      buildSystem (σ' T) mT = .ok bT ∧ Gives mT bT ⟨k, w, eta⟩ G') ∧
      ‖G' - G‖ ≤ (as.map (coldShift hopping T)).sum / eta ^ 2 := by
    intro T
    by_cases hT : 0 < T
    · obtain ⟨mT, bT, G1, G', r1, r2, r3, r4, r5⟩ := key T hT
      rw [huniq r4] at r5
      exact ⟨G', fun _ => ⟨⟨mT, bT, r1, r2, r3⟩, r5⟩⟩
    · exact ⟨0, fun h => absurd h hT⟩
  choose F hF using key2
  refine ⟨F, fun T hT => (hF T hT).1, ?_⟩
  rw [tendsto_iff_norm_sub_tendsto_zero]
  have hsum : Tendsto (fun T => (as.map (coldShift hopping T)).sum / eta ^ 2) (𝓝[>] 0) (𝓝 0) := by
    have : Tendsto (fun T => (as.map (coldShift hopping T)).sum) (𝓝[>] 0) (𝓝 0) := by
      clear hF key huniq hG h1 h3 hM hb hne
      have hp : ∀ a ∈ as, 0 < a.freq := hpos
      clear hpos hf hc
      induction as with
      | nil => simp
      | cons a as ih =>
        have := (coldShift_tendsto (hopping := hopping) (hp a (by simp))).add
          (ih (fun x hx => hp x (List.mem_cons_of_mem _ hx)))
        simpa using this
    simpa using this.div_const (eta ^ 2)
  refine squeeze_zero' (Eventually.of_forall (fun _ => norm_nonneg _)) ?_ hsum
  filter_upwards [self_mem_nhdsWithin] with T hT
  exact (hF T hT).2

/-! ### the hypotheses are met -/

theorem exBondCalls_cold {T : ℝ} (hT : 0 < T) : Clean realPrims 1 T exBondCalls ∧ ((modes T exBondCalls).map (·.freq)).Nodup := by
  have hc : Clean realPrims 1 T exBondCalls := by
    constructor <;> intro a ha <;> simp only [exBondCalls, List.mem_cons, List.not_mem_nil, or_false] at ha <;>
      subst ha
    all_goals first
      | rfl
      | (simp [Known])
      | (simp [Defined])
      | (constructor <;> simp [OneStrength])
  refine ⟨hc, ?_⟩
  rw [modes_of_clean hc]
  simp [exBondCalls, modesAt, hT]
  norm_num

/-- A BondPeierls model cools down to the one at zero temperature. -/
example (σ : SetOrder) : ∃ m b, (Model.fromParameters (1 : ℝ) 1 0 none 1).adds realPrims exBondCalls = .ok m ∧
    buildSystem σ m = .ok b ∧
      ∀ k w eta : ℝ, 0 < eta → ∃ G, Gives m b ⟨k, w, eta⟩ G ∧ ∃ F : ℝ → ℂ,
        (∀ T, 0 < T → ∃ mT bT, (Model.fromParameters 1 1 T none 1).adds realPrims exBondCalls = .ok mT ∧
          buildSystem σ mT = .ok bT ∧ Gives mT bT ⟨k, w, eta⟩ (F T)) ∧ Tendsto F (𝓝[>] 0) (𝓝 G) :=
  C91_limit σ (fun _ => σ) 1 1 (Or.inr (by norm_num)) none (by simp) exBondCalls (by simp [exBondCalls])
    (fun _ hT => (exBondCalls_cold hT).1) (fun _ hT => (exBondCalls_cold hT).2) (Or.inl exBondCalls_clean.2.2)
    (by simp [exBondCalls]) (Or.inr (by simp [exBondCalls]))

end GGCE.Props
