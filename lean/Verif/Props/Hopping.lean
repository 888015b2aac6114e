import Verif.Proofs.Gauge
import Verif.Proofs.Hopping
import Verif.Props.SecondOrder

/-!
Properties C70 and C71: the sign of the hopping, and the lattice constant.
-/

set_option linter.unusedSectionVars false

namespace GGCE.Props
open Spec Arr Complex

/-! ### what the hopping changes in the assembled model -/

theorem strengthD_plain {t : ℝ} {a : AddArgs ℝ} (t' : ℝ) (hl : a.lam = none) (f : ℝ) :
    strengthD realPrims t' a f = strengthD realPrims t a f := by
  unfold strengthD Hamiltonian.strength
  rw [hl]

theorem parts_plain {t T : ℝ} {as : List (AddArgs ℝ)} (t' : ℝ) (hl : ∀ a ∈ as, a.lam = none) :
    parts realPrims t' T as = parts realPrims t T as := by
  induction as with
  | nil => rfl
  | cons a as ih =>
    rw [parts_cons, parts_cons, ih (fun x hx => hl x (List.mem_cons_of_mem _ hx))]
    congr 1
    unfold partsAt
    simp only [strengthD_plain (t := t) t' (hl a List.mem_cons_self)]

theorem clean_plain {t T : ℝ} {as : List (AddArgs ℝ)} (t' : ℝ) (hl : ∀ a ∈ as, a.lam = none)
    (hc : Clean realPrims t T as) : Clean realPrims t' T as := by
  refine ⟨hc.valid, hc.known, hc.noOverride, fun a ha => ?_⟩
  unfold Defined
  simp [hl a ha]

/-- Assembling at another hopping and lattice constant. -/
theorem assembled_band (σ : SetOrder) (t lattice T t' lattice' : ℝ) (cap : Option Int)
    (hcap : ∀ c, cap = some c → 1 ≤ c) (as : List (AddArgs ℝ)) (hne : as ≠ []) (hlam : t' = t ∨ ∀ a ∈ as, a.lam = none)
    (hc : Clean realPrims t T as) (hf : ((modes T as).map (·.freq)).Nodup)
    (hb : (∀ a ∈ as, a.ctype = "BondPeierls") ∨ (∀ a ∈ as, a.ctype ≠ "BondPeierls")) :
    ∃ b ae, (Model.fromParameters t lattice T cap 1).adds realPrims as =
        .ok (blueprint t lattice T cap (parts realPrims t T as)) ∧
      (Model.fromParameters t' lattice' T cap 1).adds realPrims as =
        .ok (withBand (blueprint t lattice T cap (parts realPrims t T as)) t' lattice') ∧
      WellFormed (blueprint t lattice T cap (parts realPrims t T as)) ae ∧
      buildSystem σ (blueprint t lattice T cap (parts realPrims t T as)) = .ok b ∧
      buildSystem σ (withBand (blueprint t lattice T cap (parts realPrims t T as)) t' lattice') = .ok b := by
  obtain ⟨m, b, h1, ⟨ae, h2⟩, h3⟩ := C16_assembled σ realPrims C42_names t lattice T cap hcap as hne hc hf hb
  have h0 := h1
  rw [fromParameters_blueprint t lattice T cap as hc hf] at h1
  cases h1
  refine ⟨b, ae, h0, ?_, h2, h3, by rw [buildSystem_withBand]; exact h3⟩
  rcases hlam with rfl | hlam
  · rw [fromParameters_blueprint t' lattice' T cap as hc hf]
    rfl
  · rw [fromParameters_blueprint t' lattice' T cap as (clean_plain t' hlam hc) hf, parts_plain t' hlam]
    rfl

/-! ### C70, the exact statement -/

theorem partTerms_gauge {ds : List (Part ℝ)} (hk : ∀ d ∈ ds, Known d.ctype) (i : ℕ) :
    ∃ ε : ℕ → ℤˣ, (partTerms ds i).map (gaugeTerm ε (-1)) = partTerms ds i := by
  induction ds generalizing i with
  | nil => exact ⟨fun _ => 1, rfl⟩
  | cons d ds ih =>
    obtain ⟨ε, hε⟩ := ih (fun x hx => hk x (List.mem_cons_of_mem _ hx)) (i + 1)
    have hcons : partTerms (d :: ds) i = termsOf d.ctype d.g i d.freq ++ partTerms ds (i + 1) := rfl
    have hhead : ∃ u : ℤˣ, (termsOf d.ctype d.g i d.freq).map (gaugeTerm (fun _ => u) (-1)) =
        termsOf d.ctype d.g i d.freq := by
      rcases hk d List.mem_cons_self with e | e | e | e
      all_goals rw [e]
      · refine ⟨1, ?_⟩
        simp [termsOf, termShapes, gaugeTerm, Num.int]
      all_goals
        refine ⟨-1, ?_⟩
        simp [termsOf, termShapes, gaugeTerm, Num.int]
    obtain ⟨u, hu⟩ := hhead
    refine ⟨fun j => if j = i then u else ε j, ?_⟩
    rw [hcons, List.map_append]
    conv_rhs => rw [← hu, ← hε]
    congr 1
    · refine List.map_congr_left (fun h hh => ?_)
      unfold gaugeTerm
      rw [(mem_termsOf hh).1]
      simp
    · refine List.map_congr_left (fun h hh => ?_)
      unfold gaugeTerm
      have := (index_partTerms hh).1
      have hne : h.phononIndex ≠ i := by omega
      simp only [if_neg hne]

theorem parts_known {t T : ℝ} {as : List (AddArgs ℝ)} (hc : Clean realPrims t T as) :
    ∀ d ∈ parts realPrims t T as, Known d.ctype := by
  intro d hd
  obtain ⟨a, ha, hd⟩ := List.mem_flatMap.1 hd
  unfold partsAt at hd
  split at hd
  · simp only [List.mem_cons, List.not_mem_nil, or_false] at hd
    rcases hd with rfl | rfl <;> exact hc.known a ha
  · simp only [List.mem_cons, List.not_mem_nil, or_false] at hd
    subst hd; exact hc.known a ha

theorem phase_pi {a k k' : ℝ} (h : k' * a = k * a + Real.pi ∨ k * a = k' * a + Real.pi) (s : ℤ) :
    exp (-(I * (k' * a * s))) = unitC ((-1 : ℤˣ) ^ s) * exp (-(I * (k * a * s))) := by
  have hu : unitC ((-1 : ℤˣ) ^ s) = exp (-(I * (Real.pi * s))) ∧ unitC ((-1 : ℤˣ) ^ s) = exp (I * (Real.pi * s)) := by
    have h1 : exp (Real.pi * I) = -1 := Complex.exp_pi_mul_I
    have e1 : exp (I * (Real.pi * s)) = (-1 : ℂ) ^ s := by
      rw [← h1, ← Complex.exp_int_mul]; congr 1; ring
    have e2 : exp (-(I * (Real.pi * s))) = (-1 : ℂ) ^ s := by
      rw [Complex.exp_neg, e1, ← inv_zpow, inv_neg, inv_one]
    have e3 : unitC ((-1 : ℤˣ) ^ s) = (-1 : ℂ) ^ s := by
      unfold unitC
      rcases Int.even_or_odd s with he | ho
      · rw [he.neg_one_zpow, he.neg_one_zpow]; simp
      · rw [ho.neg_one_zpow, ho.neg_one_zpow]; simp
    exact ⟨e3.trans e2.symm, e3.trans e1.symm⟩
  rcases h with h | h
  · rw [hu.1, ← Complex.exp_add]
    congr 1
    have : (k' : ℂ) * a = k * a + Real.pi := by exact_mod_cast h
    rw [this]; ring
  · rw [hu.2, ← Complex.exp_add]
    congr 1
    have : (k : ℂ) * a = k' * a + Real.pi := by exact_mod_cast h
    rw [this]; ring

theorem gaugeModel_blueprint {t lattice T : ℝ} {cap : Option Int} {ds : List (Part ℝ)} {ε : ℕ → ℤˣ}
    (h : (partTerms ds 0).map (gaugeTerm ε (-1)) = partTerms ds 0) :
    gaugeModel ε (-1) (blueprint t lattice T cap ds) = withBand (blueprint t lattice T cap ds) (-t) lattice := by
  unfold gaugeModel withBand blueprint
  simp only [h]
  simp

/-- **C70**, what it should be: with the opposite sign of the hopping, the exact amplitudes of the truncated model
exist, and the exact Green's function at the momentum `k` is what the code returns for the original sign at
`k + π/a`. -/
theorem C70_exact (σ : SetOrder) (t T : ℝ) (ht : 0 < t) (cap : Option Int) (hcap : ∀ c, cap = some c → 1 ≤ c)
    (as : List (AddArgs ℝ)) (hne : as ≠ []) (hlam : ∀ a ∈ as, a.lam = none) (hc : Clean realPrims t T as)
    (hf : ((modes T as).map (·.freq)).Nodup)
    (hb : (∀ a ∈ as, a.ctype = "BondPeierls") ∨ (∀ a ∈ as, a.ctype ≠ "BondPeierls")) :
    ∃ m b m' ae, (Model.fromParameters t 1 T cap 1).adds realPrims as = .ok m ∧
      (Model.fromParameters (-t) 1 T cap 1).adds realPrims as = .ok m' ∧
      buildSystem σ m = .ok b ∧ buildSystem σ m' = .ok b ∧ m'.absExtent = some ae ∧
      ∀ k w eta : ℝ, 0 < eta → ∃ G, Gives m b ⟨k + Real.pi, w, eta⟩ G ∧
        (∃ Ψ, Resolvent m' ae ⟨k, w, eta⟩ Ψ) ∧ ∀ Ψ, Resolvent m' ae ⟨k, w, eta⟩ Ψ → Ψ 0 0 = G := by
  obtain ⟨b, ae, h1, h1', h2, h3, h3'⟩ := assembled_band σ t 1 T (-t) 1 cap hcap as hne (Or.inr hlam) hc hf hb
  have hp := physical_assembled h1 hb (Or.inr ⟨ht, rfl⟩)
  refine ⟨_, b, _, ae, h1, h1', h3, h3', h2.absExtent, fun k w eta heta => ?_⟩
  obtain ⟨ε, hε⟩ := partTerms_gauge (parts_known hc) 0
  have hm := gaugeModel_blueprint (t := t) (lattice := 1) (T := T) (cap := cap) hε
  obtain ⟨Ψ, hΨ, huniq, g1, g2⟩ := C55_exact σ _ ae h2 b h3 hp ⟨k + Real.pi, w, eta⟩ heta
  refine ⟨Ψ 0 0, ⟨g1, g2⟩, ?_, ?_⟩
  · have hR := resolvent_gauge (k' := k) ε (-1) h2.index (phase_pi (Or.inr (by simp [blueprint]))) hΨ
    rw [hm] at hR
    exact ⟨_, hR⟩
  · intro Φ hΦ
    rw [← hm] at hΦ
    have hR := resolvent_gauge (k' := k + Real.pi) ε (-1) (m := gaugeModel ε (-1) _) (p := ⟨k, w, eta⟩)
      (fun h hh => by
        obtain ⟨h', hh', rfl⟩ := List.mem_map.1 hh
        exact h2.index h' hh') (phase_pi (Or.inl (by simp [gaugeModel, blueprint]))) hΦ
    have hback : gaugeModel ε (-1) (gaugeModel ε (-1) (blueprint t 1 T cap (parts realPrims t T as))) =
        blueprint t 1 T cap (parts realPrims t T as) := by
      unfold gaugeModel blueprint
      simp only [hε]
      simp
    rw [hback] at hR
    rw [← huniq _ hR]
    simp only [zpow_zero]
    rw [one_mul, occSign_zero, unitC_one, one_mul]

/-! ### C70, what is returned -/

theorem G0_ne {k w eta : ℝ} (he : 0 < eta) (a t : ℝ) : realPhys.G0 k w a eta t ≠ 0 := by
  show (1 : ℂ) / ((w : ℂ) + I * eta + 2 * t * Real.cos (k * a)) ≠ 0
  rw [mul_comm I]
  exact one_div_ne_zero (cos_denom_ne (by simpa using he) _ _)

/-- **C70**, what the code returns for the opposite sign of the hopping: the free part follows the sign, the motion
of the electron in the presence of phonons does not (`g0_delta_omega` uses the modulus). -/
theorem C70_returned (σ : SetOrder) (t T : ℝ) (ht : 0 < t) (cap : Option Int) (hcap : ∀ c, cap = some c → 1 ≤ c)
    (as : List (AddArgs ℝ)) (hne : as ≠ []) (hlam : ∀ a ∈ as, a.lam = none) (hc : Clean realPrims t T as)
    (hf : ((modes T as).map (·.freq)).Nodup)
    (hb : (∀ a ∈ as, a.ctype = "BondPeierls") ∨ (∀ a ∈ as, a.ctype ≠ "BondPeierls")) :
    ∃ m b m', (Model.fromParameters t 1 T cap 1).adds realPrims as = .ok m ∧
      (Model.fromParameters (-t) 1 T cap 1).adds realPrims as = .ok m' ∧
      buildSystem σ m = .ok b ∧ buildSystem σ m' = .ok b ∧
      ∀ k w eta : ℝ, 0 < eta → ∃ G, Gives m b ⟨k, w, eta⟩ G ∧
        Gives m' b ⟨k, w, eta⟩ (1 / (1 / G - 4 * t * Real.cos k)) := by
  obtain ⟨b, ae, h1, h1', h2, h3, h3'⟩ := assembled_band σ t 1 T (-t) 1 cap hcap as hne (Or.inr hlam) hc hf hb
  have hp := physical_assembled h1 hb (Or.inr ⟨ht, rfl⟩)
  refine ⟨_, b, _, h1, h1', h3, h3', fun k w eta heta => ?_⟩
  obtain ⟨Ψ, -, -, g1, g2⟩ := C55_exact σ _ ae h2 b h3 hp ⟨k, w, eta⟩ heta
  refine ⟨Ψ 0 0, ⟨g1, g2⟩, gives_of_dense (h2.withBand _ _) h3' ?_⟩
  have hco := coef_withBand_neg h2 h3 ⟨k, w, eta⟩ (G0_ne heta _ _) rfl rfl
  obtain ⟨hG, hsh⟩ := dense_shift (ready_of_built h2 h3) (ready_of_built (h2.withBand (-t) 1) h3') rfl
    (total_pos _ ae h2) realPhys ⟨k, w, eta⟩ ⟨k, w, eta⟩ rfl rfl (G0_ne heta _ _) (G0_ne heta _ _) hco.1 hco.2 g2
  have hpos := (C23_spectral_positive σ _ ae h2 b h3 hp ⟨k, w, eta⟩ heta _ (Or.inr g2)).2
  have hd : (1 / realPhys.G0 k w (1 : ℝ) eta (-t) - 1 / realPhys.G0 k w (1 : ℝ) eta t : ℂ) = ((-(4 * t * Real.cos k) : ℝ) : ℂ) := by
    show 1 / ((1 : ℂ) / ((w : ℂ) + I * eta + 2 * ((-t : ℝ) : ℂ) * Real.cos (k * 1))) -
      1 / ((1 : ℂ) / ((w : ℂ) + I * eta + 2 * t * Real.cos (k * 1))) = _
    rw [one_div_one_div, one_div_one_div]
    push_cast
    rw [mul_one]; ring
  have hd' : (1 / realPhys.G0 k w (withBand (blueprint t 1 T cap (parts realPrims t T as)) (-t) 1).latticeConstant eta
      (withBand (blueprint t 1 T cap (parts realPrims t T as)) (-t) 1).ham.hopping -
      1 / realPhys.G0 k w (blueprint t 1 T cap (parts realPrims t T as)).latticeConstant eta
        (blueprint t 1 T cap (parts realPrims t T as)).ham.hopping : ℂ) = ((-(4 * t * Real.cos k) : ℝ) : ℂ) := hd
  simp only at hsh
  rw [hd'] at hsh
  have e : 1 / Ψ 0 0 + ((-(4 * t * Real.cos k) : ℝ) : ℂ) = 1 / Ψ 0 0 - 4 * t * Real.cos k := by
    push_cast; ring
  rw [e] at hsh
  refine hsh ?_
  rw [← e]
  intro h0
  have him := congrArg Complex.im h0
  rw [Complex.add_im, Complex.ofReal_im, add_zero, one_div, Complex.inv_im, Complex.zero_im] at him
  have hn : 0 < normSq (Ψ 0 0) := Complex.normSq_pos.2 hG
  have : 0 < -(Ψ 0 0).im := lt_of_lt_of_le (mul_pos heta hn) hpos
  exact (div_pos this hn).ne' him

/-- clouds of one site of phonons coupled to the density -/
def OneSite (T : ℝ) (as : List (AddArgs ℝ)) : Prop :=
  (∀ a ∈ as, a.ctype = "Holstein") ∧ ∀ d ∈ modes T as, d.M = 1

theorem oneSite_local {σ : SetOrder} {t lattice T : ℝ} {cap : Option Int} {as : List (AddArgs ℝ)} {ae : ℤ}
    (hc : Clean realPrims t T as) (ho : OneSite T as)
    (hm : WellFormed (blueprint t lattice T cap (parts realPrims t T as)) ae) {b : Built ℝ}
    (hb : buildSystem σ (blueprint t lattice T cap (parts realPrims t T as)) = .ok b) :
    ∀ e ∈ allEqs b.eqs, ∀ s ∈ e.terms, s.expShift.tw = 0 ∧ gtw s = 0 := by
  have hae : ae = 1 := by
    have h1 : ((parts realPrims t T as).map (·.M)).max? = some ae := hm.absExtent
    have h2 := List.max?_eq_some_iff.1 h1
    rw [parts_M hc] at h2
    obtain ⟨d, hd, e⟩ := List.mem_map.1 h2.1
    rw [← e]; exact ho.2 d hd
  subst hae
  refine local_terms hm hb (fun h hh => ?_)
  obtain ⟨q, hq, hh⟩ := List.mem_flatMap.1 hh
  have hct : q.1.ctype = "Holstein" := by
    have hq' : q.1 ∈ parts realPrims t T as := (List.mem_zipIdx hq).2.2 ▸ List.getElem_mem _
    obtain ⟨a, ha, hd⟩ := List.mem_flatMap.1 hq'
    unfold partsAt at hd
    split at hd
    · simp only [List.mem_cons, List.not_mem_nil, or_false] at hd
      rcases hd with e | e <;> rw [e] <;> exact ho.1 a ha
    · simp only [List.mem_cons, List.not_mem_nil, or_false] at hd
      rw [hd]; exact ho.1 a ha
  rw [hct] at hh
  simp only [termsOf, termShapes, if_true, Option.getD_some, List.map_cons, List.map_nil, List.mem_cons,
    List.not_mem_nil, or_false] at hh
  rcases hh with rfl | rfl <;> exact ⟨rfl, rfl⟩

theorem gives_band {σ : SetOrder} {m : Model ℝ} {ae : ℤ} (hm : WellFormed m ae) {b : Built ℝ}
    (hb : buildSystem σ m = .ok b) (hloc : ∀ e ∈ allEqs b.eqs, ∀ s ∈ e.terms, s.expShift.tw = 0 ∧ gtw s = 0)
    {t' a' : ℝ} (ht : |t'| = |m.ham.hopping|) {p p' : Point ℝ} (hw : p'.w = p.w) (he : p'.eta = p.eta)
    (hG : m.ham.hopping * Real.cos (p.k * m.latticeConstant) = t' * Real.cos (p'.k * a')) {G : ℂ}
    (hg : Gives m b p G) : Gives (withBand m t' a') b p' G := by
  have htwin : Twin realPhys (fun _ => 1) m (withBand m t' a') p p' (fun t => t) b.eqs := by
    refine twin_band hw ?_ (fun e he' s hs => ?_)
    · show (1 : ℂ) / ((p'.w : ℂ) + I * p'.eta + 2 * t' * Real.cos (p'.k * a')) =
        1 / ((p.w : ℂ) + I * p.eta + 2 * m.ham.hopping * Real.cos (p.k * m.latticeConstant))
      have : (m.ham.hopping : ℂ) * Real.cos (p.k * m.latticeConstant) = t' * Real.cos (p'.k * a') := by exact_mod_cast hG
      rw [hw, he, mul_assoc, mul_assoc, this]
    · obtain ⟨h1, h2⟩ := hloc e he' s hs
      constructor
      · unfold Num.val; rw [h1]; simp
      · intro g hgs w
        have hz : (g.val : ℝ) = 0 := by
          unfold gtw at h2; rw [hgs] at h2
          unfold Num.val
          have h2' : g.tw = 0 := h2
          rw [h2']; simp
        rw [hz, he]
        show g0R _ _ _ _ _ = g0R _ _ _ _ _
        unfold g0R
        have h0 : t' = 0 ↔ m.ham.hopping = 0 := by rw [← abs_eq_zero, ht, abs_eq_zero]
        simp only [h0, ht, zero_mul, abs_zero]
  have h1 := htwin.dense (ready_of_built hm hb)
  rw [mapEqs_id] at h1
  refine gives_of_dense (hm.withBand t' a') (by rw [buildSystem_withBand]; exact hb) (σ := σ) ?_
  rw [h1]; exact hg.2

/-- **C70**, proved part: for Holstein models with `phonon_extent = 1` (and, at a temperature,
`phonon_extent_tfd = 1`) the electron does not move in the presence of phonons, and the result for the opposite
sign of the hopping is right. What is missing: everything else (`C70_wrong`). -/
theorem C70_one_site_partial (σ : SetOrder) (t T : ℝ) (ht : 0 < t) (cap : Option Int)
    (hcap : ∀ c, cap = some c → 1 ≤ c) (as : List (AddArgs ℝ)) (hne : as ≠ []) (hlam : ∀ a ∈ as, a.lam = none)
    (hc : Clean realPrims t T as) (hf : ((modes T as).map (·.freq)).Nodup) (ho : OneSite T as) :
    ∃ m b m', (Model.fromParameters t 1 T cap 1).adds realPrims as = .ok m ∧
      (Model.fromParameters (-t) 1 T cap 1).adds realPrims as = .ok m' ∧
      buildSystem σ m = .ok b ∧ buildSystem σ m' = .ok b ∧
      ∀ k w eta : ℝ, 0 < eta → ∃ G, Gives m b ⟨k + Real.pi, w, eta⟩ G ∧ Gives m' b ⟨k, w, eta⟩ G := by
  have hb : (∀ a ∈ as, a.ctype = "BondPeierls") ∨ (∀ a ∈ as, a.ctype ≠ "BondPeierls") :=
    Or.inr (fun a ha => by rw [ho.1 a ha]; decide)
  obtain ⟨b, ae, h1, h1', h2, h3, h3'⟩ := assembled_band σ t 1 T (-t) 1 cap hcap as hne (Or.inr hlam) hc hf hb
  have hp := physical_assembled h1 hb (Or.inr ⟨ht, rfl⟩)
  refine ⟨_, b, _, h1, h1', h3, h3', fun k w eta heta => ?_⟩
  obtain ⟨Ψ, -, -, g1, g2⟩ := C55_exact σ _ ae h2 b h3 hp ⟨k + Real.pi, w, eta⟩ heta
  have hcos : t * Real.cos ((k + Real.pi) * 1) = -t * Real.cos (k * 1) := by
    rw [mul_one, mul_one, Real.cos_add_pi]; ring
  have hloc := oneSite_local hc ho h2 h3
  have hR := gives_band (t' := -t) (a' := 1) (p := ⟨k + Real.pi, w, eta⟩) (p' := ⟨k, w, eta⟩) h2 h3 hloc (abs_neg t) rfl rfl
    hcos ⟨g1, g2⟩
  exact ⟨Ψ 0 0, ⟨g1, g2⟩, hR⟩

/-! ### the two ways to be wrong -/

/-- what a single BondPeierls call with one phonon returns -/
theorem bond_value {σ : SetOrder} {t lattice Omega g : ℝ} {cap : Option Int} {M : ℤ}
    (hm : WellFormed (blueprint t lattice 0 cap [⟨"BondPeierls", Omega, M, 1, g⟩]) M) {b : Built ℝ}
    (hb : buildSystem σ (blueprint t lattice 0 cap [⟨"BondPeierls", Omega, M, 1, g⟩]) = .ok b) {k w eta : ℝ}
    (he : 0 < eta) {G : ℂ} (hg : Gives (blueprint t lattice 0 cap [⟨"BondPeierls", Omega, M, 1, g⟩]) b ⟨k, w, eta⟩ G) :
    1 / G = (w : ℂ) + eta * I + 2 * t * Real.cos (k * lattice) - 2 * g ^ 2 * (g0R 0 (w - Omega) lattice eta t +
      Real.cos (k * lattice) * g0R 1 (w - Omega) lattice eta t) := by
  set m := blueprint t lattice 0 cap [⟨"BondPeierls", Omega, M, 1, g⟩] with hmd
  have hone := oneBoson_dense hm hb rfl rfl ⟨k, w, eta⟩
  rw [hg.2] at hone
  have hself : oneSelf m ⟨k, w, eta⟩ = 2 * g ^ 2 * (g0R 0 (w - Omega) lattice eta t +
      Real.cos (k * lattice) * g0R 1 (w - Omega) lattice eta t) := by
    rw [oneSelf_bond (m := m) (g := g) rfl rfl (by simp [hmd, blueprint, partTerms]) ⟨k, w, eta⟩]
    obtain ⟨E, E', -, x1, x2, -, -, x5, -⟩ := exp_pair (k * lattice)
    have p2 : ph m ⟨k, w, eta⟩ 2 = E := by
      rw [show (2 : ℤ) = 2 * 1 by norm_num, ph_even]; exact x1
    have p2' : ph m ⟨k, w, eta⟩ (-2) = E' := by
      rw [show (-2 : ℤ) = 2 * (-1) by norm_num, ph_even]; exact x2
    rw [p2, p2']
    have hneg : g0R (-1) (w - Omega) lattice eta t = g0R 1 (w - Omega) lattice eta t := by
      unfold g0R; simp
    show (List.map (fun c : ℂ × ℤ => c.1 * g0R c.2 (w - Omega) lattice eta t) _).sum = _
    simp only [List.map_cons, List.map_nil, List.sum_cons, List.sum_nil]
    push_cast
    rw [hneg]; push_cast at x5; rw [x5]
    ring
  by_cases hz : 1 - realPhys.G0 k w m.latticeConstant eta m.ham.hopping * oneSelf m ⟨k, w, eta⟩ = 0
  · rw [if_pos hz] at hone; cases hone
  · rw [if_neg hz] at hone
    have hz0 : (w : ℂ) + eta * I + 2 * t * Real.cos (k * lattice) ≠ 0 := cos_denom_ne (by simpa using he) _ _
    have e : realPhys.G0 k w m.latticeConstant eta m.ham.hopping =
        1 / ((w : ℂ) + eta * I + 2 * t * Real.cos (k * lattice)) := by
      show (1 : ℂ) / ((w : ℂ) + I * eta + 2 * t * Real.cos (k * lattice)) = _
      rw [mul_comm I]
    simp only at hone
    rw [e, dyson hz0, hself] at hone
    have := Option.some.inj (Except.ok.inj hone)
    rw [this, one_div_one_div]

theorem g0_one_ne {w eta t : ℝ} (he : 0 < eta) (ht : 0 < t) : g0R 1 w 1 eta t ≠ 0 := by
  have := g0R_int 1 w he ht.ne'
  rw [Int.cast_one] at this
  rw [this]
  have h1 := yRoot_ne_zero (xOf w eta t)
  have h2 := pref_ne_zero (omega := w) he ht.ne'
  exact mul_ne_zero (pow_ne_zero _ h1) h2

/-- **C70** fails for a single BondPeierls call with one phonon, at every positive hopping, every coupling, every
momentum with `cos k ≠ 0` and every energy and broadening. -/
theorem C70_wrong (σ : SetOrder) (t Omega g k w eta : ℝ) (ht : 0 < t) (hg : g ≠ 0) (hk : Real.cos k ≠ 0)
    (he : 0 < eta) (cap : Option Int) (hcap : ∀ c, cap = some c → 1 ≤ c) (M : ℤ) (hM : 1 ≤ M) :
    ∃ m b m', (Model.fromParameters t 1 0 cap 1).adds realPrims
        [{ ctype := "BondPeierls", freq := Omega, M := M, N := 1, g := some g }] = .ok m ∧
      (Model.fromParameters (-t) 1 0 cap 1).adds realPrims
        [{ ctype := "BondPeierls", freq := Omega, M := M, N := 1, g := some g }] = .ok m' ∧
      buildSystem σ m = .ok b ∧ buildSystem σ m' = .ok b ∧
      ∃ G G', Gives m b ⟨k + Real.pi, w, eta⟩ G ∧ Gives m' b ⟨k, w, eta⟩ G' ∧ G ≠ G' := by
  obtain ⟨hc, hf, hb⟩ := clean_one (hopping := t) (ct := "BondPeierls") (Omega := Omega) (g := g) (by simp) hM (le_refl (1 : ℤ))
  obtain ⟨m, b, m', h1, h1', h3, h3', hall⟩ := C70_returned σ t 0 ht cap hcap _ (by simp) (by simp) hc hf hb
  obtain ⟨b1, k1, k2, k3⟩ := one_call σ t 1 cap hcap "BondPeierls" (by simp) Omega g M 1 hM le_rfl
  obtain ⟨b2, l1, l2, l3⟩ := one_call σ (-t) 1 cap hcap "BondPeierls" (by simp) Omega g M 1 hM le_rfl
  rw [h1] at k1; cases k1
  rw [h1'] at l1; cases l1
  obtain ⟨G, hG, -⟩ := hall (k + Real.pi) w eta he
  obtain ⟨G1, -, hG'⟩ := hall k w eta he
  refine ⟨_, b, _, h1, h1', h3, h3', G, _, hG, hG', ?_⟩
  intro hEq
  rw [← hEq] at hG'
  have v1 := bond_value k2 h3 he hG
  have v2 := bond_value l2 h3' he hG'
  rw [v1, mul_one, mul_one, Real.cos_add_pi, g0R_neg, g0R_neg] at v2
  have h0 : (4 : ℂ) * g ^ 2 * Real.cos k * g0R 1 (w - Omega) 1 eta t = 0 := by
    push_cast at v2 ⊢
    linear_combination v2
  have hg' : (g : ℂ) ≠ 0 := by exact_mod_cast hg
  have hk' : ((Real.cos k : ℝ) : ℂ) ≠ 0 := by exact_mod_cast hk
  exact mul_ne_zero (mul_ne_zero (mul_ne_zero (by norm_num) (pow_ne_zero 2 hg')) hk') (g0_one_ne he ht) h0

/-! ### C71 -/

theorem resolvent_band {m : Model ℝ} {ae : ℤ} {p p' : Point ℝ} {a' : ℝ} (hw : p'.w = p.w) (he : p'.eta = p.eta)
    (hk : p'.k * a' = p.k * m.latticeConstant) {Ψ : Occ → ℤ → ℂ} (hΨ : Resolvent m ae p Ψ) :
    Resolvent (withBand m m.ham.hopping a') ae p' Ψ := by
  have hk' : (p'.k : ℂ) * a' = p.k * m.latticeConstant := by exact_mod_cast hk
  refine ⟨?_, hΨ.bounded, fun n hn e => hΨ.outside n (fun h => hn ⟨h.1, h.2, h.3, h.4, h.5, h.6⟩) e, ?_⟩
  · intro n e s
    show _ = exp (-(I * (p'.k * a' * s))) * _
    rw [hk']; exact hΨ.bloch n e s
  · intro n hn e
    have h := hΨ.motion n ⟨hn.1, hn.2, hn.3, hn.4, hn.5, hn.6⟩ e
    rw [← hw, ← he, ← hk'] at h
    exact h

/-- **C71**, what it should be: the exact Green's function of the truncated model at the momentum `k` for the
lattice constant `a` is what the code returns at the momentum `k a` for the lattice constant 1. -/
theorem C71_exact (σ : SetOrder) (t lattice T : ℝ) (ht : 0 ≤ t) (cap : Option Int) (hcap : ∀ c, cap = some c → 1 ≤ c)
    (as : List (AddArgs ℝ)) (hne : as ≠ []) (hc : Clean realPrims t T as) (hf : ((modes T as).map (·.freq)).Nodup)
    (hb : (∀ a ∈ as, a.ctype = "BondPeierls") ∨ (∀ a ∈ as, a.ctype ≠ "BondPeierls")) :
    ∃ m b m' ae, (Model.fromParameters t 1 T cap 1).adds realPrims as = .ok m ∧
      (Model.fromParameters t lattice T cap 1).adds realPrims as = .ok m' ∧
      buildSystem σ m = .ok b ∧ buildSystem σ m' = .ok b ∧ m'.absExtent = some ae ∧
      ∀ k w eta : ℝ, 0 < eta → ∃ G, Gives m b ⟨k * lattice, w, eta⟩ G ∧
        (∃ Ψ, Resolvent m' ae ⟨k, w, eta⟩ Ψ) ∧ ∀ Ψ, Resolvent m' ae ⟨k, w, eta⟩ Ψ → Ψ 0 0 = G := by
  obtain ⟨b, ae, h1, h1', h2, h3, h3'⟩ := assembled_band σ t 1 T t lattice cap hcap as hne (Or.inl rfl) hc hf hb
  have hp := physical_assembled h1 hb (ht.eq_or_lt.imp Eq.symm (fun h => ⟨h, rfl⟩))
  refine ⟨_, b, _, ae, h1, h1', h3, h3', h2.absExtent, fun k w eta heta => ?_⟩
  obtain ⟨Ψ, hΨ, huniq, g1, g2⟩ := C55_exact σ _ ae h2 b h3 hp ⟨k * lattice, w, eta⟩ heta
  refine ⟨Ψ 0 0, ⟨g1, g2⟩, ⟨Ψ, ?_⟩, ?_⟩
  · exact resolvent_band (p := ⟨k * lattice, w, eta⟩) (p' := ⟨k, w, eta⟩) rfl rfl (by simp [blueprint]) hΨ
  · intro Φ hΦ
    have hR := resolvent_band (p := ⟨k, w, eta⟩) (p' := ⟨k * lattice, w, eta⟩) (a' := 1) rfl rfl (by simp [withBand]) hΦ
    rw [huniq Φ hR]

/-- **C71**, proved part: without hopping, or for Holstein models with `phonon_extent = 1`, the result depends on
the momentum and the lattice constant only through their product. What is missing: everything else
(`C71_wrong`). -/
theorem C71_product_partial (σ : SetOrder) (t lattice T : ℝ) (ht : 0 ≤ t) (cap : Option Int)
    (hcap : ∀ c, cap = some c → 1 ≤ c) (as : List (AddArgs ℝ)) (hne : as ≠ []) (hc : Clean realPrims t T as)
    (hf : ((modes T as).map (·.freq)).Nodup)
    (hb : (∀ a ∈ as, a.ctype = "BondPeierls") ∨ (∀ a ∈ as, a.ctype ≠ "BondPeierls")) (ho : t = 0 ∨ OneSite T as) :
    ∃ m b m', (Model.fromParameters t 1 T cap 1).adds realPrims as = .ok m ∧
      (Model.fromParameters t lattice T cap 1).adds realPrims as = .ok m' ∧
      buildSystem σ m = .ok b ∧ buildSystem σ m' = .ok b ∧
      ∀ k w eta : ℝ, 0 < eta → ∃ G, Gives m b ⟨k * lattice, w, eta⟩ G ∧ Gives m' b ⟨k, w, eta⟩ G := by
  obtain ⟨b, ae, h1, h1', h2, h3, h3'⟩ := assembled_band σ t 1 T t lattice cap hcap as hne (Or.inl rfl) hc hf hb
  have hp := physical_assembled h1 hb (ht.eq_or_lt.imp Eq.symm (fun h => ⟨h, rfl⟩))
  refine ⟨_, b, _, h1, h1', h3, h3', fun k w eta heta => ?_⟩
  obtain ⟨Ψ, hΨ, -, g1, g2⟩ := C55_exact σ _ ae h2 b h3 hp ⟨k * lattice, w, eta⟩ heta
  refine ⟨Ψ 0 0, ⟨g1, g2⟩, ?_⟩
  rcases ho with h0 | ho
  · have hp' := physical_assembled h1' hb (Or.inl h0)
    exact gives_of_resolvent (h2.withBand t lattice) h3' hp' heta
      (resolvent_band (p := ⟨k * lattice, w, eta⟩) (p' := ⟨k, w, eta⟩) rfl rfl (by simp [blueprint]) hΨ)
  · have hcos : t * Real.cos (k * lattice * 1) = t * Real.cos (k * lattice) := by rw [mul_one]
    have hloc := oneSite_local hc ho h2 h3
    exact gives_band (t' := t) (a' := lattice) (p := ⟨k * lattice, w, eta⟩) (p' := ⟨k, w, eta⟩) h2 h3 hloc rfl rfl rfl
      hcos ⟨g1, g2⟩

/-- **C71** fails for a single BondPeierls call with one phonon, at every positive hopping, every coupling, every
lattice constant other than `±1`, every momentum with `cos(ka) ≠ 0` and every energy and broadening. -/
theorem C71_wrong (σ : SetOrder) (t lattice Omega g k w eta : ℝ) (ht : 0 < t) (ha : |lattice| ≠ 1) (hg : g ≠ 0)
    (hk : Real.cos (k * lattice) ≠ 0) (he : 0 < eta) (cap : Option Int) (hcap : ∀ c, cap = some c → 1 ≤ c) (M : ℤ)
    (hM : 1 ≤ M) :
    ∃ m b m', (Model.fromParameters t 1 0 cap 1).adds realPrims
        [{ ctype := "BondPeierls", freq := Omega, M := M, N := 1, g := some g }] = .ok m ∧
      (Model.fromParameters t lattice 0 cap 1).adds realPrims
        [{ ctype := "BondPeierls", freq := Omega, M := M, N := 1, g := some g }] = .ok m' ∧
      buildSystem σ m = .ok b ∧ buildSystem σ m' = .ok b ∧
      ∃ G, Gives m b ⟨k * lattice, w, eta⟩ G ∧ ¬ Gives m' b ⟨k, w, eta⟩ G := by
  obtain ⟨hc, hf, hb⟩ := clean_one (hopping := t) (ct := "BondPeierls") (Omega := Omega) (g := g) (by simp) hM (le_refl (1 : ℤ))
  obtain ⟨m, b, m', ae, h1, h1', h3, h3', -, hall⟩ := C71_exact σ t lattice 0 ht.le cap hcap _ (by simp) hc hf hb
  obtain ⟨b1, k1, k2, k3⟩ := one_call σ t 1 cap hcap "BondPeierls" (by simp) Omega g M 1 hM le_rfl
  obtain ⟨b2, l1, l2, l3⟩ := one_call σ t lattice cap hcap "BondPeierls" (by simp) Omega g M 1 hM le_rfl
  rw [h1] at k1; cases k1
  rw [h1'] at l1; cases l1
  obtain ⟨G, hG, -⟩ := hall k w eta he
  refine ⟨_, b, _, h1, h1', h3, h3', G, hG, ?_⟩
  intro hG'
  have v1 := bond_value k2 h3 he hG
  have v2 := bond_value l2 h3' he hG'
  have hzero : g0R 0 (w - Omega) lattice eta t = g0R 0 (w - Omega) 1 eta t := by
    unfold g0R; simp
  rw [v1, mul_one, hzero] at v2
  have h0 : (2 : ℂ) * g ^ 2 * Real.cos (k * lattice) *
      (g0R 1 (w - Omega) 1 eta t - g0R 1 (w - Omega) lattice eta t) = 0 := by
    linear_combination -v2
  have hg' : (g : ℂ) ≠ 0 := by exact_mod_cast hg
  have hk' : ((Real.cos (k * lattice) : ℝ) : ℂ) ≠ 0 := by exact_mod_cast hk
  have hne := mul_ne_zero (mul_ne_zero (two_ne_zero (α := ℂ)) (pow_ne_zero 2 hg')) hk'
  have heq := sub_eq_zero.1 ((mul_eq_zero.1 h0).resolve_left hne)
  rw [g0R_eq _ _ _ he ht.ne', g0R_eq _ _ _ he ht.ne'] at heq
  have hp := pref_ne_zero (omega := w - Omega) he ht.ne'
  have hy := mul_right_cancel₀ hp heq
  have hn := congrArg norm hy
  rw [Complex.norm_cpow_real, Complex.norm_cpow_real, mul_one, one_mul, abs_one] at hn
  have h1y := norm_yRoot_lt (x := xOf (w - Omega) eta t) (xOf_im he ht.ne')
  have h0y : 0 < ‖yRoot (xOf (w - Omega) eta t)‖ := norm_pos_iff.2 (yRoot_ne_zero _)
  exact ha ((Real.strictAnti_rpow_of_base_lt_one h0y h1y).injective hn).symm

/-! ### concrete cases -/

/-- Hypotheses of C70 and C71 met by two calls with two kinds of phonons. -/
example : exCalls ≠ [] ∧ (∀ a ∈ exCalls, a.lam = none) ∧ Clean realPrims 1 0 exCalls ∧
    ((modes 0 exCalls).map (·.freq)).Nodup ∧ (∀ a ∈ exCalls, a.ctype ≠ "BondPeierls") :=
  ⟨by simp [exCalls], by simp [exCalls], exCalls_clean⟩

/-- The part proved is not empty: two Holstein modes on one site. -/
example : OneSite 0 [{ ctype := "Holstein", freq := 2, M := 1, N := 3, g := some 1 },
    { ctype := "Holstein", freq := 1, M := 1, N := 2, g := some (1 / 2) }] := by
  constructor
  · simp
  · intro d hd
    obtain ⟨a, ha, hd⟩ := List.mem_flatMap.1 hd
    have ha' := (List.mem_filter.1 ha).1
    simp only [List.mem_cons, List.not_mem_nil, or_false] at ha'
    rcases ha' with rfl | rfl <;> simp [modesAt] at hd <;> rw [hd]

/-- The failures, at zero momentum. -/
example (σ : SetOrder) : ∃ m b m', (Model.fromParameters 1 1 0 none 1).adds realPrims
        [{ ctype := "BondPeierls", freq := 2, M := 3, N := 1, g := some 1 }] = .ok m ∧
      (Model.fromParameters (-1) 1 0 none 1).adds realPrims
        [{ ctype := "BondPeierls", freq := 2, M := 3, N := 1, g := some 1 }] = .ok m' ∧
      buildSystem σ m = .ok b ∧ buildSystem σ m' = .ok b ∧
      ∃ G G', Gives m b ⟨0 + Real.pi, 0, 1⟩ G ∧ Gives m' b ⟨0, 0, 1⟩ G' ∧ G ≠ G' :=
  C70_wrong σ 1 2 1 0 0 1 one_pos one_ne_zero (by simp) one_pos none (by simp) 3 (by norm_num)

example (σ : SetOrder) : ∃ m b m', (Model.fromParameters 1 1 0 none 1).adds realPrims
        [{ ctype := "BondPeierls", freq := 2, M := 3, N := 1, g := some 1 }] = .ok m ∧
      (Model.fromParameters 1 2 0 none 1).adds realPrims
        [{ ctype := "BondPeierls", freq := 2, M := 3, N := 1, g := some 1 }] = .ok m' ∧
      buildSystem σ m = .ok b ∧ buildSystem σ m' = .ok b ∧
      ∃ G, Gives m b ⟨0 * 2, 0, 1⟩ G ∧ ¬ Gives m' b ⟨0, 0, 1⟩ G :=
  C71_wrong σ 1 2 2 1 0 0 1 one_pos (by norm_num) one_ne_zero (by simp) one_pos none (by simp) 3 (by norm_num)

end GGCE.Props
