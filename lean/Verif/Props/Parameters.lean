import Verif.Proofs.Relabel
import Verif.Proofs.Rescale
import Verif.Props.Exact
import Verif.Spec.Calls

/-!
Properties C63 to C65: the order of the calls, calls without coupling, and the unit of energy.
-/

set_option linter.unusedSectionVars false

namespace GGCE.Props
open Spec Arr Complex

/-- Both solvers return `G` for the system `b` of the model `m` at the point `p`. -/
def Gives (m : Model ℝ) (b : Built ℝ) (p : Point ℝ) (G : ℂ) : Prop :=
  (∀ spsolve, Exact spsolve → sparseSolve realPhys m p (fullBasis b.eqs) b.eqs spsolve = .ok G) ∧
    denseSolve realPhys m p (localBasis b.eqs) b.eqs = .ok (some G)

/-- From resolvent amplitudes to what the solvers return. -/
theorem gives_of_resolvent {σ : SetOrder} {m : Model ℝ} {ae : Int} (hm : WellFormed m ae) {b : Built ℝ}
    (hb : buildSystem σ m = .ok b) (hp : Physical m) {p : Point ℝ} (heta : 0 < p.eta) {Ψ : Occ → ℤ → ℂ}
    (hΨ : Resolvent m ae p Ψ) : Gives m b p (Ψ 0 0) := by
  obtain ⟨Ψ', -, h2, h3, h4⟩ := C55_exact σ m ae hm b hb hp p heta
  rw [h2 Ψ hΨ]
  exact ⟨h3, h4⟩

/-! ### C63 -/

theorem clean_perm {P : Prims ℝ} {hopping T : ℝ} {as as' : List (AddArgs ℝ)} (h : as.Perm as')
    (hc : Clean P hopping T as) : Clean P hopping T as' :=
  ⟨fun a ha => hc.valid a (h.mem_iff.2 ha), fun a ha => hc.known a (h.mem_iff.2 ha),
    fun a ha => hc.noOverride a (h.mem_iff.2 ha), fun a ha => hc.defined a (h.mem_iff.2 ha)⟩

theorem modes_perm {T : ℝ} {as as' : List (AddArgs ℝ)} (h : as.Perm as') : (modes T as).Perm (modes T as') := by
  unfold modes
  exact (h.filter _).flatMap_right _

theorem max_perm {l l' : List Int} (h : l.Perm l') {x y : Int} (hx : l.max? = some x) (hy : l'.max? = some y) :
    x = y := by
  rw [List.max?_eq_some_iff] at hx hy
  have h1 := hx.2 y (h.mem_iff.2 hy.1)
  have h2 := hy.2 x (h.mem_iff.1 hx.1)
  omega

/-- C63: the order of the `add_` calls does not matter. -/
theorem C63_order (σ σ' : SetOrder) (hopping lattice T : ℝ)
    (hl : hopping = 0 ∨ (0 < hopping ∧ lattice = 1)) (cap : Option Int) (hcap : ∀ c, cap = some c → 1 ≤ c)
    (as as' : List (AddArgs ℝ)) (hperm : as.Perm as') (hne : as ≠ []) (hc : Clean realPrims hopping T as)
    (hf : ((modes T as).map (·.freq)).Nodup)
    (hb : (∀ a ∈ as, a.ctype = "BondPeierls") ∨ (∀ a ∈ as, a.ctype ≠ "BondPeierls")) :
    ∃ m b m' b', (Model.fromParameters hopping lattice T cap 1).adds realPrims as = .ok m ∧
      (Model.fromParameters hopping lattice T cap 1).adds realPrims as' = .ok m' ∧
      buildSystem σ m = .ok b ∧ buildSystem σ' m' = .ok b' ∧
      ∀ k w eta : ℝ, 0 < eta → ∃ G, Gives m b ⟨k, w, eta⟩ G ∧ Gives m' b' ⟨k, w, eta⟩ G := by
  have hc' := clean_perm hperm hc
  have hne' : as' ≠ [] := fun h => hne (by rw [h] at hperm; exact hperm.eq_nil)
  have hf' : ((modes T as').map (·.freq)).Nodup := (((modes_perm hperm).map _).nodup_iff).1 hf
  have hb' : (∀ a ∈ as', a.ctype = "BondPeierls") ∨ (∀ a ∈ as', a.ctype ≠ "BondPeierls") := by
    rcases hb with h | h
    · exact Or.inl (fun a ha => h a (hperm.mem_iff.2 ha))
    · exact Or.inr (fun a ha => h a (hperm.mem_iff.2 ha))
  obtain ⟨m, b, h1, ⟨ae, h2⟩, h3⟩ := C16_assembled σ realPrims C42_names hopping lattice T cap hcap as hne hc hf hb
  obtain ⟨m', b', k1, ⟨ae', k2⟩, k3⟩ :=
    C16_assembled σ' realPrims C42_names hopping lattice T cap hcap as' hne' hc' hf' hb'
  refine ⟨m, b, m', b', h1, k1, h3, k3, ?_⟩
  intro k w eta heta
  have hp := physical_assembled h1 hb hl
  have hp' := physical_assembled k1 hb' hl
  rw [fromParameters_blueprint hopping lattice T cap as hc hf] at h1
  rw [fromParameters_blueprint hopping lattice T cap as' hc' hf'] at k1
  cases h1
  cases k1
  have hds : (parts realPrims hopping T as).Perm (parts realPrims hopping T as') := hperm.flatMap_right _
  have e1 : ((parts realPrims hopping T as).map (·.M)).max? = some ae := h2.absExtent
  have e2 : ((parts realPrims hopping T as').map (·.M)).max? = some ae' := k2.absExtent
  obtain rfl : ae = ae' := max_perm (hds.map _) e1 e2
  obtain ⟨Ψ, hΨ, -, g1, g2⟩ := C55_exact σ _ ae h2 b h3 hp ⟨k, w, eta⟩ heta
  obtain ⟨π, hπ⟩ := perm_equiv hds
  have hR := gives_of_resolvent k2 k3 hp' heta (resolvent_rename hπ hΨ)
  exact ⟨Ψ 0 0, ⟨g1, g2⟩, hR⟩

/-! ### C64 -/

theorem silent_parts {hopping T : ℝ} {bs : List (AddArgs ℝ)} (hc : Clean realPrims hopping T bs)
    (hs : ∀ a ∈ bs, Silent a) : ∀ d ∈ parts realPrims hopping T bs, d.g = 0 := by
  intro d hd
  obtain ⟨a, ha, hd⟩ := List.mem_flatMap.1 hd
  have hz : ∀ f, strengthD realPrims hopping a f = 0 := by
    intro f
    have hst := (hc.valid a ha).strength
    rcases hs a ha with h | h
    · have hl : a.lam = none := by
        rcases hst with ⟨g, e1, e2⟩ | ⟨g, e1, e2⟩
        · exact e2
        · rw [e2] at h; cases h
      exact strengthD_ok (by simp [Hamiltonian.strength, hl, h])
    · refine strengthD_ok ?_
      rw [h]
      show couplingMapR a.ctype hopping f 0 = .ok 0
      rcases hc.known a ha with e | e | e | e <;> rw [e] <;>
        simp [couplingMapR, mathSqrt]
  unfold partsAt at hd
  split at hd
  · simp only [List.mem_cons, List.not_mem_nil, or_false] at hd
    rcases hd with rfl | rfl <;> simp [hz]
  · simp only [List.mem_cons, List.not_mem_nil, or_false] at hd
    subst hd; simp [hz]

theorem parts_N_pos {hopping T : ℝ} {bs : List (AddArgs ℝ)} (hc : Clean realPrims hopping T bs) :
    ∀ d ∈ parts realPrims hopping T bs, 0 ≤ d.N := by
  intro d hd
  obtain ⟨a, ha, hd⟩ := List.mem_flatMap.1 hd
  have hv := hc.valid a ha
  unfold partsAt at hd
  split at hd
  · rename_i hT
    obtain ⟨-, y, hy⟩ := hv.tfd hT
    simp only [List.mem_cons, List.not_mem_nil, or_false] at hd
    rcases hd with rfl | rfl
    · have := hv.number; simp only; omega
    · have := hv.numberTfd y hy; simp only [hy, Option.getD_some]; omega
  · simp only [List.mem_cons, List.not_mem_nil, or_false] at hd
    subst hd
    have := hv.number; simp only; omega

/-- C64: calls without coupling, anywhere among the others, do not change the result, as long as they do not
enlarge the absolute extent (the largest extent of all modes) or there is only one other mode. -/
theorem C64_silent (σ σ' : SetOrder) (hopping lattice T : ℝ)
    (hl : hopping = 0 ∨ (0 < hopping ∧ lattice = 1)) (cap : Option Int) (hcap : ∀ c, cap = some c → 1 ≤ c)
    (as bs as' : List (AddArgs ℝ)) (hperm : (as ++ bs).Perm as') (hne : as ≠ [])
    (hc : Clean realPrims hopping T (as ++ bs)) (hf : ((modes T (as ++ bs)).map (·.freq)).Nodup)
    (hb : (∀ a ∈ as ++ bs, a.ctype = "BondPeierls") ∨ (∀ a ∈ as ++ bs, a.ctype ≠ "BondPeierls"))
    (hs : ∀ a ∈ bs, Silent a)
    (hM : (∀ d ∈ modes T bs, ∃ d' ∈ modes T as, d.M ≤ d'.M) ∨ (modes T as).length = 1) :
    ∃ m b m' b', (Model.fromParameters hopping lattice T cap 1).adds realPrims as = .ok m ∧
      (Model.fromParameters hopping lattice T cap 1).adds realPrims as' = .ok m' ∧
      buildSystem σ m = .ok b ∧ buildSystem σ' m' = .ok b' ∧
      ∀ k w eta : ℝ, 0 < eta → ∃ G, Gives m b ⟨k, w, eta⟩ G ∧ Gives m' b' ⟨k, w, eta⟩ G := by
  have hca : Clean realPrims hopping T as :=
    ⟨fun a ha => hc.valid a (List.mem_append_left _ ha), fun a ha => hc.known a (List.mem_append_left _ ha),
      fun a ha => hc.noOverride a (List.mem_append_left _ ha), fun a ha => hc.defined a (List.mem_append_left _ ha)⟩
  have hcb : Clean realPrims hopping T bs :=
    ⟨fun a ha => hc.valid a (List.mem_append_right _ ha), fun a ha => hc.known a (List.mem_append_right _ ha),
      fun a ha => hc.noOverride a (List.mem_append_right _ ha), fun a ha => hc.defined a (List.mem_append_right _ ha)⟩
  have hfa : ((modes T as).map (·.freq)).Nodup := by
    rw [modes_of_clean hc, List.flatMap_append, List.map_append, ← modes_of_clean hca] at hf
    exact (List.nodup_append.1 hf).1
  have hba : (∀ a ∈ as, a.ctype = "BondPeierls") ∨ (∀ a ∈ as, a.ctype ≠ "BondPeierls") := by
    rcases hb with h | h
    · exact Or.inl (fun a ha => h a (List.mem_append_left _ ha))
    · exact Or.inr (fun a ha => h a (List.mem_append_left _ ha))
  obtain ⟨m, b, h1, ⟨ae, h2⟩, h3⟩ := C16_assembled σ realPrims C42_names hopping lattice T cap hcap as hne hca hfa hba
  obtain ⟨m1, b1, m', b', k1, k2, k3, k4, k5⟩ := C63_order σ' σ' hopping lattice T hl cap hcap (as ++ bs) as' hperm
    (by simp [hne]) hc hf hb
  refine ⟨m, b, m', b', h1, k2, h3, k4, ?_⟩
  intro k w eta heta
  obtain ⟨m2, b2, e1, ⟨ae', e2⟩, e3⟩ := C16_assembled σ' realPrims C42_names hopping lattice T cap hcap (as ++ bs)
    (by simp [hne]) hc hf hb
  rw [k1] at e1; cases e1
  rw [k3] at e3; cases e3
  have hp := physical_assembled h1 hba hl
  have hp1 := physical_assembled k1 hb hl
  rw [fromParameters_blueprint hopping lattice T cap as hca hfa] at h1
  rw [fromParameters_blueprint hopping lattice T cap _ hc hf] at k1
  cases h1
  cases k1
  have hparts : parts realPrims hopping T (as ++ bs) = parts realPrims hopping T as ++ parts realPrims hopping T bs :=
    List.flatMap_append
  rw [hparts] at e2 k3 k5 hp1
  have hx : ((parts realPrims hopping T as).map (·.M)).max? = some ae := h2.absExtent
  have hy : ((parts realPrims hopping T as ++ parts realPrims hopping T bs).map (·.M)).max? = some ae' := e2.absExtent
  rw [List.map_append] at hy
  have hle : ae ≤ ae' := by
    rw [List.max?_eq_some_iff] at hx hy
    exact hy.2 ae (List.mem_append_left _ hx.1)
  have hw : ae' = ae ∨ ((parts realPrims hopping T as).length = 1 ∧ ∀ d ∈ parts realPrims hopping T as, d.M = ae) ∧
      ae ≤ ae' := by
    rcases hM with hM | hM
    · left
      refine le_antisymm ?_ hle
      rw [List.max?_eq_some_iff] at hx hy
      rcases List.mem_append.1 hy.1 with h | h
      · exact hx.2 _ h
      · rw [parts_M hcb] at h
        rw [parts_M hca] at hx
        obtain ⟨d, hd, rfl⟩ := List.mem_map.1 h
        obtain ⟨d', hd', hle'⟩ := hM d hd
        exact hle'.trans (hx.2 _ (List.mem_map_of_mem hd'))
    · right
      have hlen : (parts realPrims hopping T as).length = 1 := by
        have := congrArg List.length (parts_M (P := realPrims) hca)
        simpa [hM] using this
      refine ⟨⟨hlen, fun d hd => ?_⟩, hle⟩
      obtain ⟨d0, hd0⟩ := List.length_eq_one_iff.1 hlen
      rw [hd0] at hd hx
      simp only [List.mem_singleton] at hd
      subst hd
      simpa using hx
  obtain ⟨Ψ, hΨ, -, g1, g2⟩ := C55_exact σ _ ae h2 b h3 hp ⟨k, w, eta⟩ heta
  have hR := resolvent_without (hopping := hopping) (lattice := lattice) (T := T) (cap := cap) (silent_parts hcb hs)
    (parts_N_pos hcb) hw hΨ
  have hG1 := gives_of_resolvent e2 k3 hp1 heta hR
  obtain ⟨G, j1, j2⟩ := k5 k w eta heta
  have hsame : G = Ψ 0 0 := by
    have e := j1.2
    rw [hG1.2] at e
    cases e
    rw [if_pos (show Without _ 0 from fun _ _ => rfl)]
  exact ⟨Ψ 0 0, ⟨g1, g2⟩, by rw [← hsame]; exact j2⟩

/-! ### C65 -/

theorem sqrt_scale {s : ℝ} (hs : 0 < s) (x : ℝ) : mathSqrt (s * s * x) = (mathSqrt x).map (fun y => s * y) := by
  unfold mathSqrt
  by_cases hx : x < 0
  · rw [if_pos hx, if_pos (mul_neg_of_pos_of_neg (mul_pos hs hs) hx)]; rfl
  · rw [if_neg hx, if_neg (not_lt.2 (mul_nonneg (mul_pos hs hs).le (not_lt.1 hx)))]
    show Except.ok _ = Except.ok _
    rw [Real.sqrt_mul (mul_pos hs hs).le, Real.sqrt_mul_self hs.le]

theorem couplingMap_scale {s : ℝ} (hs : 0 < s) {ct : String} (t Omega lam : ℝ) :
    couplingMapR ct (s * t) (s * Omega) (if ct = "EdwardsFermionBoson" then s * lam else lam) =
      (couplingMapR ct t Omega lam).map (fun g => s * g) := by
  have ha : |s * Omega| = s * |Omega| := by rw [abs_mul, abs_of_pos hs]
  unfold couplingMapR
  by_cases h1 : ct = "Holstein"
  · subst h1
    simp only [if_true, ha]
    rw [if_neg (by decide), ← sqrt_scale hs]; congr 1; ring
  by_cases h2 : ct = "EdwardsFermionBoson"
  · subst h2; simp [Except.map]
  by_cases h3 : ct = "Peierls"
  · subst h3
    simp only [if_neg h1, if_neg h2, if_true, ha]
    rw [← sqrt_scale hs]; congr 1; ring
  by_cases h4 : ct = "BondPeierls"
  · subst h4
    simp only [if_neg h1, if_neg h2, if_neg h3, if_true, ha]
    rw [← sqrt_scale hs]; congr 1; ring
  simp [h1, h2, h3, h4, Except.map]

theorem strength_scale {s : ℝ} (hs : 0 < s) (hopping : ℝ) (a : AddArgs ℝ) (f : ℝ) :
    Hamiltonian.strength realPrims (s * hopping) (rescaled s a).ctype (s * f) (rescaled s a).g (rescaled s a).lam =
      (Hamiltonian.strength realPrims hopping a.ctype f a.g a.lam).map (fun g => s * g) := by
  unfold Hamiltonian.strength
  cases hlam : a.lam with
  | none =>
    have : (rescaled s a).lam = none := by simp [rescaled, hlam]
    rw [this]
    cases hg : a.g with
    | none => simp [rescaled, hg, Except.map]
    | some g => simp [rescaled, hg, Except.map]
  | some l =>
    have : (rescaled s a).lam = some (if a.ctype = "EdwardsFermionBoson" then s * l else l) := by
      simp only [rescaled, hlam]
      split <;> simp
    rw [this]
    exact couplingMap_scale hs hopping f l

theorem strengthD_scale {s : ℝ} (hs : 0 < s) (hopping : ℝ) (a : AddArgs ℝ) (f : ℝ) :
    strengthD realPrims (s * hopping) (rescaled s a) (s * f) = s * strengthD realPrims hopping a f := by
  unfold strengthD
  rw [strength_scale hs]
  cases Hamiltonian.strength realPrims hopping a.ctype f a.g a.lam <;> simp [Except.map]

theorem tfd_scale {s : ℝ} (hs : 0 < s) (T Omega : ℝ) : tfdR (s * T) (s * Omega) = tfdR T Omega := by
  unfold tfdR
  have : -(1 / (s * T)) * (s * Omega) / 2 = -(1 / T) * Omega / 2 := by
    by_cases hT : T = 0
    · simp [hT]
    · have := hs.ne'
      field_simp
  simp only [this]

theorem parts_scale {s : ℝ} (hs : 0 < s) (hopping T : ℝ) (as : List (AddArgs ℝ)) :
    parts realPrims (s * hopping) (s * T) (as.map (rescaled s)) =
      (parts realPrims hopping T as).map (scalePart s) := by
  unfold parts
  rw [List.flatMap_map, List.map_flatMap]
  congr 1
  funext a
  have h2 := strengthD_scale hs hopping a a.freq
  have h3 := strengthD_scale hs hopping a (-a.freq)
  have htf : realPrims.tfd (s * T) (s * a.freq) = realPrims.tfd T a.freq := tfd_scale hs T a.freq
  have hneg : -(s * a.freq) = s * -a.freq := by ring
  have hfr : (rescaled s a).freq = s * a.freq := rfl
  unfold partsAt
  by_cases hT : 0 < T
  · rw [if_pos hT, if_pos (mul_pos hs hT), hfr, htf, hneg, h2, h3]
    simp only [List.map_cons, List.map_nil, scalePart, mul_assoc]
    rfl
  · rw [if_neg hT, if_neg (fun h => hT (pos_of_mul_pos_right h hs.le)), hfr, h2]
    simp only [List.map_cons, List.map_nil, scalePart, mul_one]
    rfl

theorem clean_rescaled {s : ℝ} (hs : 0 < s) {hopping T : ℝ} {as : List (AddArgs ℝ)}
    (hc : Clean realPrims hopping T as) : Clean realPrims (s * hopping) (s * T) (as.map (rescaled s)) := by
  have hT : 0 < s * T ↔ 0 < T := ⟨fun h => pos_of_mul_pos_right h hs.le, mul_pos hs⟩
  refine ⟨?_, ?_, ?_, ?_⟩ <;> intro x hx <;> obtain ⟨a, ha, rfl⟩ := List.mem_map.1 hx
  · have hv := hc.valid a ha
    refine ⟨hv.extent, hv.number, hv.extentTfd, hv.numberTfd, fun h => hv.tfd (hT.1 h), ?_,
      fun h => hv.override (hT.1 h)⟩
    rcases hv.strength with ⟨g, h1, h2⟩ | ⟨l, h1, h2⟩
    · left; exact ⟨s * g, by simp [rescaled, h1], by simp [rescaled, h2]⟩
    · right
      refine ⟨if a.ctype = "EdwardsFermionBoson" then s * l else l, ?_, by simp [rescaled, h2]⟩
      simp only [rescaled, h1]; split <;> simp
  · exact hc.known a ha
  · exact hc.noOverride a ha
  · intro l hlam
    cases h : a.lam with
    | none => simp [rescaled, h] at hlam
    | some l0 =>
      obtain ⟨⟨g1, e1⟩, g2, e2⟩ := hc.defined a ha l0 h
      have : l = if a.ctype = "EdwardsFermionBoson" then s * l0 else l0 := by
        simp only [rescaled, h] at hlam
        split at hlam
        · rename_i hct; rw [if_pos hct]; simpa using hlam.symm
        · rename_i hct; rw [if_neg hct]; simpa using hlam.symm
      subst this
      constructor
      · refine ⟨s * g1, ?_⟩
        show couplingMapR a.ctype (s * hopping) (s * a.freq) _ = _
        rw [couplingMap_scale hs, show couplingMapR a.ctype hopping a.freq l0 = .ok g1 from e1]; rfl
      · refine ⟨s * g2, ?_⟩
        show couplingMapR a.ctype (s * hopping) (-(s * a.freq)) _ = _
        rw [show -(s * a.freq) = s * -a.freq by ring]
        rw [couplingMap_scale hs, show couplingMapR a.ctype hopping (-a.freq) l0 = .ok g2 from e2]; rfl

/-- C65: only ratios of energies matter. Multiplying the hopping, the temperature, the phonon energies, the
couplings, the frequency and the broadening by `s` divides the Green's function by `s`. -/
theorem C65_units (σ σ' : SetOrder) (s : ℝ) (hs : 0 < s) (hopping lattice T : ℝ)
    (hl : hopping = 0 ∨ (0 < hopping ∧ lattice = 1)) (cap : Option Int) (hcap : ∀ c, cap = some c → 1 ≤ c)
    (as : List (AddArgs ℝ)) (hne : as ≠ []) (hc : Clean realPrims hopping T as)
    (hf : ((modes T as).map (·.freq)).Nodup)
    (hb : (∀ a ∈ as, a.ctype = "BondPeierls") ∨ (∀ a ∈ as, a.ctype ≠ "BondPeierls")) :
    ∃ m b m' b', (Model.fromParameters hopping lattice T cap 1).adds realPrims as = .ok m ∧
      (Model.fromParameters (s * hopping) lattice (s * T) cap 1).adds realPrims (as.map (rescaled s)) = .ok m' ∧
      buildSystem σ m = .ok b ∧ buildSystem σ' m' = .ok b' ∧
      ∀ k w eta : ℝ, 0 < eta → ∃ G, Gives m b ⟨k, w, eta⟩ G ∧ Gives m' b' ⟨k, s * w, s * eta⟩ (G / s) := by
  have hc' := clean_rescaled hs hc
  have hf' : ((modes (s * T) (as.map (rescaled s))).map (·.freq)).Nodup := by
    rw [← parts_freq hc', parts_scale hs, List.map_map]
    rw [← parts_freq hc] at hf
    have : ((fun d : Part ℝ => d.freq) ∘ scalePart s) = (fun x => s * x) ∘ (fun d : Part ℝ => d.freq) := rfl
    rw [this, ← List.map_map]
    exact hf.map (fun x y h => mul_left_cancel₀ hs.ne' h)
  have hb' : (∀ a ∈ as.map (rescaled s), a.ctype = "BondPeierls") ∨
      (∀ a ∈ as.map (rescaled s), a.ctype ≠ "BondPeierls") := by
    rcases hb with h | h
    · exact Or.inl (List.forall_mem_map.2 h)
    · exact Or.inr (List.forall_mem_map.2 h)
  have hl' : s * hopping = 0 ∨ (0 < s * hopping ∧ lattice = 1) := by
    rcases hl with rfl | ⟨h, rfl⟩
    · left; simp
    · right; exact ⟨mul_pos hs h, rfl⟩
  obtain ⟨m, b, h1, ⟨ae, h2⟩, h3⟩ := C16_assembled σ realPrims C42_names hopping lattice T cap hcap as hne hc hf hb
  obtain ⟨m', b', k1, ⟨ae', k2⟩, k3⟩ := C16_assembled σ' realPrims C42_names (s * hopping) lattice (s * T) cap hcap
    (as.map (rescaled s)) (by simpa using hne) hc' hf' hb'
  refine ⟨m, b, m', b', h1, k1, h3, k3, ?_⟩
  intro k w eta heta
  have hp := physical_assembled h1 hb hl
  have hp' := physical_assembled k1 hb' hl'
  rw [fromParameters_blueprint hopping lattice T cap as hc hf] at h1
  rw [fromParameters_blueprint (s * hopping) lattice (s * T) cap _ hc' hf'] at k1
  cases h1
  cases k1
  rw [parts_scale hs] at k2 k3 hp' ⊢
  obtain rfl : ae = ae' := by
    have e1 : ((parts realPrims hopping T as).map (·.M)).max? = some ae := h2.absExtent
    have e2 : (((parts realPrims hopping T as).map (scalePart s)).map (·.M)).max? = some ae' := k2.absExtent
    rw [List.map_map] at e2
    rw [show ((fun d : Part ℝ => d.M) ∘ scalePart s) = (fun d : Part ℝ => d.M) from rfl, e1] at e2
    exact Option.some.inj e2
  obtain ⟨Ψ, hΨ, -, g1, g2⟩ := C55_exact σ _ ae h2 b h3 hp ⟨k, w, eta⟩ heta
  have hR := gives_of_resolvent k2 k3 hp' (mul_pos hs heta) (resolvent_scale hs.ne' (s * T) hΨ)
  exact ⟨Ψ 0 0, ⟨g1, g2⟩, hR⟩

/-- With `lam` unchanged the coupling of the `EdwardsFermionBoson` type does not scale: although documented as
dimensionless, this `lam` is an energy. -/
theorem C65_edwards (t Omega lam s : ℝ) (hlam : lam ≠ 0) (hs : s ≠ 1) :
    couplingMapR "EdwardsFermionBoson" (s * t) (s * Omega) lam ≠
      (couplingMapR "EdwardsFermionBoson" t Omega lam).map (fun g => s * g) := by
  intro h
  have h1 : couplingMapR "EdwardsFermionBoson" (s * t) (s * Omega) lam = .ok lam := by simp [couplingMapR]
  have h2 : couplingMapR "EdwardsFermionBoson" t Omega lam = .ok lam := by simp [couplingMapR]
  rw [h1, h2] at h
  have h3 : lam = s * lam := Except.ok.inj h
  exact hs (mul_right_cancel₀ hlam (by rw [one_mul]; exact h3.symm))

/-! Calls that meet the hypotheses. -/

/-- a third mode without coupling, at the extent of the second -/
noncomputable def exSilent : List (AddArgs ℝ) :=
  [{ ctype := "Holstein", freq := 5, M := 3, N := 4, lam := some 0 }]

theorem exSilent_clean : Clean realPrims 1 0 (exCalls ++ exSilent) ∧
    ((modes 0 (exCalls ++ exSilent)).map (·.freq)).Nodup ∧
    (∀ a ∈ exCalls ++ exSilent, a.ctype ≠ "BondPeierls") ∧ (∀ a ∈ exSilent, Silent a) ∧
    ∀ d ∈ modes (0 : ℝ) exSilent, ∃ d' ∈ modes (0 : ℝ) exCalls, d.M ≤ d'.M := by
  have hc : Clean realPrims 1 0 (exCalls ++ exSilent) := by
    constructor <;> intro a ha <;>
      simp only [exCalls, exSilent, List.mem_cons, List.not_mem_nil, or_false, List.cons_append, List.nil_append] at ha <;>
      rcases ha with rfl | rfl | rfl
    all_goals first
      | rfl
      | (simp [Known]; done)
      | (simp [Defined]; done)
      | (simp [Defined, realPrims, couplingMapR, mathSqrt]; done)
      | (constructor <;> simp [OneStrength])
  have hcs : Clean realPrims 1 0 exSilent :=
    ⟨fun a ha => hc.valid a (List.mem_append_right _ ha), fun a ha => hc.known a (List.mem_append_right _ ha),
      fun a ha => hc.noOverride a (List.mem_append_right _ ha), fun a ha => hc.defined a (List.mem_append_right _ ha)⟩
  refine ⟨hc, ?_, ?_, ?_, ?_⟩
  · rw [modes_of_clean hc]
    simp [exCalls, exSilent, modesAt]
  · simp [exCalls, exSilent]
  · simp [exSilent, Silent]
  · rw [modes_of_clean hcs, modes_of_clean exCalls_clean.1]
    simp [exCalls, exSilent, modesAt]

/-- C63, C64 and C65 for a Holstein–Peierls model: the calls in the other order, with a third mode without
coupling between them, and in another unit of energy. The value is not zero. -/
example (σ : SetOrder) :
    (∃ m b m' b' G, (Model.fromParameters (1 : ℝ) 1 0 none 1).adds realPrims exCalls = .ok m ∧
      (Model.fromParameters (1 : ℝ) 1 0 none 1).adds realPrims exCalls.reverse = .ok m' ∧ m ≠ m' ∧
      Gives m b ⟨0, -2, 1 / 10⟩ G ∧ Gives m' b' ⟨0, -2, 1 / 10⟩ G ∧ G ≠ 0) ∧
    (∃ m b m' b' G, (Model.fromParameters (1 : ℝ) 1 0 none 1).adds realPrims exCalls = .ok m ∧
      (Model.fromParameters (1 : ℝ) 1 0 none 1).adds realPrims (exSilent ++ exCalls) = .ok m' ∧ m ≠ m' ∧
      Gives m b ⟨0, -2, 1 / 10⟩ G ∧ Gives m' b' ⟨0, -2, 1 / 10⟩ G) ∧
    (∃ m b m' b' G, (Model.fromParameters (1 : ℝ) 1 0 none 1).adds realPrims exCalls = .ok m ∧
      (Model.fromParameters (1000 * 1 : ℝ) 1 (1000 * 0) none 1).adds realPrims (exCalls.map (rescaled 1000)) = .ok m' ∧
      Gives m b ⟨0, -2, 1 / 10⟩ G ∧ Gives m' b' ⟨0, 1000 * -2, 1000 * (1 / 10)⟩ (G / (1000 : ℝ))) := by
  obtain ⟨h1, h2, h3⟩ := exCalls_clean
  refine ⟨?_, ?_, ?_⟩
  · obtain ⟨m, b, m', b', k1, k2, k3, k4, k5⟩ := C63_order σ σ 1 1 0 (Or.inr ⟨one_pos, rfl⟩) none (by simp) exCalls
      exCalls.reverse (List.reverse_perm _).symm (by simp [exCalls]) h1 h2 (Or.inr h3)
    obtain ⟨G, g1, g2⟩ := k5 0 (-2) (1 / 10) (by norm_num)
    have hpos := (C23_assembled σ 1 1 0 (Or.inr ⟨one_pos, rfl⟩) none (by simp) exCalls
      (by simp [exCalls]) h1 h2 (Or.inr h3) m b k1 k3 0 (-2) (1 / 10) (by norm_num) _ (Or.inr g1.2)).1
    refine ⟨m, b, m', b', G, k1, k2, ?_, g1, g2, fun e => by rw [e] at hpos; simp at hpos⟩
    rintro rfl
    rw [fromParameters_blueprint 1 1 0 none _ h1 h2] at k1
    have hc' := clean_perm (List.reverse_perm exCalls).symm h1
    rw [fromParameters_blueprint 1 1 0 none _ hc'
      ((((modes_perm (List.reverse_perm exCalls).symm).map _).nodup_iff).1 h2)] at k2
    rw [← k1] at k2
    have := congrArg Model.extent (Except.ok.inj k2)
    simp [blueprint, exCalls, parts, partsAt] at this
  · obtain ⟨c1, c2, c3, c4, c5⟩ := exSilent_clean
    obtain ⟨m, b, m', b', k1, k2, k3, k4, k5⟩ := C64_silent σ σ 1 1 0 (Or.inr ⟨one_pos, rfl⟩) none (by simp) exCalls
      exSilent (exSilent ++ exCalls) List.perm_append_comm (by simp [exCalls]) c1 c2 (Or.inr c3) c4 (Or.inl c5)
    obtain ⟨G, g1, g2⟩ := k5 0 (-2) (1 / 10) (by norm_num)
    refine ⟨m, b, m', b', G, k1, k2, ?_, g1, g2⟩
    rintro rfl
    rw [fromParameters_blueprint 1 1 0 none _ h1 h2] at k1
    have hc' := clean_perm (List.perm_append_comm (l₁ := exCalls) (l₂ := exSilent)) c1
    rw [fromParameters_blueprint 1 1 0 none _ hc' ((((modes_perm List.perm_append_comm).map _).nodup_iff).1 c2)] at k2
    rw [← k1] at k2
    have := congrArg Model.nTypes (Except.ok.inj k2)
    simp [blueprint, exCalls, exSilent, parts, partsAt] at this
  · obtain ⟨m, b, m', b', k1, k2, k3, k4, k5⟩ := C65_units σ σ 1000 (by norm_num) 1 1 0 (Or.inr ⟨one_pos, rfl⟩) none
      (by simp) exCalls (by simp [exCalls]) h1 h2 (Or.inr h3)
    obtain ⟨G, g1, g2⟩ := k5 0 (-2) (1 / 10) (by norm_num)
    exact ⟨m, b, m', b', G, k1, k2, g1, g2⟩

/-- two modes of extent 1 -/
noncomputable def exTwo : List (AddArgs ℝ) :=
  [{ ctype := "Holstein", freq := 1, M := 1, N := 1, g := some 1 },
   { ctype := "Holstein", freq := 2, M := 1, N := 1, g := some 1 }]

/-- a mode of extent 2 without coupling -/
noncomputable def exWide : List (AddArgs ℝ) := [{ ctype := "Holstein", freq := 3, M := 2, N := 1, g := some 0 }]

theorem exWide_clean : Clean realPrims 1 0 (exTwo ++ exWide) ∧
    ((modes 0 (exTwo ++ exWide)).map (·.freq)).Nodup := by
  have hc : Clean realPrims 1 0 (exTwo ++ exWide) := by
    constructor <;> intro a ha <;>
      simp only [exTwo, exWide, List.mem_cons, List.not_mem_nil, or_false, List.cons_append, List.nil_append] at ha <;>
      rcases ha with rfl | rfl | rfl
    all_goals first
      | rfl
      | simp [Known]
      | simp [Defined]
      | (constructor <;> simp [OneStrength])
  refine ⟨hc, ?_⟩
  rw [modes_of_clean hc]
  simp [exTwo, exWide, modesAt]

/-- one phonon of the first mode at site 0 and one of the second mode at site 1 -/
def exApart : Occ := fun t x => if (t = 0 ∧ x = 0) ∨ (t = 1 ∧ x = 1) then 1 else 0

/-- C64 needs its condition on the extents: with two modes, a third mode without coupling and of larger extent
admits clouds of the first two modes that were not admitted before, so it changes the approximation. -/
theorem C64_wide : ∃ m m' ae ae', (Model.fromParameters (1 : ℝ) 1 0 none 1).adds realPrims exTwo = .ok m ∧
    (Model.fromParameters (1 : ℝ) 1 0 none 1).adds realPrims (exTwo ++ exWide) = .ok m' ∧
    m.absExtent = some ae ∧ m'.absExtent = some ae' ∧ (∀ a ∈ exWide, Silent a) ∧
    (∀ t, m.nTypes ≤ t → exApart t = 0) ∧ ¬ Allowed m ae exApart ∧ Allowed m' ae' exApart := by
  obtain ⟨hc, hf⟩ := exWide_clean
  have hca : Clean realPrims 1 0 exTwo :=
    ⟨fun a ha => hc.valid a (List.mem_append_left _ ha), fun a ha => hc.known a (List.mem_append_left _ ha),
      fun a ha => hc.noOverride a (List.mem_append_left _ ha), fun a ha => hc.defined a (List.mem_append_left _ ha)⟩
  have hfa : ((modes (0 : ℝ) exTwo).map (·.freq)).Nodup := by
    rw [modes_of_clean hca]
    simp [exTwo, modesAt]
  refine ⟨_, _, 1, 2, fromParameters_blueprint 1 1 0 none _ hca hfa, fromParameters_blueprint 1 1 0 none _ hc hf,
    ?_, ?_, ?_, ?_, ?_, ?_⟩
  · simp [Model.absExtent, blueprint, exTwo, parts, partsAt]
  · simp [Model.absExtent, blueprint, exTwo, exWide, parts, partsAt]
  · simp [exWide, Silent]
  · intro t ht
    have h2 : 2 ≤ t := by simpa [blueprint, exTwo, parts, partsAt] using ht
    funext x
    unfold exApart
    rw [if_neg (by omega)]; rfl
  · intro h
    have := h.window 0 0 1 1 (by simp [exApart]) (by simp [exApart])
    omega
  · have hsum : ∀ t, ∑ᶠ x, exApart t x ≤ 1 := by
      intro t
      rw [finsum_eq_single _ (t : ℤ) (fun x hx => ?_)]
      · unfold exApart; split <;> omega
      · unfold exApart
        rw [if_neg (by omega)]
    have hne : ∀ {t x}, exApart t x ≠ 0 → (t = 0 ∧ x = 0) ∨ (t = 1 ∧ x = 1) := by
      intro t x h
      unfold exApart at h
      by_contra hc
      exact h (if_neg hc)
    refine ⟨?_, ?_, ?_, ?_, ?_, ?_⟩
    · intro t x; unfold exApart; split <;> omega
    · intro t x h
      have := hne h
      have h3 : (blueprint (1 : ℝ) 1 0 none (parts realPrims 1 0 (exTwo ++ exWide))).nTypes = 3 := by
        simp [blueprint, exTwo, exWide, parts, partsAt]
      rw [h3]; omega
    · intro c h; simp [blueprint] at h
    · intro t x t' y hx hy
      have := hne hx
      have := hne hy
      omega
    · intro t M hM x y hx hy
      have h1 := hne hx
      have h2 := hne hy
      have : 1 ≤ M := by
        have hmem := List.mem_of_getElem? hM
        simp [blueprint, exTwo, exWide, parts, partsAt] at hmem
        omega
      omega
    · intro t N hN
      have : 1 ≤ N := by
        have hmem := List.mem_of_getElem? hN
        simp [blueprint, exTwo, exWide, parts, partsAt] at hmem
        omega
      exact (hsum t).trans this

end GGCE.Props
