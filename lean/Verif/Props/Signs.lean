import Verif.Proofs.Gauge
import Verif.Props.Parameters

/-!
Property C69: the sign of every single coupling constant is irrelevant.
-/

set_option linter.unusedSectionVars false

namespace GGCE.Props
open Spec Arr Complex

/-- the second mode is the first one, possibly with the opposite coupling -/
def UpToSign (d d' : Part ℝ) : Prop := d' = d ∨ d' = { d with g := -d.g }

theorem termsOf_neg (ct : String) (g : ℝ) (i : ℕ) (f : ℝ) :
    termsOf ct (-g) i f = (termsOf ct g i f).map (fun h => { h with coupling := -h.coupling }) := by
  unfold termsOf
  rw [List.map_map]
  refine List.map_congr_left (fun s _ => ?_)
  simp only [Function.comp]
  split <;> rfl

theorem partTerms_signs {ds ds' : List (Part ℝ)} (h : List.Forall₂ UpToSign ds ds') (i : ℕ) :
    ∃ ε : ℕ → ℤˣ, partTerms ds' i = (partTerms ds i).map (gaugeTerm ε 1) := by
  induction h generalizing i with
  | nil => exact ⟨fun _ => 1, rfl⟩
  | @cons d d' ds ds' hd _ ih =>
    obtain ⟨ε, hε⟩ := ih (i + 1)
    have hcons : ∀ (d : Part ℝ) (ds : List (Part ℝ)), partTerms (d :: ds) i =
        termsOf d.ctype d.g i d.freq ++ partTerms ds (i + 1) := fun d ds => rfl
    have hhead : ∃ u : ℤˣ, termsOf d'.ctype d'.g i d'.freq =
        (termsOf d.ctype d.g i d.freq).map (gaugeTerm (fun _ => u) 1) := by
      rcases hd with rfl | rfl
      · refine ⟨1, ?_⟩
        conv_lhs => rw [← List.map_id (termsOf _ _ _ _)]
        refine List.map_congr_left (fun h _ => ?_)
        simp [gaugeTerm]
      · refine ⟨-1, ?_⟩
        simp only
        rw [termsOf_neg]
        refine List.map_congr_left (fun h _ => ?_)
        simp [gaugeTerm]
    obtain ⟨u, hu⟩ := hhead
    refine ⟨fun j => if j = i then u else ε j, ?_⟩
    rw [hcons, hcons, List.map_append, hu, hε]
    congr 1
    · refine List.map_congr_left (fun h hh => ?_)
      unfold gaugeTerm
      rw [(mem_termsOf hh).1]
      simp
    · refine List.map_congr_left (fun h hh => ?_)
      unfold gaugeTerm
      have := (index_partTerms hh).1
      have hne : h.phononIndex ≠ i := by omega
      simp only [if_neg hne]

theorem parts_signs {hopping T : ℝ} {as as' : List (AddArgs ℝ)} (hc : Clean realPrims hopping T as)
    (h : List.Forall₂ (fun a a' => a' = a ∨ a' = negArgs a) as as') :
    List.Forall₂ UpToSign (parts realPrims hopping T as) (parts realPrims hopping T as') := by
  induction h with
  | nil => exact List.Forall₂.nil
  | @cons a a' as as' ha _ ih =>
    rw [parts_cons, parts_cons]
    refine List.rel_append ?_ (ih ⟨fun a h => hc.valid a (List.mem_cons_of_mem _ h), fun a h => hc.known a (List.mem_cons_of_mem _ h),
      fun a h => hc.noOverride a (List.mem_cons_of_mem _ h), fun a h => hc.defined a (List.mem_cons_of_mem _ h)⟩)
    have hst := (hc.valid a List.mem_cons_self).strength
    rcases ha with rfl | rfl
    · exact List.forall₂_same.2 (fun _ _ => Or.inl rfl)
    · rcases hst with ⟨g, e1, e2⟩ | ⟨l, e1, e2⟩
      · have hs : ∀ f, strengthD realPrims hopping (negArgs a) f = -strengthD realPrims hopping a f := by
          intro f
          rw [strengthD_ok (a := negArgs a) (g := -g) (by simp [Hamiltonian.strength, negArgs, e1, e2]),
            strengthD_ok (a := a) (g := g) (by simp [Hamiltonian.strength, e1, e2])]
        unfold partsAt
        simp only [hs, neg_mul]
        split
        · exact List.Forall₂.cons (Or.inr rfl) (List.Forall₂.cons (Or.inr rfl) List.Forall₂.nil)
        · exact List.Forall₂.cons (Or.inr rfl) List.Forall₂.nil
      · have : negArgs a = a := by
          unfold negArgs; rw [e2]; simp only [Option.map_none]; rw [← e2]
        rw [this]
        exact List.forall₂_same.2 (fun _ _ => Or.inl rfl)

theorem clean_signs {hopping T : ℝ} {as as' : List (AddArgs ℝ)} (hc : Clean realPrims hopping T as)
    (h : List.Forall₂ (fun a a' => a' = a ∨ a' = negArgs a) as as') : Clean realPrims hopping T as' := by
  have key : ∀ a' ∈ as', ∃ a ∈ as, a' = a ∨ a' = negArgs a := by
    clear hc
    induction h with
    | nil => simp
    | @cons a a' as as' ha _ ih =>
      intro x hx
      rcases List.mem_cons.1 hx with rfl | hx
      · exact ⟨a, List.mem_cons_self, ha⟩
      · obtain ⟨y, h1, h2⟩ := ih x hx
        exact ⟨y, List.mem_cons_of_mem _ h1, h2⟩
  constructor
  · intro a' ha'
    obtain ⟨a, ha, rfl | rfl⟩ := key a' ha'
    · exact hc.valid _ ha
    · obtain ⟨v1, v2, v3, v4, v5, v6, v7⟩ := hc.valid a ha
      refine ⟨v1, v2, v3, v4, v5, ?_, v7⟩
      rcases v6 with ⟨g, e1, e2⟩ | ⟨l, e1, e2⟩
      · exact Or.inl ⟨-g, by simp [negArgs, e1], e2⟩
      · exact Or.inr ⟨l, e1, by simp [negArgs, e2]⟩
  · intro a' ha'
    obtain ⟨a, ha, rfl | rfl⟩ := key a' ha'
    · exact hc.known _ ha
    · exact hc.known a ha
  · intro a' ha'
    obtain ⟨a, ha, rfl | rfl⟩ := key a' ha'
    · exact hc.noOverride _ ha
    · exact hc.noOverride a ha
  · intro a' ha'
    obtain ⟨a, ha, rfl | rfl⟩ := key a' ha'
    · exact hc.defined _ ha
    · exact hc.defined a ha

/-- **C69**: changing the sign of the coupling `g` of some of the calls, chosen freely, does not change the
result. (C48 is about changing all of them at once.) -/
theorem C69_each_sign (σ σ' : SetOrder) (hopping lattice T : ℝ)
    (hl : hopping = 0 ∨ (0 < hopping ∧ lattice = 1)) (cap : Option Int) (hcap : ∀ c, cap = some c → 1 ≤ c)
    (as as' : List (AddArgs ℝ)) (hs : List.Forall₂ (fun a a' => a' = a ∨ a' = negArgs a) as as') (hne : as ≠ [])
    (hc : Clean realPrims hopping T as) (hf : ((modes T as).map (·.freq)).Nodup)
    (hb : (∀ a ∈ as, a.ctype = "BondPeierls") ∨ (∀ a ∈ as, a.ctype ≠ "BondPeierls")) :
    ∃ m b m' b', (Model.fromParameters hopping lattice T cap 1).adds realPrims as = .ok m ∧
      (Model.fromParameters hopping lattice T cap 1).adds realPrims as' = .ok m' ∧
      buildSystem σ m = .ok b ∧ buildSystem σ' m' = .ok b' ∧
      ∀ k w eta : ℝ, 0 < eta → ∃ G, Gives m b ⟨k, w, eta⟩ G ∧ Gives m' b' ⟨k, w, eta⟩ G := by
  have hc' := clean_signs hc hs
  have hne' : as' ≠ [] := by rintro rfl; cases hs; exact hne rfl
  have hparts := parts_signs hc hs
  have hfr : (parts realPrims hopping T as').map (·.freq) = (parts realPrims hopping T as).map (·.freq) ∧
      (parts realPrims hopping T as').map (·.M) = (parts realPrims hopping T as).map (·.M) ∧
      (parts realPrims hopping T as').map (·.N) = (parts realPrims hopping T as).map (·.N) ∧
      (parts realPrims hopping T as').length = (parts realPrims hopping T as).length := by
    generalize parts realPrims hopping T as = ds at hparts
    generalize parts realPrims hopping T as' = ds' at hparts
    induction hparts with
    | nil => simp
    | cons h _ ih => rcases h with rfl | rfl <;> simp [ih]
  have hf' : ((modes T as').map (·.freq)).Nodup := by
    rw [← parts_freq hc', hfr.1, parts_freq hc]; exact hf
  have hct : ∀ a' ∈ as', ∃ a ∈ as, a'.ctype = a.ctype := by
    clear hc' hne' hparts hfr hf' hne hc hf hb
    induction hs with
    | nil => simp
    | @cons a a' as as' ha _ ih =>
      intro x hx
      rcases List.mem_cons.1 hx with rfl | hx
      · refine ⟨a, List.mem_cons_self, ?_⟩
        rcases ha with rfl | rfl <;> rfl
      · obtain ⟨y, h1, h2⟩ := ih x hx
        exact ⟨y, List.mem_cons_of_mem _ h1, h2⟩
  have hb' : (∀ a ∈ as', a.ctype = "BondPeierls") ∨ (∀ a ∈ as', a.ctype ≠ "BondPeierls") := by
    rcases hb with h | h
    · refine Or.inl (fun a ha => ?_)
      obtain ⟨x, h1, h2⟩ := hct a ha
      rw [h2]; exact h x h1
    · refine Or.inr (fun a ha => ?_)
      obtain ⟨x, h1, h2⟩ := hct a ha
      rw [h2]; exact h x h1
  obtain ⟨m, b, h1, ⟨ae, h2⟩, h3⟩ := C16_assembled σ realPrims C42_names hopping lattice T cap hcap as hne hc hf hb
  obtain ⟨m', b', k1, ⟨ae', k2⟩, k3⟩ :=
    C16_assembled σ' realPrims C42_names hopping lattice T cap hcap as' hne' hc' hf' hb'
  refine ⟨m, b, m', b', h1, k1, h3, k3, ?_⟩
  intro k w eta heta
  have hp := physical_assembled h1 hb hl
  have hp' := physical_assembled k1 hb' hl
  rw [fromParameters_blueprint hopping lattice T cap as hc hf] at h1
  rw [fromParameters_blueprint hopping lattice T cap as' hc' hf'] at k1
  cases h1
  cases k1
  obtain ⟨ε, hε⟩ := partTerms_signs hparts 0
  have hm : blueprint hopping lattice T cap (parts realPrims hopping T as') =
      gaugeModel ε 1 (blueprint hopping lattice T cap (parts realPrims hopping T as)) := by
    unfold gaugeModel blueprint
    simp only [hfr, hε, Units.val_one, Int.cast_one, one_mul]
  rw [hm] at k2 k3 hp' ⊢
  have hae : ae' = ae := by
    have e1 := h2.absExtent
    have e2 := k2.absExtent
    have : (gaugeModel ε 1 (blueprint hopping lattice T cap (parts realPrims hopping T as))).absExtent =
      (blueprint hopping lattice T cap (parts realPrims hopping T as)).absExtent := rfl
    rw [this, e1] at e2
    cases e2; rfl
  subst hae
  obtain ⟨Ψ, hΨ, -, g1, g2⟩ := C55_exact σ _ ae' h2 b h3 hp ⟨k, w, eta⟩ heta
  have hR := gives_of_resolvent k2 k3 hp' heta (resolvent_gauge (k' := k) ε 1 h2.index (by intro s; simp) hΨ)
  rw [zpow_zero, one_mul, occSign_zero, unitC_one, one_mul] at hR
  exact ⟨Ψ 0 0, ⟨g1, g2⟩, hR⟩

/-- The hypotheses are met by a Holstein and a Peierls call, with the sign of the second one changed. -/
example : List.Forall₂ (fun a a' => a' = a ∨ a' = negArgs a) exCalls
      [{ ctype := "Holstein", freq := 2, M := 2, N := 3, g := some 1 },
       { ctype := "Peierls", freq := 1, M := 3, N := 2, g := some (-(1 / 2)) }] ∧
    exCalls ≠ [] ∧ Clean realPrims 1 0 exCalls ∧ ((modes 0 exCalls).map (·.freq)).Nodup ∧
    ∀ a ∈ exCalls, a.ctype ≠ "BondPeierls" :=
  ⟨List.Forall₂.cons (Or.inl rfl) (List.Forall₂.cons (Or.inr rfl) List.Forall₂.nil), by simp [exCalls],
    exCalls_clean⟩

end GGCE.Props
