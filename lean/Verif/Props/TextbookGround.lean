import Verif.Proofs.TextbookGround
import Verif.Props.Textbook
import Verif.Props.Variational

/-!
Property C133: the computed polaron energies and the ground-state energy of the Hamiltonian of the literature.
-/

namespace GGCE.Props
open Spec Arr Complex

/-- the model of the program and the Hamiltonian of the literature have the same ground-state energy -/
theorem ground_denoted {hopping : ℝ} {as : List (AddArgs ℝ)} (hc : Clean realPrims hopping 0 as)
    (hf : ((modes 0 as).map (·.freq)).Nodup) {bs : List Branch} (hbs : Requested hopping 0 as bs) {m : Model ℝ}
    (h1 : (Model.fromParameters hopping 1 0 none 1).adds realPrims as = .ok m) {E : ℝ} :
    ChainGround (textbook hopping bs) bs.length E ↔ ExactGround m E := by
  rw [fromParameters_blueprint hopping 1 0 none as hc hf] at h1
  cases h1
  obtain ⟨ds', hd, hD⟩ := exists_denoted (parts_requests hc (fun h => absurd h (lt_irrefl _))) hbs
  have hlen : bs.length = ds'.length := hD.length_eq.symm
  have hfr : ds'.map (·.freq) = (parts realPrims hopping 0 as).map (·.freq) ∧
      ds'.map (·.M) = (parts realPrims hopping 0 as).map (·.M) ∧
      ds'.map (·.N) = (parts realPrims hopping 0 as).map (·.N) ∧
      ds'.length = (parts realPrims hopping 0 as).length := by
    generalize parts realPrims hopping 0 as = ds at hd
    clear hD hlen
    induction hd with
    | nil => simp
    | cons h _ ih => rcases h with rfl | rfl <;> simp [ih]
  obtain ⟨ε, hε⟩ := partTerms_signs hd 0
  have hm : blueprint hopping 1 0 none ds' =
      gaugeModel ε 1 (blueprint hopping 1 0 none (parts realPrims hopping 0 as)) := by
    unfold gaugeModel blueprint
    simp only [hfr, hε, Units.val_one, Int.cast_one, one_mul]
  have hidx : ∀ h ∈ (blueprint hopping 1 0 none (parts realPrims hopping 0 as)).ham.terms,
      h.phononIndex < (blueprint hopping 1 0 none (parts realPrims hopping 0 as)).nTypes := by
    intro h hh
    have := (index_partTerms (show h ∈ partTerms (parts realPrims hopping 0 as) 0 from hh)).2
    show h.phononIndex < (parts realPrims hopping 0 as).length
    simpa using this
  have h2 := chainGround_iff (e := E) hD (rfl : blueprint hopping 1 0 none ds' = _)
  have h3 := ground_gauge (e := E) ε hidx
  rw [← hm] at h3
  rw [hlen]
  exact h2.trans h3

/-- **C133**. Without Peierls couplings and at zero temperature, the Hamiltonian of the literature (one electron on the infinite
chain, any number of phonons, any signs of the coupling constants) has a ground-state energy `E`. No computed polaron
energy, at any momentum and with any limits, lies below `E`; and with large enough limits the one at `k = 0` is within `ε`
above it. -/
theorem C133_ground (hopping : ℝ) (ht : 0 < hopping) (as : List (AddArgs ℝ)) (hne : as ≠ [])
    (hc : Clean realPrims hopping 0 as) (hf : ((modes 0 as).map (·.freq)).Nodup)
    (hb : (∀ a ∈ as, a.ctype = "BondPeierls") ∨ (∀ a ∈ as, a.ctype ≠ "BondPeierls"))
    (hP : ∀ a ∈ as, a.ctype ≠ "Peierls") (hpos : ∀ a ∈ as, 0 < a.freq ∧ a.g.isSome)
    (hg : ∀ a ∈ as, 0 < strengthSq hopping a) (bs : List Branch) (hbs : Requested hopping 0 as bs) :
    ∃ E : ℝ, ChainGround (textbook hopping bs) bs.length E ∧
      (∀ (σ : SetOrder) (cap : Option Int) (as' : List (AddArgs ℝ)), (∀ c, cap = some c → 1 ≤ c) →
        List.Forall₂ SameCall as as' → (∀ a ∈ as', Valid 0 a) →
        ∃ m b, (Model.fromParameters hopping 1 0 cap 1).adds realPrims as' = .ok m ∧ buildSystem σ m = .ok b ∧
          ∀ k : ℝ, ∃ F e, (∀ w eta : ℝ, 0 < eta → Gives m b ⟨k, w, eta⟩ (F w eta)) ∧ Edge F e ∧ E ≤ e) ∧
      ∀ ε > 0, ∃ B : ℤ, ∀ (σ : SetOrder) (cap : Option Int) (as' : List (AddArgs ℝ)),
        (∀ c, cap = some c → 1 ≤ c ∧ B ≤ c) → List.Forall₂ SameCall as as' → (∀ a ∈ as', Valid 0 a ∧ CallAtLeast B a) →
        ∃ m b F e, (Model.fromParameters hopping 1 0 cap 1).adds realPrims as' = .ok m ∧ buildSystem σ m = .ok b ∧
          (∀ w eta : ℝ, 0 < eta → Gives m b ⟨0, w, eta⟩ (F w eta)) ∧ Edge F e ∧ E ≤ e ∧ e ≤ E + ε := by
  obtain ⟨m, h1, ρ, E, -, -, -, h2, -, h3, h4⟩ := C124_exact hopping ht as hne hc hf hb hP hpos hg
  exact ⟨E, (ground_denoted hc hf hbs h1).2 h2, h3, h4⟩

/-- a lower bound without limits is one within limits -/
theorem bounded_of_exact {m m' : Model ℝ} {ae : ℤ} (hs : SameSystem m m') {e : ℝ}
    (he : ∀ (k : ℝ) (f : Occ →₀ ℂ), (∀ n ∈ f.support, Conceivable m n) → e * weightOf f ≤ exactEnergy m k f) :
    BoundedBelow m' ae e := by
  intro k f hf
  rw [trial_exact hs hf]
  exact he k f (fun n hn => ⟨(hf n hn).nonneg, fun t y hy => hs.types ▸ (hf n hn).types t y hy, (hf n hn).finite⟩)

/-- the energies of a model with positive frequencies have a largest lower bound -/
theorem exists_exactGround {m : Model ℝ} {e₀ : ℝ}
    (h : ∀ (k : ℝ) (f : Occ →₀ ℂ), (∀ n ∈ f.support, Conceivable m n) → e₀ * weightOf f ≤ exactEnergy m k f) :
    ∃ E, ExactGround m E := by
  set A : Set ℝ := {e | ∀ (k : ℝ) (f : Occ →₀ ℂ), (∀ n ∈ f.support, Conceivable m n) → e * weightOf f ≤ exactEnergy m k f}
    with hA
  have hw : weightOf (Finsupp.single (0 : Occ) 1) = 1 := by
    unfold weightOf
    rw [Finsupp.support_single _ one_ne_zero]
    simp
  have hup : BddAbove A := ⟨exactEnergy m 0 (Finsupp.single 0 1), fun e he => by
    have := he 0 (Finsupp.single 0 1) (fun n hn => by
      rw [Finsupp.support_single _ one_ne_zero, Finset.mem_singleton] at hn
      subst hn
      exact ⟨fun _ _ => le_rfl, fun _ _ h => absurd rfl h, fun _ => by simp [Function.support]⟩)
    rwa [hw, mul_one] at this⟩
  refine ⟨sSup A, fun k f hf => ?_, fun e' he' => le_csSup hup he'⟩
  have hnn : 0 ≤ weightOf f := Finset.sum_nonneg (fun n _ => by positivity)
  rcases hnn.eq_or_lt with h0 | hpos
  · have := h k f hf
    rw [← h0, mul_zero] at this ⊢
    exact this
  · rw [← le_div_iff₀ hpos]
    refine csSup_le ⟨e₀, h⟩ (fun e he => ?_)
    rw [le_div_iff₀ hpos]
    exact he k f hf

/-- **C133**, for all couplings including Peierls: the Hamiltonian of the literature has a ground-state energy `E`, and no
computed spectral function, at any momentum and with any limits, has weight below `E`. -/
theorem C133_bound (hopping : ℝ) (ht : 0 ≤ hopping) (as : List (AddArgs ℝ)) (hne : as ≠ [])
    (hc : Clean realPrims hopping 0 as) (hf : ((modes 0 as).map (·.freq)).Nodup)
    (hb : (∀ a ∈ as, a.ctype = "BondPeierls") ∨ (∀ a ∈ as, a.ctype ≠ "BondPeierls"))
    (hpos : ∀ a ∈ as, 0 < a.freq) (bs : List Branch) (hbs : Requested hopping 0 as bs) :
    ∃ E : ℝ, ChainGround (textbook hopping bs) bs.length E ∧
      ∀ (σ : SetOrder) (cap : Option Int) (as' : List (AddArgs ℝ)), (∀ c, cap = some c → 1 ≤ c) →
        List.Forall₂ SameCall as as' → (∀ a ∈ as', Valid 0 a) →
        ∃ m b, (Model.fromParameters hopping 1 0 cap 1).adds realPrims as' = .ok m ∧ buildSystem σ m = .ok b ∧
          ∀ k : ℝ, ∃ F, (∀ w eta : ℝ, 0 < eta → Gives m b ⟨k, w, eta⟩ (F w eta)) ∧ EmptyBelow F E := by
  have hl : hopping = 0 ∨ (0 < hopping ∧ (1 : ℝ) = 1) := ht.eq_or_lt.imp Eq.symm (fun h => ⟨h, rfl⟩)
  have h1 := fromParameters_blueprint hopping 1 0 none as hc hf
  set m := blueprint hopping 1 0 none (parts realPrims hopping 0 as) with hmdef
  let σ₀ : SetOrder := ⟨id, fun l => List.Perm.refl l⟩
  have hfreq : ∀ t, t < m.nTypes → 0 < m.ham.freqs.getD t 0 := by
    intro t h
    have hlt : t < ((parts realPrims hopping 0 as).map (·.freq)).length := by simpa [blueprint, hmdef] using h
    show 0 < ((parts realPrims hopping 0 as).map (·.freq)).getD t 0
    rw [List.getD_eq_getElem?_getD, List.getElem?_eq_getElem hlt, Option.getD_some, List.getElem_map]
    obtain ⟨a, ha, hd⟩ := List.mem_flatMap.1 (List.getElem_mem (l := parts realPrims hopping 0 as) (by simpa using hlt))
    unfold partsAt at hd
    rw [if_neg (lt_irrefl _)] at hd
    simp only [List.mem_cons, List.not_mem_nil, or_false] at hd
    rw [hd]
    exact hpos a ha
  have hfloor : ∀ (k : ℝ) (f : Occ →₀ ℂ), (∀ n ∈ f.support, Conceivable m n) →
      energyFloor m * weightOf f ≤ exactEnergy m k f := by
    intro k f hfs
    obtain ⟨B, hB⟩ := support_allowed f.support hfs
    have hj : 1 ≤ B.toNat + 1 := by omega
    obtain ⟨m', b, ae, k1, k2, k3, k4, k5, k6⟩ := same_assembled σ₀ hne hc hf hb (cap := none) (by simp)
      (same_withLimits ((B.toNat + 1 : ℕ) : ℤ) as) (valid_withLimits hc hj) h1
    have ha := hB m' ae k4.types k3.toListsOk (k5 B (by simp) (fun a ha => by
      obtain ⟨y, hy, rfl⟩ := List.mem_map.1 ha
      have hle : B ≤ ((B.toNat + 1 : ℕ) : ℤ) := by omega
      exact ⟨hle, hle, fun z hz => hle.trans (map_const hz).ge, fun z hz => hle.trans (map_const hz).ge⟩))
    obtain ⟨c, hcs⟩ := (physical_assembled k1 k6 hl).shifts
    have := hamOp_floor (k := k) (ae := ae) k3.toListsOk hcs k3.index (by rw [k4.types, k4.ham]; exact hfreq) (vec f)
    rw [vec_norm, vec_energy k3.toListsOk, trial_exact k4 ha] at this
    have e1 : energyFloor m' = energyFloor m := by unfold energyFloor actCount; rw [k4.ham]
    rwa [e1] at this
  obtain ⟨E, hE⟩ := exists_exactGround hfloor
  refine ⟨E, (ground_denoted hc hf hbs h1).2 hE, fun σ cap as' e1 e2 e3 => ?_⟩
  obtain ⟨m', b, ae, k1, k2, k3, k4, k5, k6⟩ := same_assembled σ hne hc hf hb e1 e2 e3 h1
  refine ⟨m', b, k1, k2, fun k => ?_⟩
  have hphys := physical_assembled k1 k6 hl
  have hG : ∀ w eta : ℝ, ∃ G, 0 < eta → Gives m' b ⟨k, w, eta⟩ G := by
    intro w eta
    by_cases heta : 0 < eta
    · obtain ⟨Ψ, -, -, g1, g2⟩ := C55_exact σ _ _ k3 b k2 hphys ⟨k, w, eta⟩ heta
      exact ⟨Ψ 0 0, fun _ => ⟨g1, g2⟩⟩
    · exact ⟨0, fun h => absurd h heta⟩
  choose F hF using hG
  refine ⟨F, hF, empty_of_bound k3 k2 hphys (fun w eta h => Or.inr (hF w eta h).2) (fun f hfs => ?_)⟩
  exact bounded_of_exact k4 hE.1 k f hfs

/-- **C133**, the Holstein polaron: the ground-state energy of `-t Σ c†c + Ω Σ b†b + g Σ c†c (b† + b)` lies between
`-2 t - g²/Ω` and `-g²/Ω - 2 t exp(-g²/Ω²)`. -/
theorem C133_holstein (hopping : ℝ) (ht : 0 < hopping) (Omega g : ℝ) (hO : 0 < Omega) (hg : g ≠ 0) :
    ∃ E, ChainGround (textbook hopping [⟨"Holstein", Omega, g⟩]) 1 E ∧ -(2 * hopping) - g ^ 2 / Omega ≤ E ∧
      E ≤ -(g ^ 2 / Omega) - 2 * hopping * Real.exp (-(g / Omega) ^ 2) := by
  obtain ⟨m, h1, E, h2, h3, h4⟩ := C124_exact_holstein hopping ht Omega g hO hg 1 1 le_rfl le_rfl
  obtain ⟨hc, hf, -⟩ := clean_one (hopping := hopping) (Omega := Omega) (g := g) (ct := "Holstein") (Or.inl rfl)
    (le_refl (1 : ℤ)) (le_refl (1 : ℤ))
  refine ⟨E, (ground_denoted (bs := [⟨"Holstein", Omega, g⟩]) hc hf ?_ h1).2 h2, h3, h4⟩
  have : requests hopping 0 [{ ctype := "Holstein", freq := Omega, M := 1, N := 1, g := some g }] =
      [("Holstein", Omega, g ^ 2)] := by
    simp [requests, strengthSq]
  unfold Requested
  rw [this]
  exact .cons ⟨rfl, rfl, rfl⟩ .nil

/-- `t = 1`, `Ω = 1`, `g = 2`: the ground-state energy exists and lies between `-6` and `-4`. -/
example : ∃ E, ChainGround (textbook 1 [⟨"Holstein", 1, 2⟩]) 1 E ∧ -6 ≤ E ∧ E < -4 := by
  obtain ⟨E, h1, h2, h3⟩ := C133_holstein 1 one_pos 1 2 one_pos (by norm_num)
  refine ⟨E, h1, by linarith, ?_⟩
  have := Real.exp_pos (-((2 : ℝ) / 1) ^ 2)
  norm_num at h3 this
  linarith

/-- The hypotheses of `C133_ground` are met by a chain with BondPeierls coupling, whose coupling constant in the literature
has the other sign. -/
example : ∃ E, ChainGround (textbook 1 [⟨"BondPeierls", 2, -1⟩]) 1 E := by
  obtain ⟨hc, hf, hb⟩ := clean_one (hopping := 1) (Omega := 2) (g := 1) (ct := "BondPeierls") (by simp)
    (le_refl (1 : ℤ)) (le_refl (1 : ℤ))
  obtain ⟨E, h, -⟩ := C133_ground 1 one_pos _ (by simp) hc hf hb (by simp) (by simp) (by simp [strengthSq])
    [⟨"BondPeierls", 2, -1⟩] (by
      have : requests 1 0 [{ ctype := "BondPeierls", freq := 2, M := 1, N := 1, g := some (1 : ℝ) }] =
          [("BondPeierls", 2, (1 : ℝ) ^ 2)] := by
        simp [requests, strengthSq]
      unfold Requested
      rw [this]
      exact .cons ⟨rfl, rfl, by norm_num⟩ .nil)
  exact ⟨E, h⟩

/-- The hypotheses of `C133_bound` are met by the two-branch model of the other examples, with a Peierls coupling. -/
example : ∃ E, ChainGround (textbook 1 [⟨"Holstein", 2, 1⟩, ⟨"Peierls", 1, 1 / 2⟩]) 2 E := by
  obtain ⟨h1, h2, h3⟩ := exCalls_clean
  obtain ⟨E, h, -⟩ := C133_bound 1 zero_le_one exCalls (by simp [exCalls]) h1 h2 (Or.inr h3) (by simp [exCalls])
    [⟨"Holstein", 2, 1⟩, ⟨"Peierls", 1, 1 / 2⟩] (by
      have : requests 1 0 exCalls = [("Holstein", 2, 1 ^ 2), ("Peierls", 1, (1 / 2) ^ 2)] := by
        simp [requests, exCalls, strengthSq]
      unfold Requested
      rw [this]
      exact .cons ⟨rfl, rfl, rfl⟩ (.cons ⟨rfl, rfl, rfl⟩ .nil))
  exact ⟨E, h⟩

end GGCE.Props
