import Verif.Proofs.Floor
import Verif.Props.Stability

/-!
Property C67: no spectral weight below an energy that does not depend on the limits.
-/

set_option linter.unusedSectionVars false

namespace GGCE.Props
open Spec Arr Complex

/-- **C67**. Positive frequencies: at every momentum and whatever the limits, below
`E = -2|t| - Σ_h c_h g_h² / (4 Ω_h)` the Green's function and the spectral function are no larger than those of a
single level at `E`. -/
theorem C67_below (σ : SetOrder) (m : Model ℝ) (ae : Int) (hm : WellFormed m ae) (b : Built ℝ)
    (hb : buildSystem σ m = .ok b) (hp : Physical m) (hfreq : ∀ t, t < m.nTypes → 0 < m.ham.freqs.getD t 0)
    (k w eta : ℝ) (heta : 0 < eta) (hw : w ≤ energyFloor m) (G : ℂ) (hG : Returned m b ⟨k, w, eta⟩ G) :
    ‖G‖ ≤ 1 / √((energyFloor m - w) ^ 2 + eta ^ 2) ∧
    -G.im / Real.pi ≤ eta / (Real.pi * ((energyFloor m - w) ^ 2 + eta ^ 2)) := by
  obtain ⟨H, h1, h2, h3⟩ := C56_returned σ m ae hm b hb hp k
  rw [h3 w eta heta G hG]
  have hH := operator_eq hm.toListsOk h2
  obtain ⟨c, hc⟩ := hp.shifts
  have hfl : ∀ u, energyFloor m * ‖u‖ ^ 2 ≤ (inner ℂ u (H u)).re := by
    rw [hH]
    exact hamOp_floor hm.toListsOk hc hm.index hfreq
  have hz : (energyAt w eta).im ≠ 0 := by rw [energyAt_im]; exact heta.ne'
  have hr := resolvent_apply (mem_resolventSet_of_im h1 hz) bare
  have hn := norm_sq_below h1 hfl hw hr
  rw [norm_bare, one_pow] at hn
  set u := resolvent H (energyAt w eta) bare with hu
  set Q := (energyFloor m - w) ^ 2 + eta ^ 2 with hQ
  have hQ0 : 0 < Q := by positivity
  have hu2 : ‖u‖ ^ 2 ≤ 1 / Q := by rw [le_div_iff₀ hQ0]; linarith
  constructor
  · have h4 : ‖green H bare (energyAt w eta)‖ ≤ ‖u‖ := by
      unfold green
      refine (norm_inner_le_norm _ _).trans ?_
      rw [norm_bare, one_mul]
    refine h4.trans ?_
    rw [← Real.sqrt_sq (norm_nonneg u), one_div, ← Real.sqrt_inv, ← one_div]
    exact Real.sqrt_le_sqrt hu2
  · rw [green_im h1 bare hz, energyAt_im, neg_neg, ← hu, div_le_div_iff₀ Real.pi_pos (by positivity)]
    have := Real.pi_pos
    calc eta * ‖u‖ ^ 2 * (Real.pi * Q) = (eta * Real.pi) * (Q * ‖u‖ ^ 2) := by ring
      _ ≤ (eta * Real.pi) * 1 := mul_le_mul_of_nonneg_left hn (by positivity)
      _ = eta * Real.pi := mul_one _

/-- C67, from the user's side, at zero temperature: with `E = -2t - Σ callFloor`, which for Holstein couplings is
`-2t - Σ g²/Ω`, below `E` the spectral function is at most a Lorentzian tail, whatever the limits. -/
theorem C67_assembled (σ : SetOrder) (hopping lattice : ℝ)
    (hl : hopping = 0 ∨ (0 < hopping ∧ lattice = 1)) (cap : Option Int) (hcap : ∀ c, cap = some c → 1 ≤ c)
    (as : List (AddArgs ℝ)) (hne : as ≠ []) (hc : Clean realPrims hopping 0 as)
    (hf : ((modes 0 as).map (·.freq)).Nodup)
    (hb : (∀ a ∈ as, a.ctype = "BondPeierls") ∨ (∀ a ∈ as, a.ctype ≠ "BondPeierls"))
    (hpos : ∀ a ∈ as, 0 < a.freq ∧ a.g.isSome) :
    ∃ m b, (Model.fromParameters hopping lattice 0 cap 1).adds realPrims as = .ok m ∧ buildSystem σ m = .ok b ∧
      ∀ E, E = -(2 * hopping) - (as.map callFloor).sum → ∀ k w eta : ℝ, 0 < eta → w ≤ E →
        ∃ G, Gives m b ⟨k, w, eta⟩ G ∧ ‖G‖ ≤ 1 / √((E - w) ^ 2 + eta ^ 2) ∧
          -G.im / Real.pi ≤ eta / (Real.pi * ((E - w) ^ 2 + eta ^ 2)) := by
  obtain ⟨m, b, h1, ⟨ae, h2⟩, h3⟩ := C16_assembled σ realPrims C42_names hopping lattice 0 cap hcap as hne hc hf hb
  refine ⟨m, b, h1, h3, ?_⟩
  intro E hE k w eta heta hw
  have hp := physical_assembled h1 hb hl
  rw [fromParameters_blueprint hopping lattice 0 cap as hc hf] at h1
  cases h1
  have hparts : ∀ d ∈ parts realPrims hopping 0 as, Known d.ctype ∧ 0 < d.freq := by
    intro d hd
    obtain ⟨a, ha, hd⟩ := List.mem_flatMap.1 hd
    unfold partsAt at hd
    rw [if_neg (lt_irrefl _)] at hd
    simp only [List.mem_cons, List.not_mem_nil, or_false] at hd
    subst hd
    exact ⟨hc.known a ha, (hpos a ha).1⟩
  have hfl : energyFloor (blueprint hopping lattice 0 cap (parts realPrims hopping 0 as)) = E := by
    rw [blueprint_floor (fun d hd => (hparts d hd).1), hE]
    have : |hopping| = hopping := by rcases hl with h | h <;> [rw [h, abs_zero]; exact abs_of_pos h.1]
    rw [this]
    congr 1
    unfold parts
    clear hne hf hb hE hp h2 h3 hparts hw
    induction as with
    | nil => rfl
    | cons a as ih =>
      have hg := (hpos a (by simp)).2
      obtain ⟨g, hg⟩ := Option.isSome_iff_exists.1 hg
      have hlam : a.lam = none := by
        rcases (hc.valid a (by simp)).strength with ⟨g', e1, e2⟩ | ⟨g', e1, e2⟩
        · exact e2
        · rw [e2] at hg; cases hg
      have hs : strengthD realPrims hopping a a.freq = g := strengthD_ok (by simp [Hamiltonian.strength, hlam, hg])
      rw [List.flatMap_cons, List.map_append, List.sum_append, List.map_cons, List.sum_cons,
        ih hc.tail (fun x hx => hpos x (List.mem_cons_of_mem _ hx))]
      congr 1
      unfold partsAt callFloor
      rw [if_neg (lt_irrefl _), hs, hg]
      rcases hc.known a (by simp) with e | e | e | e <;> simp [e, termCount] <;> norm_num
  obtain ⟨Ψ, -, -, g1, g2⟩ := C55_exact σ _ _ h2 b h3 hp ⟨k, w, eta⟩ heta
  have hB := C67_below σ _ _ h2 b h3 hp (fun t ht => by
    have hlt : t < ((parts realPrims hopping 0 as).map (·.freq)).length := by simpa [blueprint] using ht
    show 0 < ((parts realPrims hopping 0 as).map (·.freq)).getD t 0
    rw [List.getD_eq_getElem?_getD, List.getElem?_eq_getElem hlt, Option.getD_some, List.getElem_map]
    exact (hparts _ (List.getElem_mem _)).2) k w eta heta (by rw [hfl]; exact hw) _ (Or.inr g2)
  rw [hfl] at hB
  exact ⟨Ψ 0 0, ⟨g1, g2⟩, hB⟩

/-! ### the hypotheses are met -/

/-- a Holstein model with hopping 1, frequency 2 and coupling 1: nothing below `-2 - 1/2` -/
example (σ : SetOrder) (M N : ℤ) (hM : 1 ≤ M) (hN : 1 ≤ N) : ∃ m b,
    (Model.fromParameters (1 : ℝ) 1 0 none 1).adds realPrims [{ ctype := "Holstein", freq := 2, M := M, N := N, g := some 1 }] =
      .ok m ∧ buildSystem σ m = .ok b ∧
    ∀ k eta : ℝ, 0 < eta → ∃ G, Gives m b ⟨k, -3, eta⟩ G ∧ -G.im / Real.pi ≤ 4 * eta / Real.pi := by
  have hc : Clean realPrims 1 0 [({ ctype := "Holstein", freq := 2, M := M, N := N, g := some 1 } : AddArgs ℝ)] := by
    constructor <;> intro a ha <;> simp only [List.mem_cons, List.not_mem_nil, or_false] at ha <;> subst ha
    · exact ⟨hM, hN, by simp, by simp, by simp, Or.inl ⟨1, rfl, rfl⟩, by simp⟩
    · simp [Known]
    · rfl
    · simp [Defined]
  obtain ⟨m, b, h1, h2, h3⟩ := C67_assembled σ 1 1 (Or.inr (by norm_num)) none (by simp) _ (by simp) hc
    (by rw [modes_of_clean hc]; simp [modesAt]) (Or.inr (by simp)) (by simp)
  refine ⟨m, b, h1, h2, fun k eta heta => ?_⟩
  obtain ⟨G, g1, -, g2⟩ := h3 (-(5 / 2)) (by simp [callFloor]; norm_num) k (-3) eta heta (by norm_num)
  refine ⟨G, g1, g2.trans ?_⟩
  have hpi := Real.pi_pos
  rw [div_le_div_iff₀ (by positivity) hpi]
  have : 0 ≤ eta * Real.pi * eta ^ 2 := by positivity
  nlinarith

end GGCE.Props
