import Verif.Proofs.Window
import Verif.Props.Spread
import Verif.Props.Floor

/-!
Property C97: the range of frequencies that holds the spectral weight.
-/

set_option linter.unusedSectionVars false

namespace GGCE.Props
open Spec Arr Complex MeasureTheory
open scoped InnerProductSpace

/-- C97, for well-formed models: at a distance `d` above the top or below the bottom, the Green's function is at most
`1 / √(d² + η²)` and the spectral function at most `η / (π (d² + η²))`. -/
theorem C97_outside (σ : SetOrder) (m : Model ℝ) (ae : Int) (hm : WellFormed m ae) (b : Built ℝ)
    (hb : buildSystem σ m = .ok b) (hp : Physical m) (k w eta : ℝ) (heta : 0 < eta) (G : ℂ)
    (hG : Returned m b ⟨k, w, eta⟩ G) (d : ℝ)
    (hd : (w ≤ bandBottom m ∧ d = bandBottom m - w) ∨ (bandTop m ≤ w ∧ d = w - bandTop m)) :
    ‖G‖ ≤ 1 / √(d ^ 2 + eta ^ 2) ∧ -G.im / Real.pi ≤ 1 / Real.pi * (eta / (d ^ 2 + eta ^ 2)) := by
  obtain ⟨H, h1, h2, h3⟩ := C56_returned σ m ae hm b hb hp k
  rw [h3 w eta heta G hG]
  have hH := operator_eq hm.toListsOk h2
  have hw := fun f => hamOp_window (k := k) hm.toListsOk (allowed_zero hm.toShaped) hm.index f
  rw [← hH] at hw
  refine green_small h1 norm_bare heta (fun u hu => ?_)
  rcases hd with ⟨h, rfl⟩ | ⟨h, rfl⟩
  · exact norm_sq_below h1 (fun u => (hw u).1) h hu
  · exact norm_sq_above h1 (fun u => (hw u).2) h hu

/-- C97, for well-formed models: an interval of frequencies that extends by `L` beyond the bottom and the top holds all
of the spectral weight but at most `(2/π) arctan(η/L)`. -/
theorem C97_weight (σ : SetOrder) (m : Model ℝ) (ae : Int) (hm : WellFormed m ae) (b : Built ℝ)
    (hb : buildSystem σ m = .ok b) (hp : Physical m) (k eta : ℝ) (heta : 0 < eta) (G : ℝ → ℂ)
    (hG : ∀ w, Returned m b ⟨k, w, eta⟩ (G w)) (L : ℝ) (hL : 0 < L) :
    1 - 2 / Real.pi * Real.arctan (eta / L) ≤ ∫ w in (bandBottom m - L)..(bandTop m + L), -(G w).im / Real.pi ∧
      ∫ w in (bandBottom m - L)..(bandTop m + L), -(G w).im / Real.pi ≤ 1 := by
  obtain ⟨h1, h2⟩ := C59_weight σ m ae hm b hb hp k eta heta G hG
  refine weight_between h1 h2 (fun w => (C23_spectral_positive σ m ae hm b hb hp ⟨k, w, eta⟩ heta _ (hG w)).1.le) heta hL
    (fun w hw => ?_) (fun w hw => ?_)
  · rw [show (w - bandBottom m) ^ 2 = (bandBottom m - w) ^ 2 by ring]
    exact (C97_outside σ m ae hm b hb hp k w eta heta _ (hG w) _ (Or.inl ⟨hw, rfl⟩)).2
  · exact (C97_outside σ m ae hm b hb hp k w eta heta _ (hG w) _ (Or.inr ⟨hw, rfl⟩)).2

theorem freqs_numbers (ds : List (Part ℝ)) (F : ℝ → ℝ) :
    ∑ t ∈ Finset.range ds.length, F ((ds.map (·.freq)).getD t 0) * (((ds.map (·.N)).getD t 0 : ℤ) : ℝ) =
      (ds.map (fun d => F d.freq * (d.N : ℝ))).sum := by
  induction ds with
  | nil => simp
  | cons d ds ih =>
    rw [List.length_cons, Finset.sum_range_succ', add_comm, List.map_cons (l := ds) (f := fun d => F d.freq * (d.N : ℝ)),
      List.sum_cons, ← ih]
    rfl

/-- **C97**, from the user's side, at zero temperature, for calls with positive frequencies and with couplings given as
`phonon_coupling`. With `V = Σ c |g| √N` (`c` = 2, 4, 4, 8 for the four coupling types) and `B = 2 t + V`, the interval
from `-B - L` to `B + Σ Ω N + L` holds all of the spectral weight but at most `(2/π) arctan(η/L)`. -/
theorem C97_assembled (σ : SetOrder) (hopping lattice : ℝ) (hl : hopping = 0 ∨ (0 < hopping ∧ lattice = 1))
    (cap : Option Int) (hcap : ∀ c, cap = some c → 1 ≤ c)
    (as : List (AddArgs ℝ)) (hne : as ≠ []) (hc : Clean realPrims hopping 0 as)
    (hf : ((modes 0 as).map (·.freq)).Nodup)
    (hb : (∀ a ∈ as, a.ctype = "BondPeierls") ∨ (∀ a ∈ as, a.ctype ≠ "BondPeierls"))
    (hpos : ∀ a ∈ as, 0 < a.freq) (g : AddArgs ℝ → ℝ) (hg : ∀ a ∈ as, a.g = some (g a)) (B P : ℝ)
    (hB : B = 2 * hopping + (as.map (fun a => termCount a.ctype * |g a| * √(a.N : ℝ))).sum)
    (hP : P = (as.map (fun a => a.freq * (a.N : ℝ))).sum) :
    ∃ m b, (Model.fromParameters hopping lattice 0 cap 1).adds realPrims as = .ok m ∧ buildSystem σ m = .ok b ∧
      ∀ k eta : ℝ, 0 < eta → ∃ G : ℝ → ℂ, (∀ w, Gives m b ⟨k, w, eta⟩ (G w)) ∧
        (∀ w, B + P < w → -(G w).im / Real.pi ≤ 1 / Real.pi * (eta / ((w - (B + P)) ^ 2 + eta ^ 2))) ∧
        ∀ L, 0 < L → 1 - 2 / Real.pi * Real.arctan (eta / L) ≤ ∫ w in (-B - L)..(B + P + L), -(G w).im / Real.pi ∧
          ∫ w in (-B - L)..(B + P + L), -(G w).im / Real.pi ≤ 1 := by
  obtain ⟨m, b, h1, ⟨ae, h2⟩, h3⟩ := C16_assembled σ realPrims C42_names hopping lattice 0 cap hcap as hne hc hf hb
  have hp := physical_assembled h1 hb hl
  obtain ⟨m0, e1, e2, e3⟩ := C95_interaction hopping lattice cap as hc hf g hg
  rw [h1] at e1; cases e1
  have habs : |hopping| = hopping := by rcases hl with h | h <;> [rw [h, abs_zero]; exact abs_of_pos h.1]
  have hbp := fromParameters_blueprint hopping lattice 0 cap as hc hf
  rw [h1] at hbp
  have hparts : ∀ F : ℝ → ℝ, ∑ t ∈ Finset.range m.nTypes, F (m.ham.freqs.getD t 0) * maxNumber m t =
      (as.map (fun a => F a.freq * (a.N : ℝ))).sum := by
    intro F
    have : m = blueprint hopping lattice 0 cap (parts realPrims hopping 0 as) := Except.ok.inj hbp
    rw [this]
    have e : (parts realPrims hopping 0 as).map (fun d => F d.freq * (d.N : ℝ)) = as.map (fun a => F a.freq * (a.N : ℝ)) := by
      unfold parts
      rw [List.map_flatMap, List.map_eq_flatMap]
      refine List.flatMap_congr (fun a _ => ?_)
      simp [partsAt]
    rw [← e]
    exact freqs_numbers _ F
  have hbot : bandBottom m = -B := by
    unfold bandBottom
    rw [hparts (fun x => min 0 x), e2, e3, habs, hB]
    have : (as.map (fun a => min 0 a.freq * (a.N : ℝ))).sum = 0 := by
      refine List.sum_eq_zero (fun x hx => ?_)
      obtain ⟨a, ha, rfl⟩ := List.mem_map.1 hx
      rw [min_eq_left (hpos a ha).le, zero_mul]
    rw [this]
    ring
  have htop : bandTop m = B + P := by
    unfold bandTop
    rw [hparts (fun x => max 0 x), e2, e3, habs, hB, hP]
    congr 2
    refine List.map_congr_left (fun a ha => ?_)
    rw [max_eq_right (hpos a ha).le]
  refine ⟨m, b, h1, h3, fun k eta heta => ?_⟩
  obtain ⟨H, -, -, hH⟩ := C56_operator σ m ae h2 b h3 hp k
  refine ⟨fun w => green H bare (energyAt w eta), fun w => (hH w eta heta).2, fun w hw => ?_, fun L hL => ?_⟩
  · have := C97_outside σ m ae h2 b h3 hp k w eta heta _ (Or.inr (hH w eta heta).2.2) _
      (Or.inr ⟨by rw [htop]; exact hw.le, rfl⟩)
    rw [htop] at this
    exact this.2
  · have := C97_weight σ m ae h2 b h3 hp k eta heta (fun w => green H bare (energyAt w eta))
      (fun w => Or.inr (hH w eta heta).2.2) L hL
    rw [hbot, htop] at this
    exact this

/-- A Holstein–Peierls model with at most 3 and 2 phonons: `V = 2√3 + 4√2`, phonon energies up to 8. -/
example (σ : SetOrder) : ∃ m b, (Model.fromParameters (1 : ℝ) 1 0 none 1).adds realPrims exCalls = .ok m ∧
    buildSystem σ m = .ok b ∧ ∀ k eta : ℝ, 0 < eta → ∃ G : ℝ → ℂ, (∀ w, Gives m b ⟨k, w, eta⟩ (G w)) ∧
      1 - 2 / Real.pi * Real.arctan (eta / 1) ≤
        ∫ w in (-(2 + (2 * √3 + 4 * √2)) - 1)..(2 + (2 * √3 + 4 * √2) + 8 + 1), -(G w).im / Real.pi := by
  obtain ⟨h1, h2, h3⟩ := exCalls_clean
  obtain ⟨m, b, q1, q2, q3⟩ := C97_assembled σ 1 1 (Or.inr ⟨one_pos, rfl⟩) none (by simp) exCalls (by simp [exCalls]) h1 h2
    (Or.inr h3) (by simp [exCalls]) (fun a => a.g.getD 0) (by simp [exCalls]) (2 + (2 * √3 + 4 * √2)) 8
    (by simp [exCalls, termCount]; norm_num [abs_of_pos]) (by simp [exCalls]; norm_num)
  refine ⟨m, b, q1, q2, fun k eta heta => ?_⟩
  obtain ⟨G, g1, -, g2⟩ := q3 k eta heta
  exact ⟨G, g1, (g2 1 one_pos).1⟩

end GGCE.Props
