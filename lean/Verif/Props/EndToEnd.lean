import Verif.Props.TextbookLimit
import Verif.Props.Couplings
import Verif.Props.FloatDense

/-!
Property C135: from the Hamiltonian of the literature to the number in the computer. Truncation and rounding together:
with limits that are large enough, and then an arithmetic that is accurate enough, the floating-point numbers are as
close to the exact Green's function as one likes.
-/

set_option linter.unusedSectionVars false

namespace GGCE.Props
open Spec Complex

/-- **C135**. The Hamiltonian of the literature has exactly one `⟨k| (ω + iη - H)⁻¹`. For every tolerance there is a bound
`B` such that for all calls with limits of at least `B` there is an accuracy `u0` from which on both solvers answer within
the tolerance of `⟨k| (ω + iη - H)⁻¹ c†_0 |0⟩`: the sparse one also with coupling strengths computed inexactly. -/
theorem C135_end_to_end (hopping lattice T : ℝ) (hl : hopping = 0 ∨ (0 < hopping ∧ lattice = 1))
    (as : List (AddArgs ℝ)) (hne : as ≠ []) (hc : Clean realPrims hopping T as)
    (hf : ((modes T as).map (·.freq)).Nodup)
    (hb : (∀ a ∈ as, a.ctype = "BondPeierls") ∨ (∀ a ∈ as, a.ctype ≠ "BondPeierls"))
    (hpos : 0 < T → ∀ a ∈ as, 0 < a.freq) (bs : List Branch) (hbs : Requested hopping T as bs)
    (k w eta : ℝ) (heta : 0 < eta) (K : ℝ) (hK : 0 ≤ K) :
    ∃ F, ExactPropagator (textbook hopping bs) bs.length lattice ⟨k, w, eta⟩ F ∧
      (∀ F', ExactPropagator (textbook hopping bs) bs.length lattice ⟨k, w, eta⟩ F' → F' = F) ∧
      ∀ ε > 0, ∃ B : ℤ, ∀ (cap : Option Int) (as' : List (AddArgs ℝ)),
        (∀ c, cap = some c → 1 ≤ c ∧ B ≤ c) → List.Forall₂ SameCall as as' →
        (∀ a ∈ as', Valid T a ∧ CallAtLeast B a) →
        (∃ u0 > 0, ∀ u ≤ u0, ∀ P, PrimsNear (K * u) hopping T as' P → ∀ σ fl pw cs ex, Arithmetic u u fl pw cs ex →
          ∀ M, FpuTo u M → ∀ rnd, Rounds u u rnd → ∀ spsolve, BackwardStable u spsolve →
          ∃ m b G, (Model.fromParameters hopping lattice T cap 1).adds P as' = .ok m ∧ buildSystem σ m = .ok b ∧
            sparseSolveF M rnd (floatPhys fl pw cs ex) m ⟨k, w, eta⟩ (fullBasis b.eqs) b.eqs spsolve = .ok G ∧
            ‖G - F (ket 0 0)‖ ≤ ε) ∧
        ∀ σ, ∃ m b, (Model.fromParameters hopping lattice T cap 1).adds realPrims as' = .ok m ∧ buildSystem σ m = .ok b ∧
          ∃ u0 > 0, ∀ u ≤ u0, ∀ fl pw cs ex, Arithmetic u u fl pw cs ex → ∀ M, FpuTo u M → ∀ rnd, Rounds u u rnd →
          ∀ L, LibTo u L →
          ∃ G, denseSolveF L M rnd (floatPhys fl pw cs ex) m ⟨k, w, eta⟩ (localBasis b.eqs) b.eqs = .ok (some G) ∧
            ‖G - F (ket 0 0)‖ ≤ ε := by
  obtain ⟨F, f1, f2, f3⟩ := C131_limit hopping lattice T hl as hne hc hf hb hpos bs hbs k w eta heta
  refine ⟨F, f1, f2, fun ε hε => ?_⟩
  obtain ⟨B, hB⟩ := f3 (ε / 2) (by positivity)
  refine ⟨B, fun cap as' hcap hs hv => ?_⟩
  have hc' := clean_same hc hs (fun a ha => (hv a ha).1)
  have hne' : as' ≠ [] := by rintro rfl; cases hs; exact hne rfl
  have hf' : ((modes T as').map (·.freq)).Nodup := by
    rw [modes_of_clean hc', freqs_same hs, ← modes_of_clean hc]; exact hf
  have hb' : (∀ a ∈ as', a.ctype = "BondPeierls") ∨ (∀ a ∈ as', a.ctype ≠ "BondPeierls") := by
    rcases hb with hb | hb
    · refine Or.inl (fun a ha => ?_)
      obtain ⟨x, hx, h⟩ := forall₂_mem hs a ha
      rw [h.ctype]; exact hb x hx
    · refine Or.inr (fun a ha => ?_)
      obtain ⟨x, hx, h⟩ := forall₂_mem hs a ha
      rw [h.ctype]; exact hb x hx
  have hcap1 : ∀ c, cap = some c → 1 ≤ c := fun c hcc => (hcap c hcc).1
  -- a number within `C u` of one within `ε / 2`
  have close : ∀ {C u : ℝ} {G G' : ℂ}, 0 ≤ u → u ≤ ε / (2 * (|C| + 1)) → ‖G - F (ket 0 0)‖ ≤ ε / 2 →
      ‖G' - G‖ ≤ C * u → ‖G' - F (ket 0 0)‖ ≤ ε := by
    intro C u G G' hu0 hu h1 h2
    have h3 := norm_sub_le_norm_sub_add_norm_sub G' G (F (ket 0 0))
    have h4 : C * u ≤ ε / 2 := by
      rw [le_div_iff₀ (by positivity)] at hu
      have := mul_le_mul_of_nonneg_right (le_abs_self C) hu0
      linarith
    linarith
  refine ⟨?_, fun σ => ?_⟩
  · let σ₀ : SetOrder := ⟨id, fun l => List.Perm.refl l⟩
    obtain ⟨m, b, h1, h2, h3⟩ := C134_assembled σ₀ hopping lattice T hl cap hcap1 as' hne' hc' hf' hb' K hK
    obtain ⟨G, hG, u0, C, c1, c2⟩ := h3 k w eta heta
    obtain ⟨m1, b1, i1, i2, -, i3⟩ := hB σ₀ cap as' hcap hs hv
    rw [h1] at i1; cases i1
    rw [h2] at i2; cases i2
    have hF := i3 G (Or.inr hG.2)
    refine ⟨min u0 (ε / (2 * (|C| + 1))), lt_min c1 (by positivity), ?_⟩
    intro u hu P hP σ fl pw cs ex A M hM rnd hrnd sp hsp
    obtain ⟨m', b', G', e1, e2, e3, e4, -⟩ := c2 u (hu.trans (min_le_left _ _)) P hP σ fl pw cs ex A M hM rnd hrnd sp hsp
    exact ⟨m', b', G', e1, e2, e3, close A.unit.1 (hu.trans (min_le_right _ _)) hF e4⟩
  · obtain ⟨m, b, h1, ⟨ae, h2⟩, h3⟩ := C16_assembled σ realPrims C42_names hopping lattice T cap hcap1 as' hne' hc' hf' hb'
    have hp := physical_assembled h1 hb' hl
    obtain ⟨ls, G, k1, -, -, -, k5, k6⟩ := C22_nonsingular σ m ae h2 b h3 hp ⟨k, w, eta⟩ heta
    obtain ⟨u0, C, c1, -, c3⟩ := C132_linear σ m ae h2 b h3 hp ⟨k, w, eta⟩ heta G (Or.inr k6)
    obtain ⟨m1, b1, i1, i2, -, i3⟩ := hB σ cap as' hcap hs hv
    rw [h1] at i1; cases i1
    rw [h3] at i2; cases i2
    have hF := i3 G (Or.inr k6)
    refine ⟨m, b, h1, h3, min u0 (ε / (2 * (|C| + 1))), lt_min c1 (by positivity), ?_⟩
    intro u hu fl pw cs ex A M hM rnd hrnd L hL
    obtain ⟨G', e1, e2⟩ := c3 u (hu.trans (min_le_left _ _)) fl pw cs ex A M hM rnd hrnd L hL
    exact ⟨G', e1, close A.unit.1 (hu.trans (min_le_right _ _)) hF e2⟩

/-- The two-branch model of the other examples, with every strength, operation and library function off by a relative
error `u`: for small `u` the number returned is within `1/1000` of the exact one. -/
example (σ : SetOrder) (sp : LinSys ℂ → Py (ℕ → ℂ)) (hsp : Exact sp) :
    ∃ F, ExactPropagator (textbook 1 [⟨"Holstein", 2, 1⟩, ⟨"Peierls", 1, 1 / 2⟩]) 2 1 ⟨0, -2, 1 / 10⟩ F ∧
    ∃ u > 0, ∃ (m : Model ℝ) (b : Built ℝ) (G : ℂ), buildSystem σ m = .ok b ∧
      sparseSolveF ⟨fun a b : ℂ => (1 + u : ℝ) * (a * b), fun a b => (1 + u : ℝ) * (a + b)⟩
        (fun z => (1 + u : ℝ) * z) (floatPhys (fun _ z => (1 + u : ℝ) * z) (fun b x => (1 + u : ℝ) * b ^ (x : ℂ))
          (fun x => Real.cos x + u) (fun x => (1 + u : ℝ) * Complex.exp (I * x))) m ⟨0, -2, 1 / 10⟩
        (fullBasis b.eqs) b.eqs (fun ls => (fun x i => (1 + u : ℝ) * x i) <$> sp ls) = .ok G ∧
      ‖G - F (ket 0 0)‖ ≤ 1 / 1000 := by
  obtain ⟨h1, h2, h3⟩ := exCalls_clean
  obtain ⟨F, f1, -, f3⟩ := C135_end_to_end 1 1 0 (Or.inr ⟨one_pos, rfl⟩) exCalls (by simp [exCalls])
    h1 h2 (Or.inr h3) (fun h => absurd h (lt_irrefl _)) [⟨"Holstein", 2, 1⟩, ⟨"Peierls", 1, 1 / 2⟩]
    (by
      have : requests 1 0 exCalls = [("Holstein", 2, 1 ^ 2), ("Peierls", 1, (1 / 2) ^ 2)] := by
        simp [requests, exCalls, strengthSq]
      unfold Requested
      rw [this]
      exact .cons ⟨rfl, rfl, rfl⟩ (.cons ⟨rfl, rfl, rfl⟩ .nil)) 0 (-2) (1 / 10) (by norm_num) 1 zero_le_one
  refine ⟨F, f1, ?_⟩
  obtain ⟨B, hB⟩ := f3 (1 / 1000) (by norm_num)
  have hj : 1 ≤ max 1 B.toNat := le_max_left _ _
  obtain ⟨⟨u0, hu0, g⟩, -⟩ := hB none (exCalls.map (withLimits ((max 1 B.toNat : ℕ) : ℤ))) (by simp)
    (by
      rw [List.forall₂_map_right_iff, List.forall₂_same]
      exact fun a _ => ⟨rfl, rfl, rfl, rfl, rfl⟩)
    (by
      intro a ha
      refine ⟨valid_withLimits h1 hj a ha, ?_⟩
      obtain ⟨x, hx, rfl⟩ := List.mem_map.1 ha
      have hjB : B ≤ ((max 1 B.toNat : ℕ) : ℤ) := (Int.self_le_toNat B).trans (by exact_mod_cast le_max_right _ _)
      exact ⟨hjB, hjB, fun y h => by rw [map_const h]; exact hjB, fun y h => by rw [map_const h]; exact hjB⟩)
  have hu : 0 < min u0 (1 / 8) := lt_min hu0 (by norm_num)
  obtain ⟨m, b, G, -, g2, g3, g4⟩ := g (min u0 (1 / 8)) (min_le_left _ _) _ (by rw [one_mul]; exact inflate_near hu.le _ _ _) σ
    _ _ _ _ (inflate_arithmetic hu.le (min_le_right _ _)) _ (inflate_fpu hu.le) _ (inflate_rounds hu.le) _
    (inflate_stable hsp hu.le)
  exact ⟨_, hu, m, b, G, g2, g3, g4⟩

end GGCE.Props
