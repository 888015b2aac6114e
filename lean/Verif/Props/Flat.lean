import Verif.Proofs.Flat
import Verif.Props.Edge
import Verif.Props.Hopping

/-!
Property C120: with clouds of one site the self-energy does not depend on the momentum, and the polaron band is flatter
than that of the free electron.
-/

set_option linter.unusedSectionVars false

namespace GGCE.Props
open Spec Arr Complex
open scoped InnerProductSpace

theorem green_ne {H : States →L[ℂ] States} (hH : IsSelfAdjoint H) {w eta : ℝ} (heta : 0 < eta) :
    (green H bare (energyAt w eta)).im < 0 := by
  have hz : (energyAt w eta).im ≠ 0 := by rw [energyAt_im]; exact heta.ne'
  rw [green_im hH bare hz, energyAt_im, neg_lt_zero]
  have : resolvent H (energyAt w eta) bare ≠ 0 := by
    intro h
    have r := resolvent_apply (mem_resolventSet_of_im hH hz) bare
    rw [h, map_zero, smul_zero, sub_zero] at r
    have := norm_bare
    rw [← r, norm_zero] at this
    exact zero_ne_one this
  have := norm_pos_iff.2 this
  positivity

theorem one_add_ne {G : ℂ} (h : G.im < 0) (c : ℝ) : 1 + c * G ≠ 0 := by
  intro hc
  have h1 := congrArg Complex.im hc
  have h2 := congrArg Complex.re hc
  simp only [Complex.add_im, Complex.one_im, Complex.im_ofReal_mul, zero_add, Complex.zero_im, mul_eq_zero] at h1
  rcases h1 with h1 | h1
  · rw [h1] at h2; simp at h2
  · exact h.ne h1

/-- the results at two momenta -/
theorem onsite_pair {σ : SetOrder} {m : Model ℝ} (hm : WellFormed m 1) {b : Built ℝ} (hb : buildSystem σ m = .ok b)
    (hp : Physical m) (hon : Onsite m) {k q w eta : ℝ} (heta : 0 < eta) {G G' : ℂ}
    (hG : Returned m b ⟨k, w, eta⟩ G) (hG' : Returned m b ⟨q, w, eta⟩ G') :
    G' * (1 + ((freeEnergy m.ham.hopping m.latticeConstant k - freeEnergy m.ham.hopping m.latticeConstant q : ℝ) : ℂ) * G) = G ∧
      G.im < 0 := by
  obtain ⟨H, h1, h2, h3⟩ := C56_returned σ m 1 hm b hb hp k
  have him : G.im < 0 := by rw [h3 w eta heta G hG]; exact green_ne h1 heta
  have hne := one_add_ne him (freeEnergy m.ham.hopping m.latticeConstant k - freeEnergy m.ham.hopping m.latticeConstant q)
  set d : ℂ := 1 + ((freeEnergy m.ham.hopping m.latticeConstant k - freeEnergy m.ham.hopping m.latticeConstant q : ℝ) : ℂ) * G
    with hd
  obtain ⟨Ψ, hΨ, -, -, -⟩ := C55_exact σ m 1 hm b hb hp ⟨k, w, eta⟩ heta
  have hv := C55_value σ m 1 hm b hb hp ⟨k, w, eta⟩ heta G hG Ψ hΨ
  have hr := resolvent_onsite (q := q) hon hΨ (μ := d⁻¹) (by
    have : (1 + 2 * m.ham.hopping * (Real.cos (q * m.latticeConstant) - Real.cos (k * m.latticeConstant)) * Ψ 0 0 : ℂ) = d := by
      rw [hd, ← hv]; unfold freeEnergy; push_cast; ring
    show d⁻¹ * (1 + 2 * m.ham.hopping * (Real.cos (q * m.latticeConstant) - Real.cos (k * m.latticeConstant)) * Ψ 0 0 : ℂ) = 1
    rw [this, inv_mul_cancel₀ hne])
  have hv' := C55_value σ m 1 hm b hb hp ⟨q, w, eta⟩ heta G' hG' _ hr
  rw [anchor_zero, ← hv] at hv'
  refine ⟨?_, him⟩
  rw [hv']
  simp only [Int.cast_zero, mul_zero, neg_zero, exp_zero, one_mul]
  field_simp

/-- **C120**, the self-energy. In a model whose terms act on the site of the electron and whose clouds have one site there
is, at every frequency and broadening, one number `S` such that the solvers return `1/(w + i eta - ε(k) - S)` at every
momentum `k`. -/
theorem C120_selfenergy (σ : SetOrder) (m : Model ℝ) (hm : WellFormed m 1) (b : Built ℝ) (hb : buildSystem σ m = .ok b)
    (hp : Physical m) (hon : Onsite m) (w eta : ℝ) (heta : 0 < eta) :
    ∃ S : ℂ, ∀ k : ℝ, ∀ G, Returned m b ⟨k, w, eta⟩ G →
      G * (w + I * eta - freeEnergy m.ham.hopping m.latticeConstant k - S) = 1 := by
  obtain ⟨H, h1, -, h3⟩ := C56_operator σ m 1 hm b hb hp 0
  obtain ⟨-, -, h5⟩ := h3 w eta heta
  have h0 : Returned m b ⟨0, w, eta⟩ (green H bare (energyAt w eta)) := Or.inr h5
  set G₀ := green H bare (energyAt w eta)
  have hne : G₀ ≠ 0 := fun h => by have := green_ne h1 (w := w) heta; rw [show green H bare (energyAt w eta) = 0 from h] at this; simp at this
  refine ⟨w + I * eta - freeEnergy m.ham.hopping m.latticeConstant 0 - 1 / G₀, fun k G hG => ?_⟩
  obtain ⟨h6, -⟩ := onsite_pair hm hb hp hon heta h0 hG
  push_cast at h6
  field_simp
  linear_combination h6

/-- **C120**, the band. If the free electron has at `q` at most the energy that it has at `k`, then with clouds of one
site the lower edge at `q` is not above that at `k`, and they differ by at most as much as the free energies. -/
theorem C120_band (σ : SetOrder) (m : Model ℝ) (hm : WellFormed m 1) (b : Built ℝ) (hb : buildSystem σ m = .ok b)
    (hp : Physical m) (hon : Onsite m) (k q : ℝ)
    (hkq : freeEnergy m.ham.hopping m.latticeConstant q ≤ freeEnergy m.ham.hopping m.latticeConstant k) (F F' : ℝ → ℝ → ℂ)
    (hF : ∀ w eta, 0 < eta → Returned m b ⟨k, w, eta⟩ (F w eta))
    (hF' : ∀ w eta, 0 < eta → Returned m b ⟨q, w, eta⟩ (F' w eta)) (e : ℝ) :
    (EmptyBelow F' e → EmptyBelow F e) ∧
      (EmptyBelow F e → EmptyBelow F'
        (e - (freeEnergy m.ham.hopping m.latticeConstant k - freeEnergy m.ham.hopping m.latticeConstant q))) := by
  set c := freeEnergy m.ham.hopping m.latticeConstant k - freeEnergy m.ham.hopping m.latticeConstant q with hc
  have hc0 : 0 ≤ c := by rw [hc]; linarith
  obtain ⟨H, h1, h2, h3⟩ := C56_returned σ m 1 hm b hb hp q
  have hK := raised_selfAdjoint h1 c bare
  have h3' : ∀ w eta : ℝ, 0 < eta → ∀ G, Returned m b ⟨k, w, eta⟩ G → G = green (raised H c bare) bare (energyAt w eta) := by
    intro w eta heta G hG
    obtain ⟨h5, -⟩ := onsite_pair hm hb hp hon heta hG (hF' w eta heta)
    rw [h3 w eta heta _ (hF' w eta heta), ← hc] at h5
    have hz : (energyAt w eta).im ≠ 0 := by rw [energyAt_im]; exact heta.ne'
    have h7 := green_raised h1 c bare hz
    set g := green H bare (energyAt w eta)
    set g' := green (raised H c bare) bare (energyAt w eta)
    linear_combination -(1 + c * g') * h5 - (1 + c * G) * h7
  have hAB : ∀ s : ℝ, ∀ f, (algebraMap ℝ (States →L[ℂ] States) s - H) f =
      (algebraMap ℝ (States →L[ℂ] States) s - raised H c bare) f + (c : ℂ) • (⟪bare, f⟫_ℂ • bare) := by
    intro s f
    rw [sub_apply, sub_apply, raised_apply]
    abel
  obtain ⟨s, hs1, hs2, hs3⟩ : ∃ s, ‖H‖ ≤ s ∧ ‖raised H c bare‖ ≤ s ∧ e ≤ s :=
    ⟨max ‖H‖ (max ‖raised H c bare‖ e), by simp⟩
  have hAs : ∀ (X : States →L[ℂ] States), IsSelfAdjoint X → IsSelfAdjoint (algebraMap ℝ (States →L[ℂ] States) s - X) :=
    fun _ hX => above_selfAdjoint hX s
  constructor
  · intro h
    rw [emptyBelow_iff h1 h3 hF' hs1 hs3] at h
    rw [emptyBelow_iff hK h3' hF hs2 hs3]
    intro j
    have h4 := powers_lowered (hAs _ h1) hc0 (hAB s) (above_inner_nonneg h1 hs1 bare)
      (above_inner_nonneg hK hs2 bare) (2 * j) 0
    have sq : ∀ (X : States →L[ℂ] States), IsSelfAdjoint X → (⟪bare, (X ^ (2 * j)) bare⟫_ℂ).re = ‖(X ^ j) bare‖ ^ 2 := by
      intro X hX
      have hs := ContinuousLinearMap.isSelfAdjoint_iff_isSymmetric.1 (hX.pow j)
      have e1 : ⟪bare, (X ^ (2 * j)) bare⟫_ℂ = ⟪(X ^ j) bare, (X ^ j) bare⟫_ℂ := by
        rw [two_mul, pow_add]; exact (hs _ _).symm
      rw [e1, inner_self_eq_norm_sq_to_K]
      norm_cast
    rw [zero_add, pow_zero, one_apply_eq_self, sq _ (hAs _ hK), sq _ (hAs _ h1)] at h4
    exact (pow_le_pow_iff_left₀ (norm_nonneg _) (norm_nonneg _) two_ne_zero).1 h4 |>.trans (h j)
  · intro h
    rw [emptyBelow_iff hK h3' hF hs2 hs3] at h
    rw [emptyBelow_iff h1 h3 hF' hs1 (by linarith)]
    intro j
    have h4 := powers_raised norm_bare hc0 (by linarith) (hAB s) h j 0
    rw [pow_zero, pow_zero, one_mul, one_apply_eq_self] at h4
    rwa [show s - (e - c) = s - e + c by ring]

/-! ### from the user's side -/

theorem oneSite_onsite {t lattice T : ℝ} {cap : Option Int} {as : List (AddArgs ℝ)} {ae : ℤ}
    (hc : Clean realPrims t T as) (ho : OneSite T as)
    (hm : WellFormed (blueprint t lattice T cap (parts realPrims t T as)) ae) :
    ae = 1 ∧ Onsite (blueprint t lattice T cap (parts realPrims t T as)) := by
  constructor
  · have h1 : ((parts realPrims t T as).map (·.M)).max? = some ae := hm.absExtent
    have h2 := List.max?_eq_some_iff.1 h1
    rw [parts_M hc] at h2
    obtain ⟨d, hd, e⟩ := List.mem_map.1 h2.1
    rw [← e]; exact ho.2 d hd
  · intro h hh
    obtain ⟨q, hq, hh⟩ := List.mem_flatMap.1 hh
    have hct : q.1.ctype = "Holstein" := by
      have hq' : q.1 ∈ parts realPrims t T as := (List.mem_zipIdx hq).2.2 ▸ List.getElem_mem _
      obtain ⟨a, ha, hd⟩ := List.mem_flatMap.1 hq'
      unfold partsAt at hd
      split at hd
      · simp only [List.mem_cons, List.not_mem_nil, or_false] at hd
        rcases hd with e | e <;> rw [e] <;> exact ho.1 a ha
      · simp only [List.mem_cons, List.not_mem_nil, or_false] at hd
        rw [hd]; exact ho.1 a ha
    rw [hct] at hh
    simp only [termsOf, termShapes, if_true, Option.getD_some, List.map_cons, List.map_nil, List.mem_cons,
      List.not_mem_nil, or_false] at hh
    rcases hh with rfl | rfl <;> exact ⟨rfl, rfl⟩

/-- **C120**, from the user's side: Holstein phonons (any number of modes, any temperature, any numbers of phonons, any
cap) with `phonon_extent = 1`. The polaron has at every momentum an energy `E k`, the lower edge of the spectral function
of whatever the solvers return. It rises and falls with the energy of the free electron, but never by more. -/
theorem C120_assembled (σ : SetOrder) (t lattice T : ℝ) (hl : t = 0 ∨ (0 < t ∧ lattice = 1)) (cap : Option Int)
    (hcap : ∀ c, cap = some c → 1 ≤ c) (as : List (AddArgs ℝ)) (hne : as ≠ []) (hc : Clean realPrims t T as)
    (hf : ((modes T as).map (·.freq)).Nodup) (ho : OneSite T as) :
    ∃ m b, (Model.fromParameters t lattice T cap 1).adds realPrims as = .ok m ∧ buildSystem σ m = .ok b ∧
      (∀ w eta : ℝ, 0 < eta → ∃ S : ℂ, ∀ k : ℝ, ∀ G, Returned m b ⟨k, w, eta⟩ G →
        G * (w + I * eta - freeEnergy t lattice k - S) = 1) ∧
      ∃ E : ℝ → ℝ,
        (∀ k, E k ≤ freeEnergy t lattice k) ∧
        (∀ k, ∀ F : ℝ → ℝ → ℂ, (∀ w eta, 0 < eta → Returned m b ⟨k, w, eta⟩ (F w eta)) → Edge F (E k)) ∧
        ∀ k q, freeEnergy t lattice q ≤ freeEnergy t lattice k →
          E q ≤ E k ∧ E k - E q ≤ freeEnergy t lattice k - freeEnergy t lattice q := by
  have hb : (∀ a ∈ as, a.ctype = "BondPeierls") ∨ (∀ a ∈ as, a.ctype ≠ "BondPeierls") :=
    Or.inr (fun a ha => by rw [ho.1 a ha]; decide)
  obtain ⟨m, b, h1, ⟨ae, h2⟩, h3⟩ := C16_assembled σ realPrims C42_names t lattice T cap hcap as hne hc hf hb
  have hp := physical_assembled h1 hb hl
  have hbl := fromParameters_blueprint (P := realPrims) t lattice T cap as hc hf
  have hbl' := hbl
  rw [h1] at hbl'
  cases hbl'
  obtain ⟨rfl, hon⟩ := oneSite_onsite hc ho h2
  set m := blueprint t lattice T cap (parts realPrims t T as) with hm
  have hret : ∀ k, ∃ F : ℝ → ℝ → ℂ, ∀ w eta, 0 < eta → Returned m b ⟨k, w, eta⟩ (F w eta) := by
    intro k
    obtain ⟨H, -, -, h5⟩ := C56_operator σ m 1 h2 b h3 hp k
    exact ⟨fun w eta => green H bare (energyAt w eta), fun w eta heta => Or.inr (h5 w eta heta).2.2⟩
  choose F hF using hret
  have hedge := fun k => C88_edge σ m 1 h2 b h3 hp k (F k) (hF k)
  choose E hE hE' using hedge
  have huniq : ∀ k, ∀ F' : ℝ → ℝ → ℂ, (∀ w eta, 0 < eta → Returned m b ⟨k, w, eta⟩ (F' w eta)) →
      ∀ e, EmptyBelow F' e ↔ EmptyBelow (F k) e := by
    intro k F' hF' e
    obtain ⟨b1, b2⟩ := C120_band σ m h2 b h3 hp hon k k le_rfl (F k) F' (hF k) hF' e
    rw [sub_self, sub_zero] at b2
    exact ⟨b1, b2⟩
  refine ⟨m, b, h1, h3, fun w eta heta => C120_selfenergy σ m h2 b h3 hp hon w eta heta, E, hE', ?_, ?_⟩
  · intro k F' hF'
    have hu := huniq k F' hF'
    exact ⟨(hu _).2 (hE k).1, fun e' he' => (hE k).2 e' ((hu _).1 he')⟩
  · intro k q hkq
    have hb := fun e => C120_band σ m h2 b h3 hp hon k q hkq (F k) (F q) (hF k) (hF q) e
    refine ⟨(hE k).2 _ ((hb _).1 (hE q).1), ?_⟩
    have := (hE q).2 _ ((hb _).2 (hE k).1)
    have e : m.ham.hopping = t := rfl
    have e' : m.latticeConstant = lattice := rfl
    rw [e, e'] at this
    linarith

noncomputable def exFlatCalls : List (AddArgs ℝ) :=
  [{ ctype := "Holstein", freq := 2, M := 1, N := 3, g := some 1 },
   { ctype := "Holstein", freq := 1, M := 1, N := 2, g := some (1 / 2) }]

theorem exFlatCalls_clean : Clean realPrims 1 0 exFlatCalls ∧ ((modes 0 exFlatCalls).map (·.freq)).Nodup ∧
    OneSite 0 exFlatCalls := by
  have hc : Clean realPrims 1 0 exFlatCalls := by
    constructor <;> intro a ha <;> simp only [exFlatCalls, List.mem_cons, List.not_mem_nil, or_false] at ha <;>
      rcases ha with rfl | rfl
    all_goals first
      | rfl
      | (simp [Known]; done)
      | (simp [Defined]; done)
      | (constructor <;> simp [OneStrength])
  refine ⟨hc, ?_, ?_, ?_⟩
  · rw [modes_of_clean hc]
    simp [exFlatCalls, modesAt]
  · simp [exFlatCalls]
  · rw [modes_of_clean hc]
    simp [exFlatCalls, modesAt]

/-- two modes: the polaron band is at most as wide as the free one, `4 t` -/
example (σ : SetOrder) : ∃ m b, (Model.fromParameters 1 1 0 none 1).adds realPrims exFlatCalls = .ok m ∧
    buildSystem σ m = .ok b ∧ ∃ E : ℝ → ℝ,
      (∀ k, ∀ F : ℝ → ℝ → ℂ, (∀ w eta, 0 < eta → Returned m b ⟨k, w, eta⟩ (F w eta)) → Edge F (E k)) ∧
      E 0 ≤ E Real.pi ∧ E Real.pi ≤ E 0 + 4 := by
  obtain ⟨m, b, h1, h2, -, E, -, h3, h4⟩ := C120_assembled σ 1 1 0 (Or.inr ⟨one_pos, rfl⟩) none (by simp) exFlatCalls
    (by simp [exFlatCalls]) exFlatCalls_clean.1 exFlatCalls_clean.2.1 exFlatCalls_clean.2.2
  obtain ⟨h5, h6⟩ := h4 Real.pi 0 (by unfold freeEnergy; simp)
  refine ⟨m, b, h1, h2, E, h3, h5, ?_⟩
  unfold freeEnergy at h6
  simp at h6
  linarith

end GGCE.Props
