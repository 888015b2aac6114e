import Verif.Proofs.Stability
import Verif.Props.Parameters
import Verif.Props.Operator

/-!
Property C66: small changes of the parameters or of the momentum change the result little.
-/

set_option linter.unusedSectionVars false

namespace GGCE.Props
open Spec Arr Complex

theorem returned_of_gives {m : Model ℝ} {b : Built ℝ} {p : Point ℝ} {G : ℂ} (h : Gives m b p G) : Returned m b p G :=
  Or.inr h.2

theorem operator_eq {m : Model ℝ} {ae : ℤ} {k : ℝ} (hm : ListsOk m) {H : States →L[ℂ] States}
    (h : ∀ f n, H f n = frame m ae k f n) : H = hamOp m ae k := by
  ext f n
  rw [h, hamOp_apply hm]

/-- **C66**. Two models of the same shape: at every momentum, frequency and broadening the results differ by at
most the distance of the models over `eta²`. -/
theorem C66_parameters (σ σ' : SetOrder) (m m' : Model ℝ) (ae : Int) (hm : WellFormed m ae) (hm' : WellFormed m' ae)
    (b b' : Built ℝ) (hb : buildSystem σ m = .ok b) (hb' : buildSystem σ' m' = .ok b') (hp : Physical m)
    (hp' : Physical m') (hs : SameShape m m') (k w eta : ℝ) (heta : 0 < eta) (G G' : ℂ)
    (hG : Returned m b ⟨k, w, eta⟩ G) (hG' : Returned m' b' ⟨k, w, eta⟩ G') :
    ‖G - G'‖ ≤ distance m m' / eta ^ 2 := by
  obtain ⟨H, h1, h2, h3⟩ := C56_returned σ m ae hm b hb hp k
  obtain ⟨H', h1', h2', h3'⟩ := C56_returned σ' m' ae hm' b' hb' hp' k
  rw [h3 w eta heta G hG, h3' w eta heta G' hG']
  have hD : ‖H - H'‖ ≤ distance m m' := by
    rw [operator_eq hm.toListsOk h2, operator_eq hm'.toListsOk h2']
    exact hamOp_distance hm.toListsOk hm'.toListsOk (allowed_zero hm.toShaped) hm.index hs
  have := green_perturb h1 h1' norm_bare hD (z := energyAt w eta) (by rw [energyAt_im]; exact heta.ne')
  rwa [energyAt_im] at this

/-- C66, for momenta: on a momentum grid of step `δ`, neighbouring values differ by at most
`speed m · δ / eta²`. -/
theorem C66_momentum (σ : SetOrder) (m : Model ℝ) (ae : Int) (hm : WellFormed m ae) (b : Built ℝ)
    (hb : buildSystem σ m = .ok b) (hp : Physical m) (k k' w eta : ℝ) (heta : 0 < eta) (G G' : ℂ)
    (hG : Returned m b ⟨k, w, eta⟩ G) (hG' : Returned m b ⟨k', w, eta⟩ G') :
    ‖G - G'‖ ≤ speed m * |k - k'| / eta ^ 2 := by
  obtain ⟨H, h1, h2, h3⟩ := C56_returned σ m ae hm b hb hp k
  obtain ⟨H', h1', h2', h3'⟩ := C56_returned σ m ae hm b hb hp k'
  rw [h3 w eta heta G hG, h3' w eta heta G' hG']
  have hD : ‖H - H'‖ ≤ speed m * |k - k'| := by
    rw [operator_eq hm.toListsOk h2, operator_eq hm.toListsOk h2']
    exact hamOp_speed hm.toListsOk hm.index
  have := green_perturb h1 h1' norm_bare hD (z := energyAt w eta) (by rw [energyAt_im]; exact heta.ne')
  rwa [energyAt_im] at this

theorem same_parts {hopping hopping' : ℝ} {as as' : List (AddArgs ℝ)} (hc : Clean realPrims hopping 0 as)
    (hc' : Clean realPrims hopping' 0 as') (h : List.Forall₂ AlikeCall as as') :
    List.Forall₂ SamePart (parts realPrims hopping 0 as) (parts realPrims hopping' 0 as') ∧
    (List.zipWith (fun d d' : Part ℝ => |d.freq - d'.freq| * (d.N : ℝ)) (parts realPrims hopping 0 as)
        (parts realPrims hopping' 0 as')).sum +
      (List.zipWith (fun d d' : Part ℝ => termCount d.ctype * (|d.g - d'.g| * √(d.N : ℝ)))
        (parts realPrims hopping 0 as) (parts realPrims hopping' 0 as')).sum =
      (List.zipWith callDistance as as').sum := by
  induction h with
  | nil => exact ⟨.nil, by simp [parts]⟩
  | cons h1 h2 ih =>
    rename_i a a' l l'
    obtain ⟨i1, i2⟩ := ih hc.tail hc'.tail
    have e : ∀ {hop : ℝ} {x : AddArgs ℝ}, OneStrength x → x.g.isSome →
        partsAt realPrims hop 0 x = [⟨x.ctype, x.freq, x.M, x.N, x.g.getD 0⟩] := by
      intro hop x hst hg
      obtain ⟨g, hg⟩ := Option.isSome_iff_exists.1 hg
      have hl : x.lam = none := by
        rcases hst with ⟨g', e1, e2⟩ | ⟨g', e1, e2⟩
        · exact e2
        · rw [e2] at hg; cases hg
      have : strengthD realPrims hop x x.freq = g := strengthD_ok (by simp [Hamiltonian.strength, hl, hg])
      unfold partsAt
      rw [if_neg (lt_irrefl _), this, hg, mul_one]; rfl
    rw [parts_cons, parts_cons, e (hc.valid a (by simp)).strength h1.g.1, e (hc'.valid a' (by simp)).strength h1.g.2]
    refine ⟨.cons ⟨h1.ctype, hc.known a (by simp), h1.M, h1.N⟩ i1, ?_⟩
    simp only [List.cons_append, List.nil_append, List.zipWith_cons_cons, List.sum_cons]
    rw [← i2]
    unfold callDistance
    ring

/-- C66, from the user's side, at zero temperature: the same calls with slightly different hopping, frequencies
and couplings give slightly different results. -/
theorem C66_assembled (σ σ' : SetOrder) (hopping hopping' lattice : ℝ)
    (hl : hopping = 0 ∨ (0 < hopping ∧ lattice = 1)) (hl' : hopping' = 0 ∨ (0 < hopping' ∧ lattice = 1))
    (cap : Option Int) (hcap : ∀ c, cap = some c → 1 ≤ c)
    (as as' : List (AddArgs ℝ)) (hsame : List.Forall₂ AlikeCall as as') (hne : as ≠ [])
    (hc : Clean realPrims hopping 0 as) (hc' : Clean realPrims hopping' 0 as')
    (hf : ((modes 0 as).map (·.freq)).Nodup) (hf' : ((modes 0 as').map (·.freq)).Nodup)
    (hb : (∀ a ∈ as, a.ctype = "BondPeierls") ∨ (∀ a ∈ as, a.ctype ≠ "BondPeierls")) :
    ∃ m b m' b', (Model.fromParameters hopping lattice 0 cap 1).adds realPrims as = .ok m ∧
      (Model.fromParameters hopping' lattice 0 cap 1).adds realPrims as' = .ok m' ∧
      buildSystem σ m = .ok b ∧ buildSystem σ' m' = .ok b' ∧
      ∀ k w eta : ℝ, 0 < eta → ∃ G G', Gives m b ⟨k, w, eta⟩ G ∧ Gives m' b' ⟨k, w, eta⟩ G' ∧
        ‖G - G'‖ ≤ (2 * |hopping - hopping'| + (List.zipWith callDistance as as').sum) / eta ^ 2 := by
  have hne' : as' ≠ [] := by
    intro h; rw [h] at hsame; cases hsame; exact hne rfl
  have hct : ∀ a' ∈ as', ∃ a ∈ as, a'.ctype = a.ctype := by
    clear hc hc' hf hf' hb hne hne'
    induction hsame with
    | nil => simp
    | cons h1 _ ih =>
      intro a' ha'
      rcases List.mem_cons.1 ha' with rfl | h
      · exact ⟨_, by simp, h1.ctype⟩
      · obtain ⟨a, ha, e⟩ := ih a' h
        exact ⟨a, List.mem_cons_of_mem _ ha, e⟩
  have hb' : (∀ a ∈ as', a.ctype = "BondPeierls") ∨ (∀ a ∈ as', a.ctype ≠ "BondPeierls") := by
    rcases hb with h | h
    · left; intro a' ha'; obtain ⟨a, ha, e⟩ := hct a' ha'; rw [e]; exact h a ha
    · right; intro a' ha'; obtain ⟨a, ha, e⟩ := hct a' ha'; rw [e]; exact h a ha
  obtain ⟨m, b, h1, ⟨ae, h2⟩, h3⟩ := C16_assembled σ realPrims C42_names hopping lattice 0 cap hcap as hne hc hf hb
  obtain ⟨m', b', k1, ⟨ae', k2⟩, k3⟩ :=
    C16_assembled σ' realPrims C42_names hopping' lattice 0 cap hcap as' hne' hc' hf' hb'
  refine ⟨m, b, m', b', h1, k1, h3, k3, ?_⟩
  intro k w eta heta
  have hp := physical_assembled h1 hb hl
  have hp' := physical_assembled k1 hb' hl'
  rw [fromParameters_blueprint hopping lattice 0 cap as hc hf] at h1
  rw [fromParameters_blueprint hopping' lattice 0 cap as' hc' hf'] at k1
  cases h1
  cases k1
  obtain ⟨hs, hd⟩ := same_parts hc hc' hsame
  have hshape := blueprint_shape (hopping := hopping) (hopping' := hopping') (lattice := lattice) (T := 0) (T' := 0)
    (cap := cap) hs
  have e1 := h2.absExtent
  have e2 := k2.absExtent
  have hae : ae' = ae := by
    have : (blueprint hopping' lattice 0 cap (parts realPrims hopping' 0 as')).absExtent =
        (blueprint hopping lattice 0 cap (parts realPrims hopping 0 as)).absExtent := by
      have := hshape.extent
      simp only [Model.absExtent, blueprint] at this ⊢
      rw [this]
    rw [this, e1] at e2
    exact (Option.some.inj e2).symm
  subst hae
  obtain ⟨Ψ, -, -, g1, g2⟩ := C55_exact σ _ _ h2 b h3 hp ⟨k, w, eta⟩ heta
  obtain ⟨Ψ', -, -, g1', g2'⟩ := C55_exact σ' _ _ k2 b' k3 hp' ⟨k, w, eta⟩ heta
  have hb := C66_parameters σ σ' _ _ _ h2 k2 b b' h3 k3 hp hp' hshape k w eta heta _ _ (Or.inr g2) (Or.inr g2')
  rw [blueprint_distance hs, add_assoc, hd] at hb
  exact ⟨Ψ 0 0, Ψ' 0 0, ⟨g1, g2⟩, ⟨g1', g2'⟩, hb⟩

/-! ### the hypotheses are met -/

/-- the calls of `exCalls`, with a slightly different Holstein frequency and coupling -/
noncomputable def exCallsNear : List (AddArgs ℝ) :=
  [{ ctype := "Holstein", freq := 2 + 1 / 100, M := 2, N := 3, g := some (1 + 1 / 100) },
   { ctype := "Peierls", freq := 1, M := 3, N := 2, g := some (1 / 2) }]

theorem exCallsNear_clean : Clean realPrims 1 0 exCallsNear ∧ ((modes 0 exCallsNear).map (·.freq)).Nodup := by
  have hc : Clean realPrims 1 0 exCallsNear := by
    constructor <;> intro a ha <;> simp only [exCallsNear, List.mem_cons, List.not_mem_nil, or_false] at ha <;>
      rcases ha with rfl | rfl
    all_goals first
      | rfl
      | (simp [Known]; done)
      | (simp [Defined]; done)
      | (constructor <;> simp [OneStrength])
  refine ⟨hc, ?_⟩
  rw [modes_of_clean hc]
  norm_num [exCallsNear, modesAt]

/-- Frequency and coupling of a Holstein mode with at most three phonons changed by a hundredth: the result
changes by less than `7/100/eta²`. -/
example (σ : SetOrder) : ∃ m b m' b', (Model.fromParameters (1 : ℝ) 1 0 none 1).adds realPrims exCalls = .ok m ∧
    (Model.fromParameters (1 : ℝ) 1 0 none 1).adds realPrims exCallsNear = .ok m' ∧
    buildSystem σ m = .ok b ∧ buildSystem σ m' = .ok b' ∧
    ∀ k w eta : ℝ, 0 < eta → ∃ G G', Gives m b ⟨k, w, eta⟩ G ∧ Gives m' b' ⟨k, w, eta⟩ G' ∧
      ‖G - G'‖ ≤ 7 / 100 / eta ^ 2 := by
  obtain ⟨h1, h2, h3⟩ := exCalls_clean
  obtain ⟨k1, k2⟩ := exCallsNear_clean
  obtain ⟨m, b, m', b', q1, q2, q3, q4, q5⟩ := C66_assembled σ σ 1 1 1 (Or.inr (by norm_num)) (Or.inr (by norm_num))
    none (by simp) exCalls exCallsNear (by
      unfold exCalls exCallsNear
      exact .cons ⟨rfl, rfl, rfl, rfl, rfl⟩ (.cons ⟨rfl, rfl, rfl, rfl, rfl⟩ .nil)) (by simp [exCalls]) h1 k1 h2 k2 (Or.inr h3)
  refine ⟨m, b, m', b', q1, q2, q3, q4, fun k w eta heta => ?_⟩
  obtain ⟨G, G', r1, r2, r3⟩ := q5 k w eta heta
  refine ⟨G, G', r1, r2, r3.trans ?_⟩
  refine div_le_div_of_nonneg_right ?_ (by positivity)
  have hs : √3 ≤ 2 := by rw [Real.sqrt_le_left (by norm_num)]; norm_num
  have ha : |(2 : ℝ) - (2 + 1 / 100)| = 1 / 100 := by norm_num [abs_of_nonneg, abs_of_nonpos]
  have hb : |(1 : ℝ) - (1 + 1 / 100)| = 1 / 100 := by norm_num [abs_of_nonneg, abs_of_nonpos]
  simp only [exCalls, exCallsNear, List.zipWith_cons_cons, List.zipWith_nil_left, List.sum_cons, List.sum_nil, callDistance,
    termCount, if_true, Option.getD_some, sub_self, abs_zero, ha, hb]
  norm_num
  linarith

end GGCE.Props
