import Verif.Proofs.Compare
import Verif.Props.Floor

/-!
Properties C88 and C89: the lower edge of the spectral function. It moves down when the limits, the couplings or the
hopping grow or the frequencies fall, and it is lowest at zero momentum.
-/

set_option linter.unusedSectionVars false

namespace GGCE.Props
open Spec Arr Complex
open scoped InnerProductSpace

theorem bound_iff {H : States →L[ℂ] States} (h1 : IsSelfAdjoint H) {w eta e : ℝ} (heta : 0 < eta) :
    -(green H bare (energyAt w eta)).im / Real.pi ≤ eta / (Real.pi * ((e - w) ^ 2 + eta ^ 2)) ↔
      ((e - w) ^ 2 + eta ^ 2) * ‖resolvent H ((w : ℂ) + I * eta) bare‖ ^ 2 ≤ 1 := by
  have hz : (energyAt w eta).im ≠ 0 := by rw [energyAt_im]; exact heta.ne'
  rw [green_im h1 bare hz, energyAt_im, neg_neg]
  have hQ : 0 < (e - w) ^ 2 + eta ^ 2 := by positivity
  have hpi := Real.pi_pos
  rw [div_le_div_iff₀ hpi (by positivity)]
  show eta * ‖resolvent H ((w : ℂ) + I * eta) bare‖ ^ 2 * (Real.pi * ((e - w) ^ 2 + eta ^ 2)) ≤ eta * Real.pi ↔ _
  generalize ‖resolvent H ((w : ℂ) + I * eta) bare‖ ^ 2 = x
  generalize (e - w) ^ 2 + eta ^ 2 = Q at hQ
  have h2 : 0 < eta * Real.pi := by positivity
  constructor
  · intro h
    refine le_of_mul_le_mul_left ?_ h2
    linarith [show eta * x * (Real.pi * Q) = eta * Real.pi * (Q * x) by ring]
  · intro h
    have := mul_le_mul_of_nonneg_left h h2.le
    linarith [show eta * x * (Real.pi * Q) = eta * Real.pi * (Q * x) by ring]

/-- no weight below `e`, in terms of the operator -/
theorem emptyBelow_iff {m : Model ℝ} {b : Built ℝ} {k : ℝ} {H : States →L[ℂ] States} (h1 : IsSelfAdjoint H)
    (h3 : ∀ w eta : ℝ, 0 < eta → ∀ G, Returned m b ⟨k, w, eta⟩ G → G = green H bare (energyAt w eta)) {F : ℝ → ℝ → ℂ}
    (hF : ∀ w eta, 0 < eta → Returned m b ⟨k, w, eta⟩ (F w eta)) {e c : ℝ} (hc : ‖H‖ ≤ c) (hec : e ≤ c) :
    EmptyBelow F e ↔ ∀ j : ℕ, ‖((algebraMap ℝ (States →L[ℂ] States) c - H) ^ j) bare‖ ≤ (c - e) ^ j := by
  constructor
  · intro h
    refine powers_of_below h1 norm_bare hc hec (fun w hw eta heta => ?_)
    rw [← bound_iff h1 heta, ← h3 w eta heta _ (hF w eta heta)]
    exact h w hw.le eta heta
  · intro h w hw eta heta
    rw [h3 w eta heta _ (hF w eta heta), bound_iff h1 heta]
    exact below_of_powers h1 norm_bare hec h hw heta

/-- the powers of `c - H` on the bare electron in the weaker model are dominated by those in the stronger one -/
theorem dominated_powers {m m' : Model ℝ} {ae ae' : Int} (hm : WellFormed m ae) (hm' : WellFormed m' ae')
    (hst : Stronger m m' ae ae') {ε : ℕ → ℤˣ}
    (hε : ∀ t ∈ m'.ham.terms, (((ε t.phononIndex : ℤˣ) : ℤ) : ℝ) * t.coupling = -|t.coupling|) {k c : ℝ} (c4 : energyBound m ≤ c)
    (c5 : energyBound m' ≤ c) (j : ℕ) : Dominated m ae (fun n => unitC (occSign m'.nTypes ε n))
      (((algebraMap ℝ (States →L[ℂ] States) c - hamOp m ae k) ^ j) bare)
      (((algebraMap ℝ (States →L[ℂ] States) c - hamOp m' ae' 0) ^ j) bare) := by
  have h0 : Allowed m' ae' 0 := allowed_zero hm'.toShaped
  induction j with
  | zero =>
    refine ⟨fun n hn => ?_, fun n => ?_⟩
    · show (bare : States) n = 0
      rw [bare_apply, if_neg]
      rintro rfl
      exact hn (allowed_zero hm.toShaped)
    · show ∃ r : ℝ, ‖(bare : States) n‖ ≤ r ∧ (bare : States) n = unitC (occSign m'.nTypes ε n) * r
      rw [bare_apply]
      by_cases hn : n = 0
      · exact ⟨1, by simp [hn], by rw [if_pos hn, hn, occSign_zero]; simp⟩
      · exact ⟨0, by simp [hn], by rw [if_neg hn]; simp⟩
  | succ j ih =>
    rw [pow_succ', pow_succ']
    exact ih.step hm.toListsOk hm'.toListsOk h0 hm'.index hst hε c4 c5

/-- **C88**. The model `m'` has at least the hopping, couplings and limits of `m`, at most its frequencies, and couplings
of one sign for every phonon type. If its spectral function at zero momentum has no weight below `e`, then that of `m`
has none there at any momentum. -/
theorem C88_stronger (σ σ' : SetOrder) (m m' : Model ℝ) (ae ae' : Int) (hm : WellFormed m ae) (hm' : WellFormed m' ae')
    (b b' : Built ℝ) (hb : buildSystem σ m = .ok b) (hb' : buildSystem σ' m' = .ok b') (hp : Physical m) (hp' : Physical m')
    (hst : Stronger m m' ae ae') (hone : OneSign m') (k : ℝ) (F F' : ℝ → ℝ → ℂ)
    (hF : ∀ w eta, 0 < eta → Returned m b ⟨k, w, eta⟩ (F w eta))
    (hF' : ∀ w eta, 0 < eta → Returned m' b' ⟨0, w, eta⟩ (F' w eta)) (e : ℝ) (he : EmptyBelow F' e) : EmptyBelow F e := by
  obtain ⟨H, h1, h2, h3⟩ := C56_returned σ m ae hm b hb hp k
  obtain ⟨H', h1', h2', h3'⟩ := C56_returned σ' m' ae' hm' b' hb' hp' 0
  have hH := operator_eq hm.toListsOk h2
  have hH' := operator_eq hm'.toListsOk h2'
  obtain ⟨c, hc⟩ : ∃ c, ‖H‖ ≤ c ∧ ‖H'‖ ≤ c ∧ e ≤ c ∧ energyBound m ≤ c ∧ energyBound m' ≤ c :=
    ⟨max ‖H‖ (max ‖H'‖ (max e (max (energyBound m) (energyBound m')))), by simp⟩
  obtain ⟨c1, c2, c3, c4, c5⟩ := hc
  rw [emptyBelow_iff h1' h3' hF' c2 c3] at he
  rw [emptyBelow_iff h1 h3 hF c1 c3]
  obtain ⟨ε, hε⟩ := hone.signs
  intro j
  have h := he j
  rw [hH'] at h
  rw [hH]
  exact ((dominated_powers hm hm' hst hε c4 c5 j).norm_le (fun n => unitC_norm _)).trans h

theorem stronger_refl {m : Model ℝ} {ae : ℤ} (ht : 0 ≤ m.ham.hopping) : Stronger m m ae ae where
  types := le_rfl
  cap c h := ⟨c, h, le_rfl⟩
  window := le_rfl
  extent _ M _ h := ⟨M, h, le_rfl⟩
  number _ N _ h := ⟨N, h, le_rfl⟩
  hopping := (abs_of_nonneg ht).le
  freqs _ _ := le_rfl
  terms := ⟨_, List.Sublist.refl _, List.forall₂_same.2 (fun _ _ => ⟨rfl, rfl, rfl, rfl, le_rfl⟩)⟩

/-- **C89**. If the spectral function at zero momentum has no weight below `e`, then it has none there at any other
momentum. -/
theorem C89_center (σ : SetOrder) (m : Model ℝ) (ae : Int) (hm : WellFormed m ae) (b : Built ℝ)
    (hb : buildSystem σ m = .ok b) (hp : Physical m) (hone : OneSign m) (k : ℝ) (F F' : ℝ → ℝ → ℂ)
    (hF : ∀ w eta, 0 < eta → Returned m b ⟨k, w, eta⟩ (F w eta))
    (hF' : ∀ w eta, 0 < eta → Returned m b ⟨0, w, eta⟩ (F' w eta)) (e : ℝ) (he : EmptyBelow F' e) : EmptyBelow F e :=
  C88_stronger σ σ m m ae ae hm hm b b hb hb hp hp
    (stronger_refl (by rcases hp.lattice with h | h <;> [exact h.ge; exact h.1.le])) hone k F F' hF hF' e he

/-- C88, the edge exists: the spectral function has a lower edge, which is not above the energy `-2 t cos(k a)` of the
free electron. -/
theorem C88_edge (σ : SetOrder) (m : Model ℝ) (ae : Int) (hm : WellFormed m ae) (b : Built ℝ)
    (hb : buildSystem σ m = .ok b) (hp : Physical m) (k : ℝ) (F : ℝ → ℝ → ℂ)
    (hF : ∀ w eta, 0 < eta → Returned m b ⟨k, w, eta⟩ (F w eta)) :
    ∃ e, Edge F e ∧ e ≤ -(2 * m.ham.hopping * Real.cos (k * m.latticeConstant)) := by
  obtain ⟨H, h1, h2, h3⟩ := C56_returned σ m ae hm b hb hp k
  have hmean := mean_energy hm.toShaped h2
  set ε := -(2 * m.ham.hopping * Real.cos (k * m.latticeConstant)) with hε
  have hεH : |ε| ≤ ‖H‖ := by
    have h4 := norm_inner_le_norm (𝕜 := ℂ) bare (H bare)
    rw [hmean, Complex.norm_real, Real.norm_eq_abs, norm_bare, one_mul] at h4
    exact h4.trans ((H.le_opNorm bare).trans (by rw [norm_bare, mul_one]))
  have hup : ∀ e, EmptyBelow F e → e ≤ ε := by
    intro e he
    obtain ⟨c, hc, hec⟩ : ∃ c, ‖H‖ ≤ c ∧ e ≤ c := ⟨max ‖H‖ e, le_max_left _ _, le_max_right _ _⟩
    have h4 := (emptyBelow_iff h1 h3 hF hc hec).1 he 1
    rw [pow_one, pow_one] at h4
    have h5 : (⟪bare, (algebraMap ℝ (States →L[ℂ] States) c - H) bare⟫_ℂ).re ≤ c - e := by
      refine (Complex.re_le_norm _).trans ((norm_inner_le_norm (𝕜 := ℂ) _ _).trans ?_)
      rw [norm_bare, one_mul]
      exact h4
    have e1 : (algebraMap ℝ (States →L[ℂ] States) c - H) bare = (c : ℂ) • bare - H bare := by
      rw [sub_apply, Algebra.algebraMap_eq_smul_one]
      rfl
    rw [e1, inner_sub_right, inner_smul_right, hmean, inner_self_eq_norm_sq_to_K, norm_bare] at h5
    have e2 : (c : ℂ) * ((1 : ℝ) : ℂ) ^ 2 - (ε : ℂ) = ((c - ε : ℝ) : ℂ) := by push_cast; ring
    erw [e2, Complex.ofReal_re] at h5
    linarith
  have hlow : EmptyBelow F (-‖H‖) := by
    rw [emptyBelow_iff h1 h3 hF le_rfl (by linarith [norm_nonneg H])]
    intro j
    refine ((((algebraMap ℝ (States →L[ℂ] States) ‖H‖ - H) ^ j).le_opNorm bare)).trans ?_
    rw [norm_bare, mul_one]
    have hn : ‖algebraMap ℝ (States →L[ℂ] States) ‖H‖ - H‖ ≤ ‖H‖ - -‖H‖ := by
      refine (norm_sub_le _ _).trans ?_
      have : ‖algebraMap ℝ (States →L[ℂ] States) ‖H‖‖ ≤ ‖H‖ := by
        rw [Algebra.algebraMap_eq_smul_one]
        refine (norm_smul_le _ _).trans ?_
        rw [Real.norm_eq_abs, abs_of_nonneg (norm_nonneg H)]
        exact mul_le_of_le_one_right (norm_nonneg H) ContinuousLinearMap.norm_id_le
      linarith
    rcases Nat.eq_zero_or_pos j with rfl | hj
    · rw [pow_zero, pow_zero]; exact ContinuousLinearMap.norm_id_le
    · exact (norm_pow_le' _ hj).trans (pow_le_pow_left₀ (norm_nonneg _) hn j)
  set S := {e | EmptyBelow F e} with hS
  have hbdd : BddAbove S := ⟨ε, fun e he => hup e he⟩
  have hne : S.Nonempty := ⟨_, hlow⟩
  refine ⟨sSup S, ⟨?_, fun e' he' => le_csSup hbdd he'⟩, csSup_le hne (fun e he => hup e he)⟩
  have hsup : sSup S ≤ ‖H‖ := csSup_le hne (fun e he => (hup e he).trans ((le_abs_self _).trans hεH))
  rw [emptyBelow_iff h1 h3 hF le_rfl hsup]
  intro j
  have hcl : IsClosed {x : ℝ | ‖((algebraMap ℝ (States →L[ℂ] States) ‖H‖ - H) ^ j) bare‖ ≤ (‖H‖ - x) ^ j} :=
    isClosed_le continuous_const (by fun_prop)
  refine hcl.closure_subset_iff.2 (fun x hx => ?_) (csSup_mem_closure hne hbdd)
  exact (emptyBelow_iff h1 h3 hF le_rfl ((hup x hx).trans ((le_abs_self _).trans hεH))).1 hx j

/-! ### from the user's side -/

/-- `d'` has at least the coupling and limits of `d` and at most its frequency -/
structure DomPart (d d' : Part ℝ) : Prop where
  ctype : d'.ctype = d.ctype
  freq : d'.freq ≤ d.freq
  M : d.M ≤ d'.M
  N : d.N ≤ d'.N
  g : |d.g| ≤ |d'.g|

theorem forall₂_partTerms {ds ds' : List (Part ℝ)} (h : List.Forall₂ DomPart ds ds') : ∀ i : ℕ,
    List.Forall₂ (fun h h' : SingleTerm ℝ => h'.psi = h.psi ∧ h'.phi = h.phi ∧ h'.dag = h.dag ∧
      h'.phononIndex = h.phononIndex ∧ |h.coupling| ≤ |h'.coupling|) (partTerms ds i) (partTerms ds' i) := by
  induction h with
  | nil => intro i; simp [partTerms]
  | cons h1 _ ih =>
    intro i
    rename_i d d' l l' _
    rw [partTerms_cons, partTerms_cons]
    refine List.rel_append ?_ (ih (i + 1))
    unfold termsOf
    rw [h1.ctype, List.forall₂_map_left_iff, List.forall₂_map_right_iff, List.forall₂_same]
    intro x _
    refine ⟨rfl, rfl, rfl, rfl, ?_⟩
    show |if x.2.2.2 then d.g else -d.g| ≤ |if x.2.2.2 then d'.g else -d'.g|
    split <;> simpa using h1.g

theorem forall₂_getElem? {α β : Type} {r : α → β → Prop} {l : List α} {l' : List β} (h : List.Forall₂ r l l') {t : ℕ} {y : β}
    (hy : l'[t]? = some y) : ∃ x, l[t]? = some x ∧ r x y := by
  induction h generalizing t with
  | nil => simp at hy
  | cons h1 _ ih =>
    cases t with
    | zero => simp only [List.getElem?_cons_zero, Option.some.injEq] at hy; subst hy; exact ⟨_, by simp, h1⟩
    | succ t => simpa using ih (by simpa using hy)

theorem blueprint_stronger {hopping hopping' lattice lattice' T T' : ℝ} {cap cap' : Option Int} {ds ds' es : List (Part ℝ)}
    {ae ae' : ℤ} (ht : |hopping| ≤ hopping') (hcap : Looser cap cap') (hd : List.Forall₂ DomPart ds ds')
    (h : (blueprint hopping lattice T cap ds).absExtent = some ae)
    (h' : (blueprint hopping' lattice' T' cap' (ds' ++ es)).absExtent = some ae') :
    Stronger (blueprint hopping lattice T cap ds) (blueprint hopping' lattice' T' cap' (ds' ++ es)) ae ae' := by
  have hlen := hd.length_eq
  have key : ∀ t d', t < ds.length → (ds' ++ es)[t]? = some d' → ∃ d, ds[t]? = some d ∧ DomPart d d' := by
    intro t d' ht' he
    rw [List.getElem?_append_left (by omega)] at he
    exact forall₂_getElem? hd he
  refine ⟨by simp [blueprint, hlen], hcap, ?_, ?_, ?_, ht, ?_, ?_⟩
  · simp only [Model.absExtent, blueprint] at h h'
    have h1 : ae ∈ ds.map (·.M) := List.max?_mem h
    obtain ⟨t, hlt, he⟩ := List.mem_iff_getElem.1 h1
    have hlt' : t < ds.length := by simpa using hlt
    have ht'' : t < (ds' ++ es).length := by simp; omega
    obtain ⟨d, e1, e2⟩ := key t _ hlt' (List.getElem?_eq_getElem ht'')
    have : (ds' ++ es)[t].M ≤ ae' := (List.max?_eq_some_iff.1 h').2 _ (List.mem_map.2 ⟨_, List.getElem_mem ht'', rfl⟩)
    have e3 : ae = d.M := by
      rw [← he, List.getElem_map]
      rw [List.getElem?_eq_getElem hlt'] at e1
      rw [Option.some.inj e1]
    rw [e3]
    exact e2.M.trans this
  · intro t M' hlt he
    simp only [blueprint, List.getElem?_map, Option.map_eq_some_iff] at he ⊢
    obtain ⟨d', e1, rfl⟩ := he
    obtain ⟨d, e2, e3⟩ := key t d' hlt e1
    exact ⟨d.M, ⟨d, e2, rfl⟩, e3.M⟩
  · intro t M' hlt he
    simp only [blueprint, List.getElem?_map, Option.map_eq_some_iff] at he ⊢
    obtain ⟨d', e1, rfl⟩ := he
    obtain ⟨d, e2, e3⟩ := key t d' hlt e1
    exact ⟨d.N, ⟨d, e2, rfl⟩, e3.N⟩
  · intro t hlt
    have hlt' : t < ds.length := hlt
    have ht'' : t < (ds' ++ es).length := by simp; omega
    obtain ⟨d, e2, e3⟩ := key t _ hlt (List.getElem?_eq_getElem ht'')
    simp only [blueprint, List.getD_eq_getElem?_getD, List.getElem?_map]
    rw [e2, List.getElem?_eq_getElem ht'']
    exact e3.freq
  · refine ⟨partTerms ds' 0, ?_, forall₂_partTerms hd 0⟩
    show (partTerms ds' 0).Sublist (partTerms (ds' ++ es) 0)
    rw [partTerms_append]
    exact List.sublist_append_left _ _

theorem termsOf_oneSign {ct : String} (hct : ct ≠ "Peierls") {g f : ℝ} {i : ℕ} {h h' : SingleTerm ℝ} (hh : h ∈ termsOf ct g i f)
    (hh' : h' ∈ termsOf ct g i f) : h.coupling = h'.coupling := by
  unfold termsOf termShapes at hh hh'
  split at hh
  · rw [if_pos ‹_›] at hh'
    simp at hh hh'
    rcases hh with rfl | rfl <;> rcases hh' with rfl | rfl <;> rfl
  · rw [if_neg ‹_›] at hh'
    split at hh
    · rw [if_pos ‹_›] at hh'
      simp at hh hh'
      rcases hh with rfl | rfl | rfl | rfl <;> rcases hh' with rfl | rfl | rfl | rfl <;> rfl
    · rw [if_neg ‹_›] at hh'
      split at hh
      · rw [if_pos ‹_›] at hh'
        simp at hh hh'
        rcases hh with rfl | rfl | rfl | rfl <;> rcases hh' with rfl | rfl | rfl | rfl <;> rfl
      · simp at hh

theorem partTerms_oneSign : ∀ (ds : List (Part ℝ)) (i : ℕ), (∀ d ∈ ds, d.ctype ≠ "Peierls") → ∀ h ∈ partTerms ds i,
    ∀ h' ∈ partTerms ds i, h.phononIndex = h'.phononIndex → 0 ≤ h.coupling * h'.coupling
  | [], _, _, h, hh, _, _, _ => by simp [partTerms] at hh
  | d :: ds, i, hd, h, hh, h', hh', e => by
    rw [partTerms_cons, List.mem_append] at hh hh'
    rcases hh with hh | hh <;> rcases hh' with hh' | hh'
    · rw [termsOf_oneSign (hd d (by simp)) hh hh']
      exact mul_self_nonneg _
    · have := termsOf_index hh; have := index_partTerms hh'; omega
    · have := termsOf_index hh'; have := index_partTerms hh; omega
    · exact partTerms_oneSign ds (i + 1) (fun d hd' => hd d (List.mem_cons_of_mem _ hd')) h hh h' hh' e

theorem parts_ctype {P : Prims ℝ} {hopping T : ℝ} {as : List (AddArgs ℝ)} {d : Part ℝ} (hd : d ∈ parts P hopping T as) :
    ∃ a ∈ as, d.ctype = a.ctype := by
  unfold parts at hd
  obtain ⟨a, ha, hd⟩ := List.mem_flatMap.1 hd
  refine ⟨a, ha, ?_⟩
  unfold partsAt at hd
  split at hd
  · simp at hd
    rcases hd with rfl | rfl <;> rfl
  · simp at hd
    rw [hd]

theorem oneSign_blueprint {P : Prims ℝ} {hopping hopping' lattice T : ℝ} {cap : Option Int} {as : List (AddArgs ℝ)}
    (h : ∀ a ∈ as, a.ctype ≠ "Peierls") : OneSign (blueprint hopping' lattice T cap (parts P hopping T as)) := by
  refine partTerms_oneSign _ 0 (fun d hd => ?_)
  obtain ⟨a, ha, e⟩ := parts_ctype hd
  rw [e]
  exact h a ha

theorem edges_of {σ σ' : SetOrder} {m m' : Model ℝ} {ae ae' : Int} (hm : WellFormed m ae) (hm' : WellFormed m' ae')
    {b b' : Built ℝ} (hb : buildSystem σ m = .ok b) (hb' : buildSystem σ' m' = .ok b') (hp : Physical m) (hp' : Physical m')
    (hst : Stronger m m' ae ae') (hone : OneSign m') (k : ℝ) :
    ∃ F F' e e', (∀ w eta : ℝ, 0 < eta → Gives m b ⟨k, w, eta⟩ (F w eta)) ∧
      (∀ w eta : ℝ, 0 < eta → Gives m' b' ⟨0, w, eta⟩ (F' w eta)) ∧ Edge F e ∧ Edge F' e' ∧ e' ≤ e := by
  have hg : ∀ w eta : ℝ, ∃ G, 0 < eta → Gives m b ⟨k, w, eta⟩ G := fun w eta => by
    by_cases heta : 0 < eta
    · obtain ⟨Ψ, -, -, g1, g2⟩ := C55_exact σ m ae hm b hb hp ⟨k, w, eta⟩ heta
      exact ⟨_, fun _ => ⟨g1, g2⟩⟩
    · exact ⟨0, fun h => absurd h heta⟩
  have hg' : ∀ w eta : ℝ, ∃ G, 0 < eta → Gives m' b' ⟨0, w, eta⟩ G := fun w eta => by
    by_cases heta : 0 < eta
    · obtain ⟨Ψ, -, -, g1, g2⟩ := C55_exact σ' m' ae' hm' b' hb' hp' ⟨0, w, eta⟩ heta
      exact ⟨_, fun _ => ⟨g1, g2⟩⟩
    · exact ⟨0, fun h => absurd h heta⟩
  choose F hF using hg
  choose F' hF' using hg'
  have h1 := fun w eta heta => returned_of_gives (hF w eta heta)
  have h1' := fun w eta heta => returned_of_gives (hF' w eta heta)
  obtain ⟨e, he, -⟩ := C88_edge σ m ae hm b hb hp k F h1
  obtain ⟨e', he', -⟩ := C88_edge σ' m' ae' hm' b' hb' hp' 0 F' h1'
  exact ⟨F, F', e, e', fun w eta h => hF w eta h, fun w eta h => hF' w eta h, he, he',
    he.2 e' (C88_stronger σ σ' m m' ae ae' hm hm' b b' hb hb' hp hp' hst hone k F F' h1 h1' e' he'.1)⟩

theorem dom_parts {hopping hopping' : ℝ} {as as' : List (AddArgs ℝ)} (h : List.Forall₂ Surpassed as as')
    (hc : ∀ a ∈ as, OneStrength a) (hc' : ∀ a ∈ as', OneStrength a) :
    List.Forall₂ DomPart (parts realPrims hopping 0 as) (parts realPrims hopping' 0 as') := by
  induction h with
  | nil => simp [parts]
  | cons h1 _ ih =>
    rename_i a a' l l' _
    have e : ∀ {hop : ℝ} {x : AddArgs ℝ} {g : ℝ}, OneStrength x → x.g = some g →
        partsAt realPrims hop 0 x = [⟨x.ctype, x.freq, x.M, x.N, g⟩] := by
      intro hop x g hst hg
      have hl : x.lam = none := by
        rcases hst with ⟨g', e1, e2⟩ | ⟨g', e1, e2⟩
        · exact e2
        · rw [e2] at hg; cases hg
      have : strengthD realPrims hop x x.freq = g := strengthD_ok (by simp [Hamiltonian.strength, hl, hg])
      unfold partsAt
      rw [if_neg (lt_irrefl _), this, mul_one]
    obtain ⟨g, g', e1, e2, e3⟩ := h1.g
    rw [parts_cons, parts_cons, e (hc a (by simp)) e1, e (hc' a' (by simp)) e2]
    exact .cons ⟨h1.ctype, h1.freq, h1.M, h1.N, e3⟩
      (ih (fun x hx => hc x (List.mem_cons_of_mem _ hx)) (fun x hx => hc' x (List.mem_cons_of_mem _ hx)))

theorem enlarged_parts {hopping T : ℝ} {as as' : List (AddArgs ℝ)} (h : List.Forall₂ Enlarged as as') :
    List.Forall₂ DomPart (parts realPrims hopping T as) (parts realPrims hopping T as') := by
  induction h with
  | nil => simp [parts]
  | cons h1 _ ih =>
    rw [parts_cons, parts_cons]
    refine List.rel_append ?_ ih
    unfold partsAt strengthD
    rw [h1.ctype, h1.freq, h1.g, h1.lam]
    split
    · exact .cons ⟨rfl, le_rfl, h1.M, h1.N, le_rfl⟩ (.cons ⟨rfl, le_rfl, h1.Mtfd, h1.Ntfd, le_rfl⟩ .nil)
    · exact .cons ⟨rfl, le_rfl, h1.M, h1.N, le_rfl⟩ .nil

/-- C88, from the user's side, at zero temperature: every call is repeated with at least the coupling and the limits and
at most the frequency, the hopping and the limit per site do not fall, and there may be further calls. The lower edge at
zero momentum is then not above the old one at any momentum. The couplings of the second model are not of the `Peierls`
kind, whose terms have both signs. -/
theorem C88_assembled (σ σ' : SetOrder) (hopping hopping' lattice lattice' : ℝ) (ht : hopping ≤ hopping')
    (hl : hopping = 0 ∨ (0 < hopping ∧ lattice = 1)) (hl' : hopping' = 0 ∨ (0 < hopping' ∧ lattice' = 1))
    (cap cap' : Option Int) (hcap : ∀ c, cap = some c → 1 ≤ c) (hcap' : ∀ c, cap' = some c → 1 ≤ c) (hlo : Looser cap cap')
    (as as' extra : List (AddArgs ℝ)) (hsur : List.Forall₂ Surpassed as as') (hne : as ≠ [])
    (hc : Clean realPrims hopping 0 as) (hc' : Clean realPrims hopping' 0 (as' ++ extra))
    (hf : ((modes 0 as).map (·.freq)).Nodup) (hf' : ((modes 0 (as' ++ extra)).map (·.freq)).Nodup)
    (hb : (∀ a ∈ as, a.ctype = "BondPeierls") ∨ (∀ a ∈ as, a.ctype ≠ "BondPeierls"))
    (hb' : (∀ a ∈ as' ++ extra, a.ctype = "BondPeierls") ∨ (∀ a ∈ as' ++ extra, a.ctype ≠ "BondPeierls"))
    (hs : ∀ a ∈ as' ++ extra, a.ctype ≠ "Peierls") :
    ∃ m b m' b', (Model.fromParameters hopping lattice 0 cap 1).adds realPrims as = .ok m ∧
      (Model.fromParameters hopping' lattice' 0 cap' 1).adds realPrims (as' ++ extra) = .ok m' ∧
      buildSystem σ m = .ok b ∧ buildSystem σ' m' = .ok b' ∧
      ∀ k : ℝ, ∃ F F' e e', (∀ w eta : ℝ, 0 < eta → Gives m b ⟨k, w, eta⟩ (F w eta)) ∧
        (∀ w eta : ℝ, 0 < eta → Gives m' b' ⟨0, w, eta⟩ (F' w eta)) ∧ Edge F e ∧ Edge F' e' ∧ e' ≤ e := by
  have hne' : as' ++ extra ≠ [] := by
    intro h
    rw [List.append_eq_nil_iff] at h
    rw [h.1] at hsur; cases hsur; exact hne rfl
  obtain ⟨m, b, h1, ⟨ae, h2⟩, h3⟩ := C16_assembled σ realPrims C42_names hopping lattice 0 cap hcap as hne hc hf hb
  obtain ⟨m', b', k1, ⟨ae', k2⟩, k3⟩ :=
    C16_assembled σ' realPrims C42_names hopping' lattice' 0 cap' hcap' (as' ++ extra) hne' hc' hf' hb'
  refine ⟨m, b, m', b', h1, k1, h3, k3, ?_⟩
  have hp := physical_assembled h1 hb hl
  have hp' := physical_assembled k1 hb' hl'
  rw [fromParameters_blueprint hopping lattice 0 cap as hc hf] at h1
  rw [fromParameters_blueprint hopping' lattice' 0 cap' (as' ++ extra) hc' hf'] at k1
  cases h1
  cases k1
  have ht0 : 0 ≤ hopping := by rcases hl with h | h <;> [exact h.ge; exact h.1.le]
  have e := k2.absExtent
  have happ : parts realPrims hopping' 0 (as' ++ extra) = parts realPrims hopping' 0 as' ++ parts realPrims hopping' 0 extra := by
    unfold parts; rw [List.flatMap_append]
  rw [happ] at e
  have hst := blueprint_stronger (by rw [abs_of_nonneg ht0]; exact ht) hlo
    (dom_parts hsur (fun a ha => (hc.valid a ha).strength) (fun a ha => (hc'.valid a (List.mem_append_left _ ha)).strength))
    h2.absExtent e
  rw [← happ] at hst
  exact edges_of h2 k2 h3 k3 hp hp' hst (oneSign_blueprint hs)

/-- C88, from the user's side, at any temperature: raising the limits never raises the lower edge at zero momentum. -/
theorem C88_limits (σ σ' : SetOrder) (hopping lattice T : ℝ) (hl : hopping = 0 ∨ (0 < hopping ∧ lattice = 1))
    (cap cap' : Option Int) (hcap : ∀ c, cap = some c → 1 ≤ c) (hcap' : ∀ c, cap' = some c → 1 ≤ c) (hlo : Looser cap cap')
    (as as' : List (AddArgs ℝ)) (henl : List.Forall₂ Enlarged as as') (hne : as ≠ [])
    (hc : Clean realPrims hopping T as) (hc' : Clean realPrims hopping T as')
    (hf : ((modes T as).map (·.freq)).Nodup) (hf' : ((modes T as').map (·.freq)).Nodup)
    (hb : (∀ a ∈ as, a.ctype = "BondPeierls") ∨ (∀ a ∈ as, a.ctype ≠ "BondPeierls"))
    (hb' : (∀ a ∈ as', a.ctype = "BondPeierls") ∨ (∀ a ∈ as', a.ctype ≠ "BondPeierls"))
    (hs : ∀ a ∈ as', a.ctype ≠ "Peierls") :
    ∃ m b m' b', (Model.fromParameters hopping lattice T cap 1).adds realPrims as = .ok m ∧
      (Model.fromParameters hopping lattice T cap' 1).adds realPrims as' = .ok m' ∧
      buildSystem σ m = .ok b ∧ buildSystem σ' m' = .ok b' ∧
      ∀ k : ℝ, ∃ F F' e e', (∀ w eta : ℝ, 0 < eta → Gives m b ⟨k, w, eta⟩ (F w eta)) ∧
        (∀ w eta : ℝ, 0 < eta → Gives m' b' ⟨0, w, eta⟩ (F' w eta)) ∧ Edge F e ∧ Edge F' e' ∧ e' ≤ e := by
  have hne' : as' ≠ [] := by
    intro h; rw [h] at henl; cases henl; exact hne rfl
  obtain ⟨m, b, h1, ⟨ae, h2⟩, h3⟩ := C16_assembled σ realPrims C42_names hopping lattice T cap hcap as hne hc hf hb
  obtain ⟨m', b', k1, ⟨ae', k2⟩, k3⟩ :=
    C16_assembled σ' realPrims C42_names hopping lattice T cap' hcap' as' hne' hc' hf' hb'
  refine ⟨m, b, m', b', h1, k1, h3, k3, ?_⟩
  have hp := physical_assembled h1 hb hl
  have hp' := physical_assembled k1 hb' hl
  rw [fromParameters_blueprint hopping lattice T cap as hc hf] at h1
  rw [fromParameters_blueprint hopping lattice T cap' as' hc' hf'] at k1
  cases h1
  cases k1
  have ht0 : 0 ≤ hopping := by rcases hl with h | h <;> [exact h.ge; exact h.1.le]
  have hst := blueprint_stronger (es := []) (lattice := lattice) (lattice' := lattice) (T := T) (T' := T)
    (by rw [abs_of_nonneg ht0]) hlo (enlarged_parts henl) h2.absExtent (by rw [List.append_nil]; exact k2.absExtent)
  rw [List.append_nil] at hst
  exact edges_of h2 k2 h3 k3 hp hp' hst (oneSign_blueprint hs)

/-- **C89**, from the user's side, at any temperature: without `Peierls` couplings the lower edge is lowest at zero momentum,
and nowhere above the free band. -/
theorem C89_assembled (σ : SetOrder) (hopping lattice T : ℝ) (hl : hopping = 0 ∨ (0 < hopping ∧ lattice = 1))
    (cap : Option Int) (hcap : ∀ c, cap = some c → 1 ≤ c) (as : List (AddArgs ℝ)) (hne : as ≠ [])
    (hc : Clean realPrims hopping T as) (hf : ((modes T as).map (·.freq)).Nodup)
    (hb : (∀ a ∈ as, a.ctype = "BondPeierls") ∨ (∀ a ∈ as, a.ctype ≠ "BondPeierls"))
    (hs : ∀ a ∈ as, a.ctype ≠ "Peierls") :
    ∃ m b, (Model.fromParameters hopping lattice T cap 1).adds realPrims as = .ok m ∧ buildSystem σ m = .ok b ∧
      ∃ (F : ℝ → ℝ → ℝ → ℂ) (E : ℝ → ℝ), (∀ k w eta : ℝ, 0 < eta → Gives m b ⟨k, w, eta⟩ (F k w eta)) ∧
        (∀ k, Edge (F k) (E k)) ∧ ∀ k, E 0 ≤ E k ∧ E k ≤ -(2 * hopping * Real.cos (k * lattice)) := by
  obtain ⟨m, b, h1, ⟨ae, h2⟩, h3⟩ := C16_assembled σ realPrims C42_names hopping lattice T cap hcap as hne hc hf hb
  refine ⟨m, b, h1, h3, ?_⟩
  have hp := physical_assembled h1 hb hl
  rw [fromParameters_blueprint hopping lattice T cap as hc hf] at h1
  cases h1
  have hg : ∀ k w eta : ℝ, ∃ G, 0 < eta →
      Gives (blueprint hopping lattice T cap (parts realPrims hopping T as)) b ⟨k, w, eta⟩ G := fun k w eta => by
    by_cases heta : 0 < eta
    · obtain ⟨Ψ, -, -, g1, g2⟩ := C55_exact σ _ ae h2 b h3 hp ⟨k, w, eta⟩ heta
      exact ⟨_, fun _ => ⟨g1, g2⟩⟩
    · exact ⟨0, fun h => absurd h heta⟩
  choose F hF using hg
  have hF' := fun k w eta heta => returned_of_gives (hF k w eta heta)
  choose E hE using fun k => C88_edge σ _ ae h2 b h3 hp k (F k) (hF' k)
  exact ⟨F, E, fun k w eta h => hF k w eta h, fun k => (hE k).1, fun k =>
    ⟨(hE k).1.2 _ (C89_center σ _ ae h2 b h3 hp (oneSign_blueprint hs) k (F k) (F 0) (hF' k) (hF' 0) _ (hE 0).1.1), (hE k).2⟩⟩

/-! ### the hypotheses are met -/

/-- a Holstein coupling -/
noncomputable def exWeak : List (AddArgs ℝ) := [{ ctype := "Holstein", freq := 2, M := 2, N := 3, g := some (1 / 2) }]

/-- a stronger coupling of the other sign, to a softer phonon, with higher limits -/
noncomputable def exStrong : List (AddArgs ℝ) := [{ ctype := "Holstein", freq := 3 / 2, M := 3, N := 4, g := some (-1) }]

/-- one more coupling -/
noncomputable def exExtra : List (AddArgs ℝ) := [{ ctype := "EdwardsFermionBoson", freq := 1, M := 2, N := 2, g := some 1 }]

theorem exWeak_clean : Clean realPrims 1 0 exWeak ∧ ((modes 0 exWeak).map (·.freq)).Nodup := by
  have hc : Clean realPrims 1 0 exWeak := by
    constructor <;> intro a ha <;> simp only [exWeak, List.mem_cons, List.not_mem_nil, or_false] at ha <;> subst ha
    all_goals first
      | rfl
      | (simp [Known]; done)
      | (simp [Defined]; done)
      | (constructor <;> simp [OneStrength])
  refine ⟨hc, ?_⟩
  rw [modes_of_clean hc]
  simp [exWeak, modesAt]

theorem exStrong_clean : Clean realPrims 2 0 (exStrong ++ exExtra) ∧ ((modes 0 (exStrong ++ exExtra)).map (·.freq)).Nodup := by
  have hc : Clean realPrims 2 0 (exStrong ++ exExtra) := by
    constructor <;> intro a ha <;>
      simp only [exStrong, exExtra, List.mem_cons, List.not_mem_nil, or_false, List.cons_append, List.nil_append] at ha <;>
      rcases ha with rfl | rfl
    all_goals first
      | rfl
      | (simp [Known])
      | (simp [Defined])
      | (constructor <;> simp [OneStrength])
  refine ⟨hc, ?_⟩
  rw [modes_of_clean hc]
  norm_num [exStrong, exExtra, modesAt]

/-- C88 compares the two models. -/
example (σ σ' : SetOrder) : ∃ m b m' b', (Model.fromParameters (1 : ℝ) 1 0 (some 2) 1).adds realPrims exWeak = .ok m ∧
    (Model.fromParameters (2 : ℝ) 1 0 none 1).adds realPrims (exStrong ++ exExtra) = .ok m' ∧
    buildSystem σ m = .ok b ∧ buildSystem σ' m' = .ok b' ∧
    ∀ k : ℝ, ∃ F F' e e', (∀ w eta : ℝ, 0 < eta → Gives m b ⟨k, w, eta⟩ (F w eta)) ∧
      (∀ w eta : ℝ, 0 < eta → Gives m' b' ⟨0, w, eta⟩ (F' w eta)) ∧ Edge F e ∧ Edge F' e' ∧ e' ≤ e := by
  obtain ⟨h1, h2⟩ := exWeak_clean
  obtain ⟨k1, k2⟩ := exStrong_clean
  exact C88_assembled σ σ' 1 2 1 1 (by norm_num) (Or.inr (by norm_num)) (Or.inr (by norm_num)) (some 2) none
    (by simp) (by simp) (by intro c h; cases h) exWeak exStrong exExtra
    (.cons ⟨rfl, ⟨_, _, rfl, rfl, by norm_num [abs_of_nonneg, abs_of_nonpos]⟩, by norm_num, by norm_num, by norm_num⟩ .nil)
    (by simp [exWeak]) h1 k1 h2 k2 (Or.inr (by simp [exWeak])) (Or.inr (by simp [exStrong, exExtra]))
    (by simp [exStrong, exExtra])

/-- C89 applies to a BondPeierls model at finite temperature. -/
example (σ : SetOrder) : ∃ m b, (Model.fromParameters (1 : ℝ) 1 1 none 1).adds realPrims exBondCalls = .ok m ∧
    buildSystem σ m = .ok b ∧ ∃ (F : ℝ → ℝ → ℝ → ℂ) (E : ℝ → ℝ),
      (∀ k w eta : ℝ, 0 < eta → Gives m b ⟨k, w, eta⟩ (F k w eta)) ∧
      (∀ k, Edge (F k) (E k)) ∧ ∀ k, E 0 ≤ E k ∧ E k ≤ -(2 * 1 * Real.cos (k * 1)) := by
  obtain ⟨h1, h2, h3⟩ := exBondCalls_clean
  exact C89_assembled σ 1 1 1 (Or.inr (by norm_num)) none (by simp) exBondCalls (by simp [exBondCalls]) h1 h2 (Or.inl h3)
    (by simp [exBondCalls])

/-- the calls of `exBondCalls` with higher limits -/
noncomputable def exBondMore : List (AddArgs ℝ) :=
  [{ ctype := "BondPeierls", freq := 2, M := 3, N := 3, Mtfd := some 2, Ntfd := some 4, g := some 1 }]

/-- C88 for higher limits applies at finite temperature. -/
example (σ σ' : SetOrder) : ∃ m b m' b', (Model.fromParameters (1 : ℝ) 1 1 none 1).adds realPrims exBondCalls = .ok m ∧
    (Model.fromParameters (1 : ℝ) 1 1 none 1).adds realPrims exBondMore = .ok m' ∧
    buildSystem σ m = .ok b ∧ buildSystem σ' m' = .ok b' ∧
    ∀ k : ℝ, ∃ F F' e e', (∀ w eta : ℝ, 0 < eta → Gives m b ⟨k, w, eta⟩ (F w eta)) ∧
      (∀ w eta : ℝ, 0 < eta → Gives m' b' ⟨0, w, eta⟩ (F' w eta)) ∧ Edge F e ∧ Edge F' e' ∧ e' ≤ e := by
  obtain ⟨h1, h2, h3⟩ := exBondCalls_clean
  have hc : Clean realPrims 1 1 exBondMore := by
    constructor <;> intro a ha <;> simp only [exBondMore, List.mem_cons, List.not_mem_nil, or_false] at ha <;>
      subst ha
    all_goals first
      | rfl
      | (simp [Known])
      | (simp [Defined])
      | (constructor <;> simp [OneStrength])
  have hf : ((modes 1 exBondMore).map (·.freq)).Nodup := by
    rw [modes_of_clean hc]
    simp [exBondMore, modesAt]
    norm_num
  exact C88_limits σ σ' 1 1 1 (Or.inr (by norm_num)) none none (by simp) (by simp) (by intro c h; cases h) exBondCalls exBondMore
    (.cons ⟨rfl, rfl, rfl, rfl, by norm_num, by norm_num, by simp, by simp⟩ .nil)
    (by simp [exBondCalls]) h1 hc h2 hf (Or.inl h3) (Or.inl (by simp [exBondMore])) (by simp [exBondMore])

end GGCE.Props
