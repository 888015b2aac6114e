import Verif.Spec.Concave
import Verif.Proofs.Concave
import Verif.Props.Edge

/-!
Property C118: the lower edge of the spectrum at zero momentum, the polaron energy, is a concave function of the hopping,
the frequencies and the couplings.
-/

set_option linter.unusedSectionVars false

namespace GGCE.Props
open Spec Arr Complex

theorem mix_oneSign {θ : ℝ} (h0 : 0 ≤ θ) (h1 : θ ≤ 1) (m m' : Model ℝ) : OneSign (mix θ m m') := by
  have key : ∀ h ∈ (mix θ m m').ham.terms, h.coupling ≤ 0 := by
    intro h hh
    have e : (mix θ m m').ham.terms = List.zipWith (fun h h' : SingleTerm ℝ =>
        { h with coupling := -(θ * |h.coupling| + (1 - θ) * |h'.coupling|) }) m.ham.terms m'.ham.terms := rfl
    rw [e] at hh
    generalize m.ham.terms = l at hh
    generalize m'.ham.terms = l' at hh
    induction l generalizing l' with
    | nil => simp at hh
    | cons a l ih =>
      cases l' with
      | nil => simp at hh
      | cons a' l' =>
        rw [List.zipWith_cons_cons, List.mem_cons] at hh
        rcases hh with rfl | hh
        · have : 0 ≤ θ * |a.coupling| + (1 - θ) * |a'.coupling| :=
            add_nonneg (mul_nonneg h0 (abs_nonneg _)) (mul_nonneg (by linarith) (abs_nonneg _))
          show -(θ * |a.coupling| + (1 - θ) * |a'.coupling|) ≤ 0
          linarith
        · exact ih l' hh
  intro h hh h' hh' _
  exact mul_nonneg_of_nonpos_of_nonpos (key h hh) (key h' hh')

theorem mix_index {θ : ℝ} {m m' : Model ℝ} (hi : ∀ h ∈ m.ham.terms, h.phononIndex < m.nTypes) :
    ∀ h ∈ (mix θ m m').ham.terms, h.phononIndex < (mix θ m m').nTypes := by
  intro h hh
  have e : (mix θ m m').ham.terms = List.zipWith (fun h h' : SingleTerm ℝ =>
      { h with coupling := -(θ * |h.coupling| + (1 - θ) * |h'.coupling|) }) m.ham.terms m'.ham.terms := rfl
  show h.phononIndex < m.nTypes
  rw [e] at hh
  generalize m.ham.terms = l at hh hi
  generalize m'.ham.terms = l' at hh
  induction l generalizing l' with
  | nil => simp at hh
  | cons a l ih =>
    cases l' with
    | nil => simp at hh
    | cons a' l' =>
      rw [List.zipWith_cons_cons, List.mem_cons] at hh
      rcases hh with rfl | hh
      · exact hi a (by simp)
      · exact ih (fun x hx => hi x (List.mem_cons_of_mem _ hx)) l' hh

theorem physical_hopping {m : Model ℝ} (hp : Physical m) : 0 ≤ m.ham.hopping := by
  rcases hp.lattice with h | h <;> [exact h.ge; exact h.1.le]

theorem tilt_selfAdjoint {m : Model ℝ} {ae : ℤ} (hm : ListsOk m) (hp : Physical m) (c : ℝ) :
    IsSelfAdjoint (algebraMap ℝ (States →L[ℂ] States) c - hamOp (tilt m) ae 0) := by
  obtain ⟨d, hs⟩ := hp.shifts
  have hs' : ShiftsOk (tilt m) d := by
    intro h hh
    have e : (tilt m).ham.terms = m.ham.terms.map (fun h => { h with coupling := -|h.coupling| }) := rfl
    rw [e] at hh
    obtain ⟨h', hh', rfl⟩ := List.mem_map.1 hh
    exact hs h' hh'
  exact shift_selfAdjoint (hamOp_selfAdjoint (tilt_lists hm) hs' (tilt_adjoint hp.adj)) c

/-- the growth of the powers of `c - H` on the state without phonons, with the couplings made negative -/
theorem tilt_powers {m : Model ℝ} {ae : ℤ} (hm : WellFormed m ae) (hp : Physical m) (hone : OneSign m) {c : ℝ}
    (hc : energyBound m ≤ c) (j : ℕ) :
    ‖((algebraMap ℝ (States →L[ℂ] States) c - hamOp (tilt m) ae 0) ^ j) bare‖ ≤
      ‖((algebraMap ℝ (States →L[ℂ] States) c - hamOp m ae 0) ^ j) bare‖ :=
  stronger_powers (tilt_lists hm.toListsOk) hm.toListsOk (tilt_allowed.2 (allowed_zero hm.toShaped)) (allowed_zero hm.toShaped)
    hm.index (stronger_tilt (physical_hopping hp)) hone 0 hc hc j

/-- A model `x` that binds at most as strongly as the weighted mean of `m` and `m'` has no weight below the weighted mean of
their edges. -/
theorem concave_empty {σ σ' τ : SetOrder} {m m' x : Model ℝ} {ae aex : ℤ} (hm : WellFormed m ae) (hm' : WellFormed m' ae)
    (hx : WellFormed x aex) {b b' bx : Built ℝ} (hb : buildSystem σ m = .ok b) (hb' : buildSystem σ' m' = .ok b')
    (hbx : buildSystem τ x = .ok bx) (hp : Physical m) (hp' : Physical m') (hpx : Physical x) (hs : SameShape m m')
    (hs' : SameShape m' m) (hone : OneSign m) (hone' : OneSign m') (htz : m.ham.hopping = 0 ↔ m'.ham.hopping = 0)
    (hg : List.Forall₂ (fun h h' : SingleTerm ℝ => h.coupling = 0 → h'.coupling = 0) m.ham.terms m'.ham.terms)
    (hg' : List.Forall₂ (fun h h' : SingleTerm ℝ => h.coupling = 0 → h'.coupling = 0) m'.ham.terms m.ham.terms)
    {θ : ℝ} (h0 : 0 ≤ θ) (h1 : θ ≤ 1) (hst : Stronger x (mix θ m m') aex ae) (k : ℝ) {F F' Fx : ℝ → ℝ → ℂ}
    (hF : ∀ w eta, 0 < eta → Returned m b ⟨0, w, eta⟩ (F w eta))
    (hF' : ∀ w eta, 0 < eta → Returned m' b' ⟨0, w, eta⟩ (F' w eta))
    (hFx : ∀ w eta, 0 < eta → Returned x bx ⟨k, w, eta⟩ (Fx w eta)) {e e' : ℝ} (he : EmptyBelow F e) (he' : EmptyBelow F' e') :
    EmptyBelow Fx (θ * e + (1 - θ) * e') := by
  obtain ⟨H, s1, s2, s3⟩ := C56_returned σ m ae hm b hb hp 0
  obtain ⟨H', s1', s2', s3'⟩ := C56_returned σ' m' ae hm' b' hb' hp' 0
  obtain ⟨X, x1, x2, x3⟩ := C56_returned τ x aex hx bx hbx hpx k
  have hH := operator_eq hm.toListsOk s2
  have hH' := operator_eq hm'.toListsOk s2'
  have hX := operator_eq hx.toListsOk x2
  obtain ⟨c, c1, c2, c3, c4, c5, c6, c7, c8, c9, c10⟩ : ∃ c, ‖H‖ ≤ c ∧ ‖H'‖ ≤ c ∧ ‖X‖ ≤ c ∧ e ≤ c ∧ e' ≤ c ∧
      θ * e + (1 - θ) * e' ≤ c ∧ energyBound m + 1 ≤ c ∧ energyBound m' + 1 ≤ c ∧ energyBound x ≤ c ∧
      energyBound (mix θ m m') ≤ c :=
    ⟨max ‖H‖ (max ‖H'‖ (max ‖X‖ (max e (max e' (max (θ * e + (1 - θ) * e') (max (energyBound m + 1)
      (max (energyBound m' + 1) (max (energyBound x) (energyBound (mix θ m m')))))))))), by simp⟩
  rw [emptyBelow_iff s1 s3 hF c1 c4, hH] at he
  rw [emptyBelow_iff s1' s3' hF' c2 c5, hH'] at he'
  rw [emptyBelow_iff x1 x3 hFx c3 c6, hX]
  obtain ⟨C, q1, q2⟩ := exists_ratio (ae := ae) hm.toListsOk hm'.toListsOk hs (c := c) (by linarith) (physical_hopping hp) htz.1 hg
  obtain ⟨C', q1', q2'⟩ := exists_ratio (ae := ae) hm'.toListsOk hm.toListsOk hs' (c := c) (by linarith) (physical_hopping hp')
    htz.2 hg'
  intro j
  have hz := allowed_zero hm.toShaped
  refine (stronger_powers hx.toListsOk (mix_lists hm.toListsOk) (allowed_zero hx.toShaped) (mix_allowed.2 hz) (mix_index hm.index)
    hst (mix_oneSign h0 h1 m m') k c9 c10 j).trans ?_
  rw [hamOp_mix hm.toListsOk hm'.toListsOk hs c]
  have := mean_powers (tilt_selfAdjoint hm.toListsOk hp c) (tilt_selfAdjoint hm'.toListsOk hp' c)
    (posOp_tilt (ae := ae) hm.toListsOk (physical_hopping hp) (by linarith))
    (posOp_tilt (ae := ae) hm'.toListsOk (physical_hopping hp') (by linarith)) q1 q1' q2 q2' pos_bare norm_bare.le
    (r := c - e) (r' := c - e') (by linarith) (by linarith)
    (fun j => (tilt_powers hm hp hone (by linarith) j).trans (he j))
    (fun j => (tilt_powers hm' hp' hone' (by linarith) j).trans (he' j)) h0 h1 j
  rwa [show θ * (c - e) + (1 - θ) * (c - e') = c - (θ * e + (1 - θ) * e') by ring] at this

/-! ### from the calls -/

/-- the same relation between registered modes -/
structure BetweenPart (θ : ℝ) (d d' x : Part ℝ) : Prop where
  ctype : d'.ctype = d.ctype
  ctypeX : x.ctype = d.ctype
  freq : θ * d.freq + (1 - θ) * d'.freq ≤ x.freq
  M : d'.M = d.M
  N : d'.N = d.N
  Mx : x.M ≤ d.M
  Nx : x.N ≤ d.N
  zero : d.g = 0 ↔ d'.g = 0
  g : |x.g| ≤ θ * |d.g| + (1 - θ) * |d'.g|

theorem strengthD_some {hop freq : ℝ} {a : AddArgs ℝ} {g : ℝ} (hst : OneStrength a) (hg : a.g = some g) :
    strengthD realPrims hop a freq = g := by
  have hl : a.lam = none := by
    rcases hst with ⟨g', e1, e2⟩ | ⟨g', e1, e2⟩
    · exact e2
    · rw [e2] at hg; cases hg
  exact strengthD_ok (by simp [Hamiltonian.strength, hl, hg])

/-- the modes registered by three histories of calls, side by side -/
theorem between_parts {T θ hop hop' hopx : ℝ} : ∀ (qs : List (AddArgs ℝ × AddArgs ℝ × AddArgs ℝ)),
    (∀ q ∈ qs, Between T θ q.1 q.2.1 q.2.2) → (∀ q ∈ qs, OneStrength q.1 ∧ OneStrength q.2.1 ∧ OneStrength q.2.2) →
    ∃ ps : List (Part ℝ × Part ℝ × Part ℝ), parts realPrims hop T (qs.map (·.1)) = ps.map (·.1) ∧
      parts realPrims hop' T (qs.map (·.2.1)) = ps.map (·.2.1) ∧ parts realPrims hopx T (qs.map (·.2.2)) = ps.map (·.2.2) ∧
      ∀ p ∈ ps, BetweenPart θ p.1 p.2.1 p.2.2
  | [], _, _ => ⟨[], rfl, rfl, rfl, by simp⟩
  | (a, a', x) :: qs, h, hst => by
    obtain ⟨ps, e1, e2, e3, e4⟩ := between_parts (hop := hop) (hop' := hop') (hopx := hopx) qs
      (fun q hq => h q (List.mem_cons_of_mem _ hq)) (fun q hq => hst q (List.mem_cons_of_mem _ hq))
    have hb : Between T θ a a' x := h (a, a', x) (by simp)
    obtain ⟨s1, s2, s3⟩ := hst (a, a', x) (by simp)
    obtain ⟨g, g', gx, g1, g2, g3, g4, g5⟩ := hb.g
    simp only [List.map_cons, parts_cons, e1, e2, e3]
    unfold partsAt
    simp only [strengthD_some s1 g1, strengthD_some s2 g2, strengthD_some s3 g3]
    by_cases hT : 0 < T
    · simp only [if_pos hT]
      obtain ⟨w1, w2, w3, w4, w5, w6⟩ := hb.warm hT
      have key : ∀ y : ℝ, (g * y = 0 ↔ g' * y = 0) ∧ |gx * y| ≤ θ * |g * y| + (1 - θ) * |g' * y| := by
        intro y
        refine ⟨by rw [mul_eq_zero, mul_eq_zero, g4], ?_⟩
        rw [abs_mul, abs_mul, abs_mul]
        have := mul_le_mul_of_nonneg_right g5 (abs_nonneg y)
        linarith
      refine ⟨(⟨a.ctype, a.freq, a.M, a.N, g * (realPrims.tfd T a.freq).1⟩, ⟨a'.ctype, a'.freq, a'.M, a'.N, g' * (realPrims.tfd T a'.freq).1⟩,
          ⟨x.ctype, x.freq, x.M, x.N, gx * (realPrims.tfd T x.freq).1⟩) ::
        (⟨a.ctype, -a.freq, a.Mtfd.getD 0, a.Ntfd.getD 0, g * (realPrims.tfd T a.freq).2⟩,
          ⟨a'.ctype, -a'.freq, a'.Mtfd.getD 0, a'.Ntfd.getD 0, g' * (realPrims.tfd T a'.freq).2⟩,
          ⟨x.ctype, -x.freq, x.Mtfd.getD 0, x.Ntfd.getD 0, gx * (realPrims.tfd T x.freq).2⟩) :: ps, rfl, rfl, rfl, ?_⟩
      intro p hp
      rw [List.mem_cons, List.mem_cons] at hp
      rcases hp with rfl | rfl | hp
      · refine ⟨hb.ctype, hb.ctypeX, hb.freq, hb.M, hb.N, hb.Mx, hb.Nx, ?_, ?_⟩
        · simp only [w1]; exact (key _).1
        · simp only [w1, w2]; exact (key _).2
      · refine ⟨hb.ctype, hb.ctypeX, ?_, w3, w4, w5, w6, ?_, ?_⟩
        · simp only [w1, w2]; linarith
        · simp only [w1]; exact (key _).1
        · simp only [w1, w2]; exact (key _).2
      · exact e4 p hp
    · simp only [if_neg hT, mul_one]
      refine ⟨(⟨a.ctype, a.freq, a.M, a.N, g⟩, ⟨a'.ctype, a'.freq, a'.M, a'.N, g'⟩, ⟨x.ctype, x.freq, x.M, x.N, gx⟩) :: ps,
        rfl, rfl, rfl, ?_⟩
      intro p hp
      rw [List.mem_cons] at hp
      rcases hp with rfl | hp
      · exact ⟨hb.ctype, hb.ctypeX, hb.freq, hb.M, hb.N, hb.Mx, hb.Nx, g4, g5⟩
      · exact e4 p hp

theorem between_terms {θ : ℝ} : ∀ (ps : List (Part ℝ × Part ℝ × Part ℝ)) (i : ℕ),
    (∀ p ∈ ps, BetweenPart θ p.1 p.2.1 p.2.2) →
    List.Forall₂ (fun h h' : SingleTerm ℝ => (h'.psi = h.psi ∧ h'.phi = h.phi ∧ h'.dag = h.dag ∧ h'.phononIndex = h.phononIndex) ∧
      (h.coupling = 0 ↔ h'.coupling = 0)) (partTerms (ps.map (·.1)) i) (partTerms (ps.map (·.2.1)) i) ∧
    List.Forall₂ (fun h h' : SingleTerm ℝ => h'.psi = h.psi ∧ h'.phi = h.phi ∧ h'.dag = h.dag ∧
      h'.phononIndex = h.phononIndex ∧ |h.coupling| ≤ |h'.coupling|) (partTerms (ps.map (·.2.2)) i)
      (List.zipWith (fun h h' : SingleTerm ℝ => { h with coupling := -(θ * |h.coupling| + (1 - θ) * |h'.coupling|) })
        (partTerms (ps.map (·.1)) i) (partTerms (ps.map (·.2.1)) i))
  | [], i, _ => by simp [partTerms]
  | (d, d', x) :: ps, i, h => by
    obtain ⟨h1, h2⟩ := between_terms ps (i + 1) (fun p hp => h p (List.mem_cons_of_mem _ hp))
    have hb : BetweenPart θ d d' x := h (d, d', x) (by simp)
    simp only [List.map_cons, partTerms_cons]
    unfold termsOf
    simp only [hb.ctype, hb.ctypeX]
    constructor
    · refine List.rel_append ?_ h1
      rw [List.forall₂_map_left_iff, List.forall₂_map_right_iff, List.forall₂_same]
      intro s _
      refine ⟨⟨rfl, rfl, rfl, rfl⟩, ?_⟩
      show (if s.2.2.2 then d.g else -d.g) = 0 ↔ (if s.2.2.2 then d'.g else -d'.g) = 0
      split
      · exact hb.zero
      · rw [neg_eq_zero, neg_eq_zero]; exact hb.zero
    · rw [List.zipWith_append (by simp)]
      refine List.rel_append ?_ h2
      generalize (termShapes d.ctype).getD [] = L
      induction L with
      | nil => simp
      | cons s L ih =>
        simp only [List.map_cons, List.zipWith_cons_cons]
        refine .cons ⟨rfl, rfl, rfl, rfl, ?_⟩ ih
        show |if s.2.2.2 then x.g else -x.g| ≤
          |-(θ * |if s.2.2.2 then d.g else -d.g| + (1 - θ) * |if s.2.2.2 then d'.g else -d'.g|)|
        have e : ∀ (q : Bool) (y : ℝ), |if q then y else -y| = |y| := fun q y => by cases q <;> simp
        rw [e, e, e, abs_neg]
        exact hb.g.trans (le_abs_self _)

theorem between_shape {θ hop hop' lattice T : ℝ} {cap : Option Int} {ps : List (Part ℝ × Part ℝ × Part ℝ)}
    (h : ∀ p ∈ ps, BetweenPart θ p.1 p.2.1 p.2.2) :
    SameShape (blueprint hop lattice T cap (ps.map (·.1))) (blueprint hop' lattice T cap (ps.map (·.2.1))) ∧
    SameShape (blueprint hop' lattice T cap (ps.map (·.2.1))) (blueprint hop lattice T cap (ps.map (·.1))) := by
  have h1 : (ps.map (·.2.1)).map (·.M) = (ps.map (·.1)).map (·.M) := by
    rw [List.map_map, List.map_map]
    exact List.map_congr_left (fun p hp => (h p hp).M)
  have h2 : (ps.map (·.2.1)).map (·.N) = (ps.map (·.1)).map (·.N) := by
    rw [List.map_map, List.map_map]
    exact List.map_congr_left (fun p hp => (h p hp).N)
  have h3 := (between_terms ps 0 h).1
  refine ⟨⟨by simp [blueprint], h1, h2, rfl, rfl, h3.imp (fun _ _ q => q.1)⟩,
    ⟨by simp [blueprint], h1.symm, h2.symm, rfl, rfl, h3.flip.imp (fun _ _ q => ?_)⟩⟩
  exact ⟨q.1.1.symm, q.1.2.1.symm, q.1.2.2.1.symm, q.1.2.2.2.symm⟩

theorem between_stronger {θ hop hop' hopx lattice latticex T Tx : ℝ} {cap capx : Option Int} {ps : List (Part ℝ × Part ℝ × Part ℝ)}
    {ae aex : ℤ} (h : ∀ p ∈ ps, BetweenPart θ p.1 p.2.1 p.2.2) (ht : |hopx| ≤ θ * hop + (1 - θ) * hop') (hcap : Looser capx cap)
    (ha : (blueprint hop lattice T cap (ps.map (·.1))).absExtent = some ae)
    (hax : (blueprint hopx latticex Tx capx (ps.map (·.2.2))).absExtent = some aex) :
    Stronger (blueprint hopx latticex Tx capx (ps.map (·.2.2)))
      (mix θ (blueprint hop lattice T cap (ps.map (·.1))) (blueprint hop' lattice T cap (ps.map (·.2.1)))) aex ae := by
  refine ⟨by simp [blueprint, mix], hcap, ?_, ?_, ?_, ht, ?_, ?_⟩
  · simp only [Model.absExtent, blueprint] at ha hax
    have h1 : aex ∈ (ps.map (·.2.2)).map (·.M) := List.max?_mem hax
    obtain ⟨x, hx, rfl⟩ := List.mem_map.1 h1
    obtain ⟨p, hp, rfl⟩ := List.mem_map.1 hx
    exact (h p hp).Mx.trans ((List.max?_eq_some_iff.1 ha).2 _ (List.mem_map.2 ⟨_, List.mem_map.2 ⟨p, hp, rfl⟩, rfl⟩))
  · intro t M _ he
    simp only [blueprint, mix, List.map_map, List.getElem?_map, Option.map_eq_some_iff] at he ⊢
    obtain ⟨p, hp, rfl⟩ := he
    exact ⟨_, ⟨p, hp, rfl⟩, (h p (List.mem_of_getElem? hp)).Mx⟩
  · intro t N _ he
    simp only [blueprint, mix, List.map_map, List.getElem?_map, Option.map_eq_some_iff] at he ⊢
    obtain ⟨p, hp, rfl⟩ := he
    exact ⟨_, ⟨p, hp, rfl⟩, (h p (List.mem_of_getElem? hp)).Nx⟩
  · intro t hlt
    have hlt' : t < ps.length := by simpa [blueprint] using hlt
    simp only [blueprint, mix, List.getD_eq_getElem?_getD, List.getElem?_map, List.length_map, List.getElem?_range hlt',
      List.getElem?_eq_getElem hlt', Option.map_some, Option.getD_some]
    exact (h _ (List.getElem_mem hlt')).freq
  · exact ⟨_, List.Sublist.refl _, (between_terms ps 0 h).2⟩

/-- a Green's function of every built model -/
theorem exists_gives {σ : SetOrder} {m : Model ℝ} {ae : ℤ} (hm : WellFormed m ae) {b : Built ℝ} (hb : buildSystem σ m = .ok b)
    (hp : Physical m) : ∃ F : ℝ → ℝ → ℝ → ℂ, ∀ k w eta : ℝ, 0 < eta → Gives m b ⟨k, w, eta⟩ (F k w eta) := by
  have hg : ∀ k w eta : ℝ, ∃ G, 0 < eta → Gives m b ⟨k, w, eta⟩ G := fun k w eta => by
    by_cases heta : 0 < eta
    · obtain ⟨Ψ, -, -, g1, g2⟩ := C55_exact σ _ ae hm b hb hp ⟨k, w, eta⟩ heta
      exact ⟨_, fun _ => ⟨g1, g2⟩⟩
    · exact ⟨0, fun h => absurd h heta⟩
  choose F hF using hg
  exact ⟨F, hF⟩

/-- **C118**. Three models: the third has at most the weighted mean of the hoppings and of the coupling strengths of the first
two and at least the weighted mean of their frequencies. Then its lower edge at any momentum is not below the weighted mean
of theirs at zero momentum. -/
theorem C118_concave (σ σ' τ : SetOrder) (hop hop' hopx lattice latticex T θ : ℝ) (h0 : 0 ≤ θ) (h1 : θ ≤ 1)
    (hl : (hop = 0 ∧ hop' = 0) ∨ (0 < hop ∧ 0 < hop' ∧ lattice = 1)) (hlx : hopx = 0 ∨ (0 < hopx ∧ latticex = 1))
    (ht : hopx ≤ θ * hop + (1 - θ) * hop') (cap capx : Option Int) (hcap : ∀ c, cap = some c → 1 ≤ c)
    (hcapx : ∀ c, capx = some c → 1 ≤ c) (hlo : Looser capx cap) (calls : List (AddArgs ℝ × AddArgs ℝ × AddArgs ℝ))
    (hne : calls ≠ []) (hbt : ∀ q ∈ calls, Between T θ q.1 q.2.1 q.2.2)
    (hc : Clean realPrims hop T (calls.map (·.1))) (hc' : Clean realPrims hop' T (calls.map (·.2.1)))
    (hcx : Clean realPrims hopx T (calls.map (·.2.2))) (hf : ((modes T (calls.map (·.1))).map (·.freq)).Nodup)
    (hf' : ((modes T (calls.map (·.2.1))).map (·.freq)).Nodup) (hfx : ((modes T (calls.map (·.2.2))).map (·.freq)).Nodup)
    (hk : (∀ q ∈ calls, q.1.ctype = "BondPeierls") ∨ (∀ q ∈ calls, q.1.ctype ≠ "BondPeierls"))
    (hs : ∀ q ∈ calls, q.1.ctype ≠ "Peierls") :
    ∃ m b m' b' x bx, (Model.fromParameters hop lattice T cap 1).adds realPrims (calls.map (·.1)) = .ok m ∧
      (Model.fromParameters hop' lattice T cap 1).adds realPrims (calls.map (·.2.1)) = .ok m' ∧
      (Model.fromParameters hopx latticex T capx 1).adds realPrims (calls.map (·.2.2)) = .ok x ∧
      buildSystem σ m = .ok b ∧ buildSystem σ' m' = .ok b' ∧ buildSystem τ x = .ok bx ∧
      ∃ (F F' Fx : ℝ → ℝ → ℝ → ℂ) (e e' : ℝ) (ex : ℝ → ℝ), (∀ k w eta : ℝ, 0 < eta → Gives m b ⟨k, w, eta⟩ (F k w eta)) ∧
        (∀ k w eta : ℝ, 0 < eta → Gives m' b' ⟨k, w, eta⟩ (F' k w eta)) ∧
        (∀ k w eta : ℝ, 0 < eta → Gives x bx ⟨k, w, eta⟩ (Fx k w eta)) ∧ Edge (F 0) e ∧ Edge (F' 0) e' ∧
        ∀ k, Edge (Fx k) (ex k) ∧ θ * e + (1 - θ) * e' ≤ ex k := by
  have hk1 : ∀ f : AddArgs ℝ × AddArgs ℝ × AddArgs ℝ → AddArgs ℝ, (∀ q ∈ calls, (f q).ctype = q.1.ctype) →
      ((∀ a ∈ calls.map f, a.ctype = "BondPeierls") ∨ (∀ a ∈ calls.map f, a.ctype ≠ "BondPeierls")) := by
    intro f hf
    rcases hk with h | h
    · exact Or.inl (fun a ha => by obtain ⟨q, hq, rfl⟩ := List.mem_map.1 ha; rw [hf q hq]; exact h q hq)
    · exact Or.inr (fun a ha => by obtain ⟨q, hq, rfl⟩ := List.mem_map.1 ha; rw [hf q hq]; exact h q hq)
  have hs1 : ∀ f : AddArgs ℝ × AddArgs ℝ × AddArgs ℝ → AddArgs ℝ, (∀ q ∈ calls, (f q).ctype = q.1.ctype) →
      ∀ a ∈ calls.map f, a.ctype ≠ "Peierls" := by
    intro f hf a ha
    obtain ⟨q, hq, rfl⟩ := List.mem_map.1 ha
    rw [hf q hq]; exact hs q hq
  have n1 : calls.map (·.1) ≠ [] := by simpa using hne
  have n2 : calls.map (·.2.1) ≠ [] := by simpa using hne
  have n3 : calls.map (·.2.2) ≠ [] := by simpa using hne
  have b1 := hk1 (·.1) (fun _ _ => rfl)
  have b2 := hk1 (·.2.1) (fun q hq => (hbt q hq).ctype)
  have b3 := hk1 (·.2.2) (fun q hq => (hbt q hq).ctypeX)
  have l1 : hop = 0 ∨ (0 < hop ∧ lattice = 1) := hl.imp (·.1) (fun h => ⟨h.1, h.2.2⟩)
  have l2 : hop' = 0 ∨ (0 < hop' ∧ lattice = 1) := hl.imp (·.2) (fun h => ⟨h.2.1, h.2.2⟩)
  obtain ⟨m, b, u1, ⟨ae, u2⟩, u3⟩ := C16_assembled σ realPrims C42_names hop lattice T cap hcap _ n1 hc hf b1
  obtain ⟨m', b', v1, ⟨ae', v2⟩, v3⟩ := C16_assembled σ' realPrims C42_names hop' lattice T cap hcap _ n2 hc' hf' b2
  obtain ⟨x, bx, x1, ⟨aex, x2⟩, x3⟩ := C16_assembled τ realPrims C42_names hopx latticex T capx hcapx _ n3 hcx hfx b3
  refine ⟨m, b, m', b', x, bx, u1, v1, x1, u3, v3, x3, ?_⟩
  have p1 := physical_assembled u1 b1 l1
  have p2 := physical_assembled v1 b2 l2
  have p3 := physical_assembled x1 b3 hlx
  rw [fromParameters_blueprint hop lattice T cap _ hc hf] at u1
  rw [fromParameters_blueprint hop' lattice T cap _ hc' hf'] at v1
  rw [fromParameters_blueprint hopx latticex T capx _ hcx hfx] at x1
  obtain ⟨ps, e1, e2, e3, e4⟩ := between_parts (T := T) (hop := hop) (hop' := hop') (hopx := hopx) calls hbt (fun q hq =>
    ⟨(hc.valid q.1 (List.mem_map.2 ⟨q, hq, rfl⟩)).strength, (hc'.valid q.2.1 (List.mem_map.2 ⟨q, hq, rfl⟩)).strength,
      (hcx.valid q.2.2 (List.mem_map.2 ⟨q, hq, rfl⟩)).strength⟩)
  have o1 : OneSign (blueprint hop lattice T cap (parts realPrims hop T (calls.map (·.1)))) :=
    oneSign_blueprint (hs1 (·.1) (fun _ _ => rfl))
  have o2 : OneSign (blueprint hop' lattice T cap (parts realPrims hop' T (calls.map (·.2.1)))) :=
    oneSign_blueprint (hs1 (·.2.1) (fun q hq => (hbt q hq).ctype))
  rw [e1] at u1 o1
  rw [e2] at v1 o2
  rw [e3] at x1
  cases u1
  cases v1
  cases x1
  have hae : ae' = ae := by
    have q1 := u2.absExtent
    have q2 := v2.absExtent
    simp only [Model.absExtent, blueprint] at q1 q2
    have : (ps.map (·.2.1)).map (·.M) = (ps.map (·.1)).map (·.M) := by
      rw [List.map_map, List.map_map]
      exact List.map_congr_left (fun p hp => (e4 p hp).M)
    rw [this, q1] at q2
    exact (Option.some.inj q2).symm
  subst hae
  obtain ⟨F, hF⟩ := exists_gives u2 u3 p1
  obtain ⟨F', hF'⟩ := exists_gives v2 v3 p2
  obtain ⟨Fx, hFx⟩ := exists_gives x2 x3 p3
  have r := fun k w eta heta => returned_of_gives (hF k w eta heta)
  have r' := fun k w eta heta => returned_of_gives (hF' k w eta heta)
  have rx := fun k w eta heta => returned_of_gives (hFx k w eta heta)
  obtain ⟨e, he, -⟩ := C88_edge σ _ _ u2 b u3 p1 0 (F 0) (r 0)
  obtain ⟨e', he', -⟩ := C88_edge σ' _ _ v2 b' v3 p2 0 (F' 0) (r' 0)
  choose ex hex using fun k => C88_edge τ _ _ x2 bx x3 p3 k (Fx k) (rx k)
  refine ⟨F, F', Fx, e, e', ex, hF, hF', hFx, he, he', fun k => ⟨(hex k).1, (hex k).1.2 _ ?_⟩⟩
  obtain ⟨s1, s2⟩ := between_shape (hop := hop) (hop' := hop') (lattice := lattice) (T := T) (cap := cap) e4
  have hz := (between_terms ps 0 e4).1
  have hx0 : 0 ≤ hopx := by rcases hlx with h | h <;> [exact h.ge; exact h.1.le]
  exact concave_empty u2 v2 x2 u3 v3 x3 p1 p2 p3 s1 s2 o1 o2
    (by rcases hl with ⟨a1, a2⟩ | ⟨a1, a2, -⟩
        · show hop = 0 ↔ hop' = 0
          simp [a1, a2]
        · show hop = 0 ↔ hop' = 0
          simp [a1.ne', a2.ne'])
    (hz.imp (fun _ _ q => q.2.1)) (hz.flip.imp (fun _ _ q => q.2.2)) h0 h1
    (between_stronger e4 (by rw [abs_of_nonneg hx0]; exact ht) hlo u2.absExtent x2.absExtent) k (r 0) (r' 0) (rx k) he.1 he'.1

/-- The polaron energy of the model assembled by `calls`: the lower edge at zero momentum of what the solvers return. -/
def PolaronEnergy (σ : SetOrder) (hop : ℝ) (cap : Option Int) (calls : List (AddArgs ℝ)) (e : ℝ) : Prop :=
  ∃ m b, (Model.fromParameters hop 1 0 cap 1).adds realPrims calls = .ok m ∧ buildSystem σ m = .ok b ∧
    ∃ F : ℝ → ℝ → ℂ, (∀ w eta : ℝ, 0 < eta → Gives m b ⟨0, w, eta⟩ (F w eta)) ∧ Edge F e

theorem polaronEnergy_unique {σ : SetOrder} {hop : ℝ} {cap : Option Int} {calls : List (AddArgs ℝ)} {e e' : ℝ}
    (h : PolaronEnergy σ hop cap calls e) (h' : PolaronEnergy σ hop cap calls e') : e = e' := by
  obtain ⟨m, b, a1, a2, F, a3, a4⟩ := h
  obtain ⟨m', b', c1, c2, F', c3, c4⟩ := h'
  rw [a1] at c1
  cases c1
  rw [a2] at c2
  cases c2
  have key : ∀ w eta : ℝ, 0 < eta → F w eta = F' w eta := by
    intro w eta heta
    have q := (a3 w eta heta).2.symm.trans (c3 w eta heta).2
    exact Option.some.inj (Except.ok.inj q)
  have hE : ∀ x, EmptyBelow F x ↔ EmptyBelow F' x := by
    intro x
    constructor <;> intro h w hw eta heta
    · rw [← key w eta heta]; exact h w hw eta heta
    · rw [key w eta heta]; exact h w hw eta heta
  exact le_antisymm (c4.2 _ ((hE _).1 a4.1)) (a4.2 _ ((hE _).2 c4.1))

theorem scaled_clean {hop s u : ℝ} {calls : List (AddArgs ℝ)} (hu : 0 < u) (hg : ∀ a ∈ calls, a.lam = none) {hop' : ℝ}
    (hc : Clean realPrims hop' 0 calls) (hf : (calls.map (·.freq)).Nodup) :
    Clean realPrims hop 0 (scaledCalls s u calls) ∧ ((modes 0 (scaledCalls s u calls)).map (·.freq)).Nodup := by
  have hcl : Clean realPrims hop 0 (scaledCalls s u calls) := by
    refine ⟨?_, ?_, ?_, ?_⟩
    · intro x hx
      obtain ⟨a, ha, rfl⟩ := List.mem_map.1 hx
      have v := hc.valid a ha
      refine ⟨v.extent, v.number, v.extentTfd, v.numberTfd, fun h => absurd h (lt_irrefl _), ?_, fun h => absurd h (lt_irrefl _)⟩
      rcases v.strength with ⟨g, h1, h2⟩ | ⟨l, h1, h2⟩
      · exact Or.inl ⟨s * g, by simp [h1], h2⟩
      · rw [hg a ha] at h1; cases h1
    · intro x hx
      obtain ⟨a, ha, rfl⟩ := List.mem_map.1 hx
      exact hc.known a ha
    · intro x hx
      obtain ⟨a, ha, rfl⟩ := List.mem_map.1 hx
      exact hc.noOverride a ha
    · intro x hx l hl
      obtain ⟨a, ha, rfl⟩ := List.mem_map.1 hx
      have : a.lam = some l := hl
      rw [hg a ha] at this; cases this
  refine ⟨hcl, ?_⟩
  rw [modes_of_clean hcl]
  have e : ((scaledCalls s u calls).flatMap (modesAt 0)).map (·.freq) = (calls.map (·.freq)).map (u * ·) := by
    unfold scaledCalls
    clear hcl hf hc hg
    induction calls with
    | nil => rfl
    | cons a l ih => simpa [modesAt] using ih
  rw [e]
  exact hf.map (fun x y h => mul_left_cancel₀ hu.ne' h)

/-- **C118**, as a function: at temperature zero, with all couplings multiplied by `s` and all frequencies by `u`, the
polaron energy is a jointly concave function of the hopping, `s` and `u`. -/
theorem C118_concaveOn (σ : SetOrder) (cap : Option Int) (hcap : ∀ c, cap = some c → 1 ≤ c) (calls : List (AddArgs ℝ))
    (hne : calls ≠ []) (hg : ∀ a ∈ calls, a.lam = none) {hop' : ℝ} (hc : Clean realPrims hop' 0 calls)
    (hf : (calls.map (·.freq)).Nodup)
    (hk : (∀ a ∈ calls, a.ctype = "BondPeierls") ∨ (∀ a ∈ calls, a.ctype ≠ "BondPeierls"))
    (hs : ∀ a ∈ calls, a.ctype ≠ "Peierls") :
    ∃ E : ℝ × ℝ × ℝ → ℝ, ConcaveOn ℝ {x | 0 < x.1 ∧ 0 < x.2.1 ∧ 0 < x.2.2} E ∧
      ∀ t s u : ℝ, 0 < t → 0 < s → 0 < u → PolaronEnergy σ t cap (scaledCalls s u calls) (E (t, s, u)) := by
  have main : ∀ (t s u t' s' u' θ : ℝ), 0 < t → 0 < s → 0 < u → 0 < t' → 0 < s' → 0 < u' → 0 ≤ θ → θ ≤ 1 →
      ∃ e e' ex, PolaronEnergy σ t cap (scaledCalls s u calls) e ∧ PolaronEnergy σ t' cap (scaledCalls s' u' calls) e' ∧
        PolaronEnergy σ (θ * t + (1 - θ) * t') cap (scaledCalls (θ * s + (1 - θ) * s') (θ * u + (1 - θ) * u') calls) ex ∧
        θ * e + (1 - θ) * e' ≤ ex := by
    intro t s u t' s' u' θ ht hs0 hu ht' hs0' hu' h0 h1
    have pos : ∀ {x y : ℝ}, 0 < x → 0 < y → 0 < θ * x + (1 - θ) * y := by
      intro x y hx hy
      rcases h0.eq_or_lt with rfl | h
      · simpa using hy
      · have := mul_pos h hx
        have := mul_nonneg (sub_nonneg.2 h1) hy.le
        linarith
    let qs : List (AddArgs ℝ × AddArgs ℝ × AddArgs ℝ) := calls.map (fun a =>
      ({ a with g := a.g.map (s * ·), freq := u * a.freq }, { a with g := a.g.map (s' * ·), freq := u' * a.freq },
        { a with g := a.g.map ((θ * s + (1 - θ) * s') * ·), freq := (θ * u + (1 - θ) * u') * a.freq }))
    have q1 : qs.map (·.1) = scaledCalls s u calls := by simp [qs, scaledCalls]
    have q2 : qs.map (·.2.1) = scaledCalls s' u' calls := by simp [qs, scaledCalls]
    have q3 : qs.map (·.2.2) = scaledCalls (θ * s + (1 - θ) * s') (θ * u + (1 - θ) * u') calls := by simp [qs, scaledCalls]
    have c1 := scaled_clean (hop := t) (s := s) hu hg hc hf
    have c2 := scaled_clean (hop := t') (s := s') hu' hg hc hf
    have c3 := scaled_clean (hop := θ * t + (1 - θ) * t') (s := θ * s + (1 - θ) * s') (pos hu hu') hg hc hf
    rw [← q1] at c1
    rw [← q2] at c2
    rw [← q3] at c3
    obtain ⟨m, b, m', b', x, bx, a1, a2, a3, a4, a5, a6, F, F', Fx, e, e', ex, g1, g2, g3, d1, d2, d3⟩ :=
      C118_concave σ σ σ t t' (θ * t + (1 - θ) * t') 1 1 0 θ h0 h1 (Or.inr ⟨ht, ht', rfl⟩) (Or.inr ⟨pos ht ht', rfl⟩) le_rfl
        cap cap hcap hcap (fun c h => ⟨c, h, le_rfl⟩) qs (by simpa [qs] using hne)
        (by
          intro q hq
          obtain ⟨a, ha, rfl⟩ := List.mem_map.1 hq
          rcases (hc.valid a ha).strength with ⟨g, w1, -⟩ | ⟨l, w1, -⟩
          · refine ⟨rfl, rfl, ⟨s * g, s' * g, (θ * s + (1 - θ) * s') * g, by simp [w1], by simp [w1], by simp [w1], ?_, ?_⟩, ?_,
              rfl, rfl, le_rfl, le_rfl, fun h => absurd h (lt_irrefl _)⟩
            · simp [hs0.ne', hs0'.ne']
            · rw [abs_mul, abs_mul, abs_mul, abs_of_pos hs0, abs_of_pos hs0', abs_of_pos (pos hs0 hs0')]
              exact le_of_eq (by ring)
            · exact le_of_eq (by ring)
          · rw [hg a ha] at w1; cases w1)
        c1.1 c2.1 c3.1 c1.2 c2.2 c3.2
        (hk.imp (fun h q hq => by obtain ⟨a, ha, rfl⟩ := List.mem_map.1 hq; exact h a ha)
          (fun h q hq => by obtain ⟨a, ha, rfl⟩ := List.mem_map.1 hq; exact h a ha))
        (fun q hq => by obtain ⟨a, ha, rfl⟩ := List.mem_map.1 hq; exact hs a ha)
    rw [q1] at a1
    rw [q2] at a2
    rw [q3] at a3
    exact ⟨e, e', ex 0, ⟨m, b, a1, a4, F 0, g1 0, d1⟩, ⟨m', b', a2, a5, F' 0, g2 0, d2⟩, ⟨x, bx, a3, a6, Fx 0, g3 0, (d3 0).1⟩,
      (d3 0).2⟩
  have hex : ∀ x : ℝ × ℝ × ℝ, ∃ e, 0 < x.1 → 0 < x.2.1 → 0 < x.2.2 → PolaronEnergy σ x.1 cap (scaledCalls x.2.1 x.2.2 calls) e := by
    intro x
    by_cases h : 0 < x.1 ∧ 0 < x.2.1 ∧ 0 < x.2.2
    · obtain ⟨h1, h2, h3⟩ := h
      obtain ⟨e, -, -, he, -⟩ := main _ _ _ _ _ _ 1 h1 h2 h3 h1 h2 h3 zero_le_one le_rfl
      exact ⟨e, fun _ _ _ => he⟩
    · exact ⟨0, fun h1 h2 h3 => absurd ⟨h1, h2, h3⟩ h⟩
  choose E hE using hex
  refine ⟨E, ⟨?_, ?_⟩, fun t s u h1 h2 h3 => hE (t, s, u) h1 h2 h3⟩
  · intro x hx y hy α β hα hβ hαβ
    have pos : ∀ {x y : ℝ}, 0 < x → 0 < y → 0 < α * x + β * y := by
      intro x y hx hy
      rcases hα.eq_or_lt with rfl | h
      · have : β = 1 := by linarith
        rw [this]; simpa using hy
      · have := mul_pos h hx
        have := mul_nonneg hβ hy.le
        linarith
    exact ⟨pos hx.1 hy.1, pos hx.2.1 hy.2.1, pos hx.2.2 hy.2.2⟩
  · intro x hx y hy α β hα hβ hαβ
    have hβ' : β = 1 - α := by linarith
    subst hβ'
    obtain ⟨e, e', ex, p1, p2, p3, hle⟩ := main _ _ _ _ _ _ α hx.1 hx.2.1 hx.2.2 hy.1 hy.2.1 hy.2.2 hα (by linarith)
    rw [polaronEnergy_unique (hE x hx.1 hx.2.1 hx.2.2) p1, polaronEnergy_unique (hE y hy.1 hy.2.1 hy.2.2) p2]
    have pos : ∀ {x y : ℝ}, 0 < x → 0 < y → 0 < α * x + (1 - α) * y := by
      intro x y hx hy
      rcases hα.eq_or_lt with rfl | h
      · simpa using hy
      · have := mul_pos h hx
        have := mul_nonneg hβ hy.le
        linarith
    have q := hE (α • x + (1 - α) • y) (pos hx.1 hy.1) (pos hx.2.1 hy.2.1) (pos hx.2.2 hy.2.2)
    rw [polaronEnergy_unique q p3]
    exact hle

/-! ### the hypotheses are met -/

/-- C118 with a mean of two couplings of different signs: the mean of the strengths counts. -/
example (σ σ' τ : SetOrder) : ∃ m b m' b' x bx,
    (Model.fromParameters (1 : ℝ) 1 0 (some 2) 1).adds realPrims [{ ctype := "Holstein", freq := 2, M := 2, N := 3, g := some 1 }] =
      .ok m ∧
    (Model.fromParameters (3 : ℝ) 1 0 (some 2) 1).adds realPrims
      [{ ctype := "Holstein", freq := 4, M := 2, N := 3, g := some (-2) }] = .ok m' ∧
    (Model.fromParameters (2 : ℝ) 1 0 (some 1) 1).adds realPrims
      [{ ctype := "Holstein", freq := 3, M := 2, N := 2, g := some (3 / 2) }] = .ok x ∧
    buildSystem σ m = .ok b ∧ buildSystem σ' m' = .ok b' ∧ buildSystem τ x = .ok bx ∧
    ∃ (F F' Fx : ℝ → ℝ → ℝ → ℂ) (e e' : ℝ) (ex : ℝ → ℝ), (∀ k w eta : ℝ, 0 < eta → Gives m b ⟨k, w, eta⟩ (F k w eta)) ∧
      (∀ k w eta : ℝ, 0 < eta → Gives m' b' ⟨k, w, eta⟩ (F' k w eta)) ∧
      (∀ k w eta : ℝ, 0 < eta → Gives x bx ⟨k, w, eta⟩ (Fx k w eta)) ∧ Edge (F 0) e ∧ Edge (F' 0) e' ∧
      ∀ k, Edge (Fx k) (ex k) ∧ 1 / 2 * e + (1 - 1 / 2) * e' ≤ ex k := by
  have cl : ∀ (hop f g : ℝ) (N : Int), 1 ≤ N →
      Clean realPrims hop 0 [{ ctype := "Holstein", freq := f, M := 2, N := N, g := some g }] ∧
        ((modes 0 [({ ctype := "Holstein", freq := f, M := 2, N := N, g := some g } : AddArgs ℝ)]).map (·.freq)).Nodup := by
    intro hop f g N hN
    have hc : Clean realPrims hop 0 [{ ctype := "Holstein", freq := f, M := 2, N := N, g := some g }] := by
      constructor <;> intro a ha <;> simp only [List.mem_cons, List.not_mem_nil, or_false] at ha <;> subst ha
      all_goals first
        | rfl
        | (simp [Known])
        | (simp [Defined])
        | (constructor <;> simp [OneStrength, hN])
    refine ⟨hc, ?_⟩
    rw [modes_of_clean hc]
    simp [modesAt]
  exact C118_concave σ σ' τ 1 3 2 1 1 0 (1 / 2) (by norm_num) (by norm_num) (Or.inr (by norm_num)) (Or.inr (by norm_num))
    (by norm_num) (some 2) (some 1) (by simp) (by simp) (by intro c h; cases h; exact ⟨1, rfl, by norm_num⟩)
    [({ ctype := "Holstein", freq := 2, M := 2, N := 3, g := some 1 },
      { ctype := "Holstein", freq := 4, M := 2, N := 3, g := some (-2) },
      { ctype := "Holstein", freq := 3, M := 2, N := 2, g := some (3 / 2) })] (by simp)
    (by
      intro q hq
      simp only [List.mem_cons, List.not_mem_nil, or_false] at hq
      subst hq
      exact ⟨rfl, rfl, ⟨1, -2, 3 / 2, rfl, rfl, rfl, by norm_num, by norm_num [abs_of_pos]⟩, by norm_num, rfl, rfl, by norm_num, by norm_num,
        fun h => absurd h (lt_irrefl _)⟩)
    (cl 1 2 1 3 (by norm_num)).1 (cl 3 4 (-2) 3 (by norm_num)).1 (cl 2 3 (3 / 2) 2 (by norm_num)).1
    (cl 1 2 1 3 (by norm_num)).2 (cl 3 4 (-2) 3 (by norm_num)).2 (cl 2 3 (3 / 2) 2 (by norm_num)).2
    (Or.inr (by simp)) (by simp)

/-- the polaron energy of a Holstein and an Edwards coupling -/
example (σ : SetOrder) : ∃ E : ℝ × ℝ × ℝ → ℝ, ConcaveOn ℝ {x | 0 < x.1 ∧ 0 < x.2.1 ∧ 0 < x.2.2} E ∧
    ∀ t s u : ℝ, 0 < t → 0 < s → 0 < u → PolaronEnergy σ t none (scaledCalls s u (exStrong ++ exExtra)) (E (t, s, u)) :=
  C118_concaveOn σ none (by simp) _ (by simp [exStrong]) (by simp [exStrong, exExtra]) exStrong_clean.1
    (by norm_num [exStrong, exExtra]) (Or.inr (by simp [exStrong, exExtra])) (by simp [exStrong, exExtra])

end GGCE.Props
