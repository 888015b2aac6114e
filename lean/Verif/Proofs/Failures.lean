import Verif.Proofs.Build

/-! Models that cannot be built. -/

set_option linter.unusedSectionVars false

namespace GGCE
open Spec Arr Dict

variable {R : Type} [Field R] [LinearOrder R]

/-- a result that is either some value or the exception `e` -/
def OkOr {α : Type _} (e : Err) (x : Py α) : Prop := (∃ y, x = .ok y) ∨ x = .error e

theorem collectM_okOr {α β : Type _} {f : α → Py (Option β)} {e : Err} :
    ∀ {xs : List α}, (∀ x ∈ xs, OkOr e (f x)) → OkOr e (collectM f xs)
  | [], _ => Or.inl ⟨[], rfl⟩
  | x :: xs, h => by
    have ih := collectM_okOr (f := f) (xs := xs) (fun y hy => h y (by simp [hy]))
    rcases h x (by simp) with ⟨y, hy⟩ | hy
    · rcases ih with ⟨ys, hys⟩ | hys
      · cases y with
        | none => exact Or.inl ⟨ys, by simp [collectM, hy, hys, bind, Except.bind, pure, Except.pure]⟩
        | some y =>
          exact Or.inl ⟨y :: ys, by simp [collectM, hy, hys, bind, Except.bind, pure, Except.pure]⟩
      · exact Or.inr (by simp [collectM, hy, hys, bind, Except.bind])
    · exact Or.inr (by simp [collectM, hy, bind, Except.bind])

theorem collectM_error {α β : Type _} {f : α → Py (Option β)} {e : Err} :
    ∀ {xs : List α}, (∀ x ∈ xs, OkOr e (f x)) → (∃ x ∈ xs, f x = .error e) →
      collectM f xs = .error e
  | [], _, h => by simp at h
  | x :: xs, h, hex => by
    rcases h x (by simp) with ⟨y, hy⟩ | hy
    · have ih := collectM_error (f := f) (xs := xs) (fun y hy => h y (by simp [hy])) (by
        obtain ⟨z, hz, hz2⟩ := hex
        rcases List.mem_cons.1 hz with rfl | hz
        · rw [hy] at hz2; cases hz2
        · exact ⟨z, hz, hz2⟩)
      simp [collectM, hy, ih, bind, Except.bind]
    · simp [collectM, hy, bind, Except.bind]

/-! ### Too few frequencies -/

theorem freqShift_short : ∀ {fs : List R} {ns : List Int}, fs.length < ns.length →
    freqShift fs ns = .error .indexError
  | [], [], h => by simp at h
  | [], _ :: _, _ => rfl
  | f :: fs, [], h => by simp at h
  | f :: fs, n :: ns, h => by
    simp [freqShift, freqShift_short (fs := fs) (ns := ns) (by simpa using h), bind, Except.bind]

section short
variable {m : Model R} {ae : Int} (hm : Bounded m ae) (hs : m.ham.freqs.length < m.nTypes)
include hm hs

theorem mkNonIndex_short {a : Arr} (ha : InTruncation m ae a) (k : Kind) (h : SingleTerm R) (p : R) :
    mkNonIndex m k a h p = .error .indexError := by
  unfold mkNonIndex
  rw [validate_cloud ha.2.2.toCloud, freqShift_short (by
    rw [Arr.totalPerType, List.length_map, ha.2.1]; exact hs)]
  rfl

theorem initTerms_short {a : Arr} (ha : InTruncation m ae a) : ∀ hs' : List (SingleTerm R),
    (∀ h ∈ hs', h.phononIndex < m.nTypes) → OkOr .indexError (initTerms m a hs') ∧
      ((∃ h ∈ hs', h.dag = .minus ∧ ∃ x, a.get h.phononIndex x ≠ 0) →
        initTerms m a hs' = .error .indexError)
  | [], _ => ⟨Or.inl ⟨[], rfl⟩, by simp⟩
  | h :: hs', hi => by
    have ih := initTerms_short ha hs' (fun x hx => hi x (List.mem_cons_of_mem _ hx))
    have hlt : h.phononIndex < a.rows.length := by rw [ha.2.1]; exact hi h (by simp)
    have hann : OkOr .indexError (annTerms m a h a.rows[h.phononIndex]) ∧
        ((∃ x, a.get h.phononIndex x ≠ 0) →
          annTerms m a h a.rows[h.phononIndex] = .error .indexError) := by
      have hall : ∀ loc ∈ List.range (a.rows[h.phononIndex]).length, OkOr .indexError
          (if a.rows[h.phononIndex].getD loc 0 = 0 then (.ok none : Py (Option (Term R)))
            else do
              let t ← mkNonIndex m .ann a h (h.coupling * ((a.rows[h.phononIndex].getD loc 0 : Int) : R))
              let t ← step t (loc : Int)
              finishTerm m t) := by
        intro loc _
        split
        · exact Or.inl ⟨none, rfl⟩
        · rw [mkNonIndex_short hm hs ha]; exact Or.inr rfl
      refine ⟨collectM_okOr hall, ?_⟩
      rintro ⟨x, hx⟩
      have hg : a.get h.phononIndex x = a.rows[h.phononIndex].getD x 0 := by
        simp [Arr.get, List.getD_eq_getElem?_getD, List.getElem?_eq_getElem hlt]
      refine collectM_error hall ⟨x, ?_, ?_⟩
      · rw [List.mem_range]
        by_contra hc
        rw [hg, List.getD_eq_getElem?_getD, List.getElem?_eq_none (by omega)] at hx
        exact hx rfl
      · rw [hg] at hx
        rw [if_neg hx, mkNonIndex_short hm hs ha]; rfl
    have hcre : OkOr .indexError (creTerms m a h a.rows[h.phononIndex]) := by
      unfold creTerms
      have : h.phononIndex < m.number.length := by rw [hm.num, ← ha.2.1]; exact hlt
      rw [List.getElem?_eq_getElem this, hm.absExtent]
      simp only
      split
      · exact Or.inl ⟨[], rfl⟩
      · have := ha.1
        rw [if_neg (by omega)]
        apply collectM_okOr
        intro i _
        rw [mkNonIndex_short hm hs ha]; exact Or.inr rfl
    obtain ⟨X, hX, hX1, hX2⟩ : ∃ X : Py (List (Term R)),
        initTerms m a (h :: hs') =
          (X >>= fun ts => initTerms m a hs' >>= fun rest => pure (ts ++ rest)) ∧
        OkOr .indexError X ∧
        (h.dag = .minus → (∃ x, a.get h.phononIndex x ≠ 0) → X = .error .indexError) := by
      cases hd : h.dag
      · refine ⟨_, ?_, hcre, by simp⟩
        rw [initTerms, List.getElem?_eq_getElem hlt]
        simp only [hd]
      · refine ⟨_, ?_, hann.1, fun _ => hann.2⟩
        rw [initTerms, List.getElem?_eq_getElem hlt]
        simp only [hd]
    rw [hX]
    constructor
    · rcases hX1 with ⟨y, hy⟩ | hy
      · rw [hy]
        rcases ih.1 with ⟨z, hz⟩ | hz
        · rw [hz]; exact Or.inl ⟨y ++ z, rfl⟩
        · rw [hz]; exact Or.inr rfl
      · rw [hy]; exact Or.inr rfl
    · rintro ⟨x, hx, hxd, hxo⟩
      rcases List.mem_cons.1 hx with rfl | hx
      · rw [hX2 hxd hxo]; rfl
      · have h2 := ih.2 ⟨x, hx, hxd, hxo⟩
        rcases hX1 with ⟨y, hy⟩ | hy
        · rw [hy, h2]; rfl
        · rw [hy]; rfl

theorem mkEquation_short {a : Arr} (ha : InTruncation m ae a) :
    OkOr .indexError (mkEquation m a) ∧
      ((∃ h ∈ m.ham.terms, h.dag = .minus ∧ ∃ x, a.get h.phononIndex x ≠ 0) →
        mkEquation m a = .error .indexError) := by
  obtain ⟨h1, h2⟩ := initTerms_short hm hs ha m.ham.terms hm.index
  unfold mkEquation
  rw [validate_cloud ha.2.2.toCloud]
  constructor
  · rcases h1 with ⟨y, hy⟩ | hy
    · rw [hy]; exact Or.inl ⟨_, rfl⟩
    · rw [hy]; exact Or.inr rfl
  · intro h
    rw [h2 h]; rfl

/-- With fewer recorded frequencies than phonon types, building the system raises `IndexError`. -/
theorem buildSystem_short (σ : SetOrder) (hminus : ∃ h ∈ m.ham.terms, h.dag = .minus) :
    buildSystem σ m = .error .indexError := by
  obtain ⟨f, hf1, hf2⟩ := generateAll_ok hm.toListsOk hm.types hm.dim.le hm.absExtent
  obtain ⟨h, hh, hd⟩ := hminus
  have hi := hm.index h hh
  have htr := single_bounded hm hi
  have hsum : 0 < m.number.sum.toNat := by
    have := phonons_bounds hm.toListsOk htr
    rw [single_phonons hi] at this
    omega
  have hin : ∀ i, OkOr .indexError (collectM (fun a => some <$> mkEquation m a) (f (i + 1))) := by
    intro i
    apply collectM_okOr
    intro a ha
    rcases (mkEquation_short hm hs (((hf2 _).2 a).1 ha).1).1 with ⟨y, hy⟩ | hy
    · rw [hy]; exact Or.inl ⟨_, rfl⟩
    · rw [hy]; exact Or.inr rfl
  have h0 : collectM (fun a => some <$> mkEquation m a) (f (0 + 1)) = .error .indexError := by
    refine collectM_error ?_ ⟨single m.nTypes h.phononIndex, ?_, ?_⟩
    · intro a ha
      rcases (mkEquation_short hm hs (((hf2 _).2 a).1 ha).1).1 with ⟨y, hy⟩ | hy
      · rw [hy]; exact Or.inl ⟨_, rfl⟩
      · rw [hy]; exact Or.inr rfl
    · exact ((hf2 _).2 _).2 ⟨htr, by rw [single_phonons hi]; rfl⟩
    · rw [(mkEquation_short hm hs htr).2 ⟨h, hh, hd, 0, by rw [single_get hi]; simp⟩]; rfl
  have hgen : initGeneralized σ m ((List.range m.number.sum.toNat).map
      (fun i => (i + 1, f (i + 1)))) = .error .indexError := by
    unfold initGeneralized
    rw [collectM_error (e := .indexError)]
    · rfl
    · intro kv hkv
      obtain ⟨i, -, rfl⟩ := List.mem_map.1 hkv
      rcases hin i with ⟨y, hy⟩ | hy
      · simp only [hy]; exact Or.inl ⟨_, rfl⟩
      · simp only [hy]; exact Or.inr rfl
    · refine ⟨(0 + 1, f (0 + 1)), List.mem_map.2 ⟨0, by simpa using hsum, rfl⟩, ?_⟩
      simp only [h0]; rfl
  simp [buildSystem, hf1, hgen, bind, Except.bind]

end short

/-! ### Mixed shift dtypes -/

theorem incrementG_okOr (δ : Num) {t : Term R} (h : t.kind = .eom ∨ ∃ g, t.gArg = some g) :
    OkOr .typeError (incrementG δ t) := by
  rcases h with h | ⟨g, h1⟩
  · exact Or.inl ⟨t, by simp [incrementG, h]⟩
  · have hi : OkOr .typeError (g.iadd δ) := by
      unfold Num.iadd; split
      · exact Or.inr rfl
      · exact Or.inl ⟨_, rfl⟩
    unfold incrementG
    rcases hi with ⟨y, hy⟩ | hy
    · cases hk : t.kind
      · exact Or.inl ⟨t, rfl⟩
      · simp only [h1, hy]; exact Or.inl ⟨_, rfl⟩
      · simp only [h1, hy]; exact Or.inl ⟨_, rfl⟩
    · cases hk : t.kind
      · exact Or.inl ⟨t, rfl⟩
      · simp only [h1, hy]; exact Or.inr rfl
      · simp only [h1, hy]; exact Or.inr rfl

theorem some_okOr {α : Type _} {e : Err} {x : Py α} (h : OkOr e x) : OkOr e (some <$> x) := by
  rcases h with ⟨y, hy⟩ | hy
  · rw [hy]; exact Or.inl ⟨_, rfl⟩
  · rw [hy]; exact Or.inr rfl

theorem initFull_okOr (δ : Num) {e : Equation R}
    (h : ∀ t ∈ e.terms, t.kind = .eom ∨ ∃ g, t.gArg = some g) :
    OkOr .typeError (initFull e δ) := by
  have := collectM_okOr (f := fun t => some <$> incrementG δ t) (e := .typeError) (xs := e.terms)
    (fun t ht => some_okOr (incrementG_okOr δ (h t ht)))
  unfold initFull
  rcases this with ⟨y, hy⟩ | hy
  · rw [hy]; exact Or.inl ⟨_, rfl⟩
  · rw [hy]; exact Or.inr rfl

/-- the one-site cloud with one phonon of each of two types -/
def pair (n t t' : Nat) : Arr := ⟨(single n t).rows.set t' [1], 1⟩

theorem pair_rows (n t t' : Nat) : (pair n t t').rows.length = n := by
  simp [pair, single_rows]

theorem pair_wf (n t t' : Nat) : (pair n t t').WF := by
  intro r hr
  rcases List.mem_or_eq_of_mem_set hr with h | rfl
  · exact single_wf n t r h
  · rfl

theorem pair_get {n t t' : Nat} (ht : t < n) (ht' : t' < n) (u x : Nat) :
    (pair n t t').get u x = if (u = t ∨ u = t') ∧ x = 0 then 1 else 0 := by
  have hs := single_get ht u x
  simp only [pair, Arr.get, List.getD_eq_getElem?_getD, List.getElem?_set] at hs ⊢
  by_cases h : t' = u
  · subst h
    simp only [single_rows, ht', if_true, Option.getD_some, or_true, true_and]
    cases x <;> simp
  · have h' : ¬ u = t' := fun e => h e.symm
    rw [if_neg h, hs]
    simp [h']

theorem pair_chain {n t t' : Nat} (ht : t < n) (ht' : t' < n) (u : Nat) (x : Int) :
    chain (pair n t t') u x = if (u = t ∨ u = t') ∧ x = 0 then 1 else 0 := by
  rw [chain_eq]
  by_cases h : 0 ≤ x
  · rw [if_pos h, pair_get ht ht']
    have : (x.toNat = 0) = (x = 0) := by apply propext; omega
    simp only [this]
  · rw [if_neg h, if_neg]; omega

theorem pair_truncation {m : Model R} {ae : Int} (hm : Bounded m ae) {t t' : Nat}
    (ht : t < m.nTypes) (ht2 : t' < m.nTypes) : InTruncation m ae (pair m.nTypes t t') := by
  have hch := pair_chain ht ht2
  refine ⟨by have := hm.aePos; simpa [pair] using this, pair_rows _ _ _, ?_, ?_, ?_, ?_⟩
  · refine cloud_of_get (proper_of_get (pair_wf _ t t') ?_) (by simp [pair]) ⟨t, ?_⟩ ⟨t, ?_⟩
    · intro u x; rw [pair_get ht ht2]; split <;> omega
    · rw [pair_get ht ht2]; simp
    · rw [pair_get ht ht2]; simp [pair]
  · intro c hc u x
    rw [hch]
    have := hm.capPos c hc
    split <;> omega
  · intro M hM u hu
    cases hM
    rw [pair_rows] at hu
    have hl : u < m.extent.length := by rw [hm.ext]; exact hu
    have h1 := hm.extPos _ (List.getElem_mem hl)
    refine ⟨m.extent[u], List.getElem?_eq_getElem hl, by omega, ?_⟩
    intro x y hx hy
    rw [hch] at hx hy
    split at hx
    · split at hy
      · omega
      · exact absurd rfl hy
    · exact absurd rfl hx
  · intro N hN u hu
    cases hN
    rw [pair_rows] at hu
    have hl : u < m.number.length := by rw [hm.num]; exact hu
    have h1 := hm.numPos _ (List.getElem_mem hl)
    refine ⟨m.number[u], List.getElem?_eq_getElem hl, ?_⟩
    rw [typeTotal_eq_sum (pair_wf _ t t') u (lo := 0) (hi := 1) le_rfl (by simp [pair])]
    have : Finset.Ico (0 : Int) 1 = {0} := by ext y; simp; omega
    rw [this, Finset.sum_singleton, hch]
    split <;> omega

/-- A creation term with a half-integer phonon shift and a creation term of another phonon type with
integer shifts cannot be combined: the construction raises `TypeError`. -/
theorem buildSystem_mixed (σ : SetOrder) {m : Model R} {ae : Int} (hm : Shaped m ae)
    (heven : ∀ h ∈ m.ham.terms, h.phi.flt = false → Even h.phi.tw)
    {h h' : SingleTerm R} (hh : h ∈ m.ham.terms) (hh' : h' ∈ m.ham.terms)
    (hd : h.dag = .plus) (hd' : h'.dag = .plus) (hodd : ¬ Even h.phi.tw)
    (hint : (h'.psi.flt || h'.phi.flt) = false) (hne : h'.phononIndex ≠ h.phononIndex) :
    buildSystem σ m = .error .typeError := by
  obtain ⟨L, U, hS⟩ := generalized_ok σ hm
  have hL := hS.ok
  have hi := hm.index h hh
  have hi' := hm.index h' hh'
  have htr := single_truncation hm hi
  set s := single m.nTypes h.phononIndex with hs
  have hconf : ∀ a, Node m ae a → (L.eqn a).config = a := by
    rintro a (rfl | ha)
    · rw [hL.eqn_vac]; rfl
    · obtain ⟨ts, e, -⟩ := hL.eqn a ha; rw [e]
  -- the half-integer argument of the one-phonon cloud
  obtain ⟨δ, hδ, hδ2⟩ : ∃ δ ∈ L.deltas s, δ.tw = h.phi.tw := by
    have := hL.deltas_cover (vac m) (Or.inl rfl) (eomOf m h) (by
      rw [hL.eqn_vac]
      simp only [greenEq, greenTerms, List.mem_map, List.mem_filter, decide_eq_true_eq]
      exact ⟨h, ⟨hh, hd⟩, rfl⟩)
    exact this
  have hδf : δ.flt = true := by
    obtain ⟨b, hb, t, ht, h1, rfl⟩ := hL.deltas_sub s (Or.inr htr) δ hδ
    by_contra hc
    have hc' : t.fArg.flt = false := by simpa using hc
    rcases hb with rfl | hb
    · rw [hL.eqn_vac] at ht
      simp only [greenEq, greenTerms, List.mem_map, List.mem_filter, decide_eq_true_eq] at ht
      obtain ⟨x, ⟨hx, -⟩, rfl⟩ := ht
      exact hodd (hδ2 ▸ heven x hx hc')
    · obtain ⟨ts, e1, e2⟩ := hL.eqn b hb
      rw [e1] at ht
      obtain ⟨x, hx, γ, -, hp⟩ := e2.mem ht
      have hxe := heven x hx (by rw [← hp.fflt]; exact hc')
      rcases hp.cloud with ⟨-, o, -, k, -⟩ | ⟨-, -, k, -⟩
      · rw [hδ2] at k
        apply hodd
        rw [k]
        rw [Int.even_iff] at hxe ⊢
        omega
      · rw [hδ2] at k; rw [k] at hodd; exact hodd (by simp)
  -- a term with an integer propagator argument
  obtain ⟨t, ht, hg⟩ : ∃ t ∈ (L.eqn s).terms, t.kind = .cre ∧ ∃ g, t.gArg = some g ∧ g.flt = false := by
    obtain ⟨ts, e1, e2⟩ := hL.eqn s htr
    have hposs : Possible m ae s h' 0 := by
      refine ⟨by rw [hd']; simp, pair m.nTypes h.phononIndex h'.phononIndex, 0, ?_,
        Or.inr (pair_truncation hm.bounded hi hi')⟩
      refine ⟨by rw [pair_rows, hs, single_rows], fun u y => ?_⟩
      rw [pair_chain hi hi', hs, single_chain hi, hd', sub_zero]
      by_cases h1 : u = h.phononIndex
      · subst h1
        have : ¬ h.phononIndex = h'.phononIndex := fun e => hne e.symm
        simp [this]
      · simp [h1, Dag.delta]
    obtain ⟨t, ht, hp⟩ := e2.exists hh' hposs
    obtain ⟨g, hg, -⟩ := hp.gArg
    exact ⟨t, by rw [e1]; exact ht, by rw [hp.kind, hd'], g, hg, by rw [hp.gflt g hg]; exact hint⟩
  have hkinds : ∀ a, Node m ae a → ∀ t ∈ (L.eqn a).terms, t.kind = .eom ∨ ∃ g, t.gArg = some g := by
    intro a ha t ht
    obtain ⟨-, x, -, -, q⟩ := term_dtypes hm hL.eqn_vac hL.eqn ha ht
    rcases q with q | ⟨g, q, -⟩
    · exact Or.inl q
    · exact Or.inr ⟨g, q⟩
  have hnonnil : ∀ a, Node m ae a → L.deltas a ≠ [] := by
    intro a ha h0
    obtain ⟨b, hb, t, ht, rfl⟩ := reachable hm hL.eqn_vac hL.eqn ha
    obtain ⟨δ, hδ, -⟩ := hL.deltas_cover b hb t ht
    rw [h0] at hδ; simp at hδ
  have hexp : ∀ a, Node m ae a → OkOr .typeError (expandEq U (L.eqn a)) := by
    intro a ha
    rw [expandEq, hconf a ha, get?_of_vals (by rw [← hS.vals]; exact hnonnil a ha)]
    exact collectM_okOr (fun δ _ => some_okOr (initFull_okOr δ (hkinds a ha)))
  have hfail : expandEq U (L.eqn s) = .error .typeError := by
    rw [expandEq, hconf s (Or.inr htr), get?_of_vals (by rw [← hS.vals]; exact hnonnil s (Or.inr htr))]
    refine collectM_error (fun δ _ => some_okOr (initFull_okOr δ (hkinds s (Or.inr htr))))
      ⟨δ, by rw [← hS.vals]; exact hδ, ?_⟩
    have : collectM (fun t => some <$> incrementG δ t) (L.eqn s).terms = .error .typeError := by
      refine collectM_error (fun t ht => some_okOr (incrementG_okOr δ (hkinds s (Or.inr htr) t ht)))
        ⟨t, ht, ?_⟩
      obtain ⟨k1, g, k2, k3⟩ := hg
      simp [incrementG, k1, k2, Num.iadd, k3, hδf, bind, Except.bind, Functor.map, Except.map]
    rw [initFull, this]; rfl
  have heqs : initEquations ((List.range m.number.sum.toNat).map
      (fun i => (i + 1, (L.clouds (i + 1)).map L.eqn)) ++ [(0, [greenEq m])]) U =
      .error .typeError := by
    have hlist : ∀ es : List (Equation R), (∀ e ∈ es, ∃ a, Node m ae a ∧ e = L.eqn a) →
        OkOr .typeError (collectM (fun e => some <$> expandEq U e) es) := by
      intro es hes
      apply collectM_okOr
      intro e he
      obtain ⟨a, ha, rfl⟩ := hes e he
      exact some_okOr (hexp a ha)
    have hcl : ∀ i, ∀ e ∈ (L.clouds (i + 1)).map L.eqn, ∃ a, Node m ae a ∧ e = L.eqn a := by
      intro i e he
      obtain ⟨a, ha, rfl⟩ := List.mem_map.1 he
      exact ⟨a, Or.inr ((hL.mem _ _).1 ha).1, rfl⟩
    unfold initEquations
    refine collectM_error ?_ ⟨(0 + 1, (L.clouds (0 + 1)).map L.eqn), ?_, ?_⟩
    · intro kv hkv
      have : OkOr .typeError (collectM (fun e => some <$> expandEq U e) kv.2) := by
        apply hlist
        rcases List.mem_append.1 hkv with hkv | hkv
        · obtain ⟨i, -, rfl⟩ := List.mem_map.1 hkv
          exact hcl i
        · simp only [List.mem_singleton] at hkv
          subst hkv
          intro e he
          simp only [List.mem_singleton] at he
          exact ⟨vac m, Or.inl rfl, by rw [he, hL.eqn_vac]⟩
      rcases this with ⟨y, hy⟩ | hy
      · rw [hy]; exact Or.inl ⟨_, rfl⟩
      · rw [hy]; exact Or.inr rfl
    · refine List.mem_append_left _ (List.mem_map.2 ⟨0, ?_, rfl⟩)
      have := phonons_bounds hm.toListsOk htr
      rw [hs, single_phonons hi] at this
      rw [List.mem_range]; omega
    · have : collectM (fun e => some <$> expandEq U e) ((L.clouds (0 + 1)).map L.eqn) =
          .error .typeError := by
        refine collectM_error ?_ ⟨L.eqn s, List.mem_map.2 ⟨s, ?_, rfl⟩, by rw [hfail]; rfl⟩
        · intro e he
          obtain ⟨a, ha, rfl⟩ := hcl 0 e he
          exact some_okOr (hexp a ha)
        · exact (hL.mem _ _).2 ⟨htr, by rw [hs, single_phonons hi]; rfl⟩
      rw [this]; rfl
  simp only [buildSystem, hS.confs, hS.gens, bind, Except.bind]
  rw [heqs]

end GGCE
