import Verif.Proofs.Size
import Verif.Props.Count
import Verif.Props.Numbering

/-!
Property C113: how large the linear system of a model is (`ggce/engine/system.py:157-260`,
`ggce/executors/solvers.py:214-264`).
-/

set_option linter.unusedSectionVars false

namespace GGCE.Props
open Spec Arr Dict Petsc

variable {R K : Type} [Field R] [LinearOrder R] [Field K]

/-- the nodes are the vacuum and the clouds -/
theorem nodes_length {m : Model R} {ae : Int} (hl : ListsOk m) {L : Layout R} (hL : L.Ok m ae) {cs : List Arr}
    (hn : cs.Nodup) (hcs : ∀ a, a ∈ cs ↔ InTruncation m ae a) : (L.nodes m).Perm (vac m :: cs) := by
  rw [List.perm_ext_iff_of_nodup hL.nodes_nodup (List.nodup_cons.2 ⟨fun h => not_truncation_vac ((hcs _).1 h), hn⟩)]
  intro a
  rw [Layout.mem_nodes hl hL, List.mem_cons, hcs]
  rfl

/-- **C113** (unknowns): one unknown for the Green's function, and for every cloud of the truncated space at least
one and at most as many as there are arguments within reach (`argSet`). -/
theorem C113_unknowns (σ : SetOrder) (m : Model R) (ae : Int) (hm : WellFormed m ae) (b : Built R)
    (hb : buildSystem σ m = .ok b) (cs : List Arr) (hn : cs.Nodup) (hcs : ∀ a, a ∈ cs ↔ InTruncation m ae a) :
    1 + cs.length ≤ (allEqs b.eqs).length ∧ (allEqs b.eqs).length ≤ 1 + cs.length * (argSet m ae).card := by
  obtain ⟨b', L, h1, hL, hd⟩ := buildSystem_ok σ hm
  rw [hb] at h1; cases h1
  have hp := nodes_length hm.toListsOk hL hn hcs
  obtain ⟨δ, h0, -⟩ := hL.deltas_vac hm.toShaped
  have hlen : (allEqs b.eqs).length = 1 + (cs.map (fun a => (L.deltas a).length)).sum := by
    rw [hL.allEqs_eq hd, List.length_flatMap]
    simp only [List.length_map]
    rw [(hp.map _).sum_eq, List.map_cons, List.sum_cons, h0]
    rfl
  rw [hlen]
  constructor
  · have := List.card_nsmul_le_sum (cs.map (fun a => (L.deltas a).length)) 1 (by
      intro x hx
      obtain ⟨a, ha, rfl⟩ := List.mem_map.1 hx
      exact List.length_pos_iff.2 (hL.deltas_ne_nil hm.toShaped (Or.inr ((hcs a).1 ha))))
    simp only [List.length_map, smul_eq_mul, mul_one] at this
    omega
  · have := List.sum_le_card_nsmul (cs.map (fun a => (L.deltas a).length)) ((argSet m ae).card) (by
      intro x hx
      obtain ⟨a, ha, rfl⟩ := List.mem_map.1 hx
      exact hL.deltas_length hm.toShaped ((hcs a).1 ha))
    simp only [List.length_map, smul_eq_mul] at this
    omega

/-- **C113** (arguments): exactly which unknowns a cloud has. An unknown `f_a(x)` exists precisely if the adjoint of
some Hamiltonian term, with shift `φ`, can act on `a` at a site `y` without leaving the truncated space, and
`x = φ - y`. -/
theorem C113_arguments (σ : SetOrder) (m : Model R) (ae : Int) (hm : WellFormed m ae) (b : Built R)
    (hb : buildSystem σ m = .ok b) (a : Arr) (ha : InTruncation m ae a) (x : Int) :
    (∃ e ∈ allEqs b.eqs, e.config = a ∧ ∃ δ, e.fArg = some δ ∧ δ.tw = x) ↔
      ∃ h ∈ m.ham.terms, ∃ y, Possible m ae a (adjoint h) y ∧ x = h.phi.tw - 2 * y := by
  obtain ⟨b', L, h1, hL, hd⟩ := buildSystem_ok σ hm
  rw [hb] at h1; cases h1
  rw [← hL.delta_iff hm.toShaped ha]
  constructor
  · rintro ⟨e, he, h1, δ, h2, rfl⟩
    obtain ⟨a', ha', δ', hδ', rfl⟩ := (hL.mem_allEqs hm.toListsOk hd e).1 he
    have : a' = a := by rw [← h1]; exact (hL.eqn_config ha').symm
    subst this
    have : δ' = δ := by simpa [full] using h2
    subst this
    exact List.mem_map.2 ⟨_, hδ', rfl⟩
  · intro hx
    obtain ⟨δ, hδ, rfl⟩ := List.mem_map.1 hx
    exact ⟨_, (hL.mem_allEqs hm.toListsOk hd _).2 ⟨a, Or.inr ha, δ, hδ, rfl⟩, hL.eqn_config (Or.inr ha), δ, rfl, rfl⟩

/-- **C113** (count): the number of unknowns is one plus the numbers of arguments of all clouds. -/
theorem C113_count (σ : SetOrder) (m : Model R) (ae : Int) (hm : WellFormed m ae) (b : Built R)
    (hb : buildSystem σ m = .ok b) (cs : List Arr) (hn : cs.Nodup) (hcs : ∀ a, a ∈ cs ↔ InTruncation m ae a)
    (A : Arr → Finset Int) (hA : ∀ a ∈ cs, ∀ x, x ∈ A a ↔
      ∃ h ∈ m.ham.terms, ∃ y, Possible m ae a (adjoint h) y ∧ x = h.phi.tw - 2 * y) :
    (allEqs b.eqs).length = 1 + (cs.map (fun a => (A a).card)).sum := by
  obtain ⟨b', L, h1, hL, hd⟩ := buildSystem_ok σ hm
  rw [hb] at h1; cases h1
  have hp := nodes_length hm.toListsOk hL hn hcs
  obtain ⟨δ, h0, -⟩ := hL.deltas_vac hm.toShaped
  rw [hL.allEqs_eq hd, List.length_flatMap]
  simp only [List.length_map]
  rw [(hp.map _).sum_eq, List.map_cons, List.sum_cons, h0]
  congr 2
  refine List.map_congr_left fun a ha => ?_
  rw [← List.length_map (f := Num.tw), ← List.toFinset_card_of_nodup (hL.deltas_nodup a)]
  congr 1
  ext x
  rw [List.mem_toFinset, hL.delta_iff hm.toShaped ((hcs a).1 ha), hA a ha]

/-- **C113** (entries): the assembled matrix is square with one row per unknown; its coordinate list names every
position at most once, has an entry in every diagonal position and at most `rowBound` entries per unknown. -/
theorem C113_entries (σ : SetOrder) (m : Model R) (ae : Int) (hm : WellFormed m ae) (b : Built R)
    (hb : buildSystem σ m = .ok b) (F : Phys R K) (p : Point R) :
    ∃ ls, scaffold F m p (fullBasis b.eqs) b.eqs = .ok ls ∧
      cooRows ls.triples = (allEqs b.eqs).length ∧ cooCols ls.triples = (allEqs b.eqs).length ∧
      (ls.triples.map (fun q => (q.1, q.2.1))).Nodup ∧
      (allEqs b.eqs).length ≤ ls.triples.length ∧
      ls.triples.length ≤ (allEqs b.eqs).length * rowBound m ae := by
  have hr := ready_of_built hm hb
  obtain ⟨T, h1, h2, h3, h4, -⟩ := hr.sparse F p
  obtain ⟨T', e0, e1⟩ : ∃ T' : LinSys K, scaffold F m p (fullBasis b.eqs) b.eqs = .ok T' ∧ T'.triples = T := by
    obtain ⟨ls, d, e1, -⟩ := petscScaffold_ok σ m ae hm b hb F p 1 le_rfl
    refine ⟨ls, e1, ?_⟩
    unfold scaffold at e1
    simp only [h1, bind, Except.bind] at e1
    split at e1
    · cases e1
    · split at e1
      · cases e1
      · cases e1
      · cases e1; rfl
  obtain ⟨c1, c2⟩ := cooRows_eq hr.length_pos h3 h4
  refine ⟨T', e0, by rw [e1, c1], by rw [e1, c2], by rw [e1]; exact h2, ?_, ?_⟩
  · have hs : ((List.range (allEqs b.eqs).length).map (fun i => (i, i))).Subperm (T.map (fun q => (q.1, q.2.1))) := by
      apply List.Nodup.subperm
      · exact List.nodup_range.map fun i j h => (Prod.mk.inj h).1
      · intro q hq
        obtain ⟨i, hi, rfl⟩ := List.mem_map.1 hq
        exact h4 i (List.mem_range.1 hi)
    have := hs.length_le
    simpa [e1] using this
  · obtain ⟨b', L, h1', hL, hd⟩ := buildSystem_ok σ hm
    rw [hb] at h1'; cases h1'
    have := sparseTriples_length h1
    rw [(hr.order_perm.map _).sum_eq] at this
    rw [e1]
    refine this.trans ?_
    have := List.sum_le_card_nsmul ((allEqs b.eqs).map (fun e => e.terms.length + 1)) (rowBound m ae) (by
      intro x hx
      obtain ⟨e, he, rfl⟩ := List.mem_map.1 hx
      obtain ⟨a, ha, δ, -, rfl⟩ := (hL.mem_allEqs hm.toListsOk hd e).1 he
      simpa [full] using hL.terms_le hm.toShaped ha)
    simpa using this

/-- how many clouds a model with one phonon type has -/
theorem clouds_one (m : Model R) (M N : Int) (hdim : m.ham.dimension ≤ 1) (htypes : m.nTypes = 1)
    (hM : m.extent = [M]) (hN : m.number = [N]) (hcap : m.maxPerSite = none) (habs : m.absExtentOpt = none) :
    ∃ cs : List Arr, cs.Nodup ∧ (∀ a, a ∈ cs ↔ InTruncation m M a) ∧ totalGeneralized [M] [N] 1 = .ok cs.length := by
  have hl : ListsOk m := ⟨by rw [hM, htypes]; rfl, by rw [hN, htypes]; rfl⟩
  have hae : m.absExtent = some M := by simp [Model.absExtent, habs, hM]
  obtain ⟨f, hf, hf2⟩ := generateAll_ok hl (by omega) hdim hae
  obtain ⟨confs, h1, h2⟩ := C11_count m M N hdim htypes hM hN hcap habs
  rw [hf] at h1; cases h1
  refine ⟨(List.range m.number.sum.toNat).flatMap (fun i => f (i + 1)), ?_, ?_, ?_⟩
  · rw [List.nodup_flatMap]
    refine ⟨fun i _ => (hf2 _).1, List.nodup_range.imp fun {i j} hij => ?_⟩
    rw [Function.onFun, List.disjoint_left]
    intro a h1 h2
    have e1 := (((hf2 _).2 a).1 h1).2
    have e2 := (((hf2 _).2 a).1 h2).2
    omega
  · intro a
    simp only [List.mem_flatMap, List.mem_range]
    constructor
    · rintro ⟨i, -, hi⟩
      exact (((hf2 _).2 a).1 hi).1
    · intro h
      obtain ⟨h1, h2⟩ := phonons_bounds hl h
      exact ⟨(phonons a).toNat - 1, by omega, ((hf2 _).2 a).2 ⟨h, by omega⟩⟩
  · rw [h2, List.length_flatMap]
    simp [List.map_map, Function.comp_def]

/-- **C113** (count, one phonon type): the number of unknowns computed from the clouds alone. -/
theorem C113_one_type (σ : SetOrder) (m : Model R) (M N : Int) (hm : WellFormed m M) (htypes : m.nTypes = 1)
    (hM : m.extent = [M]) (hN : m.number = [N]) (hcap : m.maxPerSite = none) (b : Built R) (hb : buildSystem σ m = .ok b) :
    ∃ confs, generateAll m = .ok confs ∧
      (allEqs b.eqs).length = 1 + ((confs.flatMap Prod.snd).map (fun a => (oneArgs m.ham.terms M N a).length)).sum := by
  have hl := hm.toListsOk
  obtain ⟨f, hf, hf2⟩ := generateAll_ok hl (by omega) hm.dim.le hm.absExtent
  have hmem : ∀ a, a ∈ (List.range m.number.sum.toNat).flatMap (fun i => f (i + 1)) ↔ InTruncation m M a := by
    intro a
    simp only [List.mem_flatMap, List.mem_range]
    constructor
    · rintro ⟨i, -, hi⟩
      exact (((hf2 _).2 a).1 hi).1
    · intro h
      obtain ⟨h1, h2⟩ := phonons_bounds hl h
      exact ⟨(phonons a).toNat - 1, by omega, ((hf2 _).2 a).2 ⟨h, by omega⟩⟩
  refine ⟨_, hf, ?_⟩
  rw [List.flatMap_map]
  have := C113_count σ m M hm b hb _ (by
    rw [List.nodup_flatMap]
    refine ⟨fun i _ => (hf2 _).1, List.nodup_range.imp fun {i j} hij => ?_⟩
    rw [Function.onFun, List.disjoint_left]
    intro a h1 h2
    have e1 := (((hf2 _).2 a).1 h1).2
    have e2 := (((hf2 _).2 a).1 h2).2
    omega) hmem (fun a => (oneArgs m.ham.terms M N a).toFinset) (by
    intro a ha x
    rw [List.mem_toFinset, oneArgs_iff htypes hM hN hcap hm.index ((hmem a).1 ha)])
  rw [this]
  congr 2
  refine List.map_congr_left fun a _ => ?_
  exact List.toFinset_card_of_nodup (List.nodup_dedup _)

theorem argTable_eq {m : Model R} {ct : String} (hk : Known ct) {g w : R} {i : Nat} (h : m.ham.terms = termsOf ct g i w)
    {M : Int} (hM : 1 ≤ M) : (argSet m M).card = argTable ct M.toNat := by
  have key : ∀ (s : Finset ℤ) (lo hi : ℤ) (c : ℤ), (∀ x, x ∈ s ↔ ∃ j, lo ≤ j ∧ j ≤ hi ∧ x = c + 2 * j) →
      s.card = (hi + 1 - lo).toNat := by
    intro s lo hi c hs
    rw [← Int.card_Icc, ← Finset.card_image_of_injective (Finset.Icc lo hi) (f := fun j => c + 2 * j)
      (fun x y h => by simpa using h)]
    congr 1
    ext x
    simp only [hs, Finset.mem_image, Finset.mem_Icc]
    constructor
    · rintro ⟨j, h1, h2, rfl⟩; exact ⟨j, ⟨h1, h2⟩, rfl⟩
    · rintro ⟨j, ⟨h1, h2⟩, rfl⟩; exact ⟨j, h1, h2, rfl⟩
  have hmem : ∀ x, x ∈ argSet m M ↔ ∃ p ∈ (termsOf ct g i w).map (fun h => h.phi.tw), ∃ j, 1 - M ≤ j ∧ j ≤ M - 1 ∧
      x = p + 2 * j := by
    intro x
    simp only [argSet, h, Finset.mem_image, Finset.mem_product, List.mem_toFinset, Finset.mem_Icc, Prod.exists]
    constructor
    · rintro ⟨p, j, ⟨h1, h2, h3⟩, rfl⟩; exact ⟨p, h1, j, h2, h3, rfl⟩
    · rintro ⟨p, h1, j, h2, h3, rfl⟩; exact ⟨p, j, ⟨h1, h2, h3⟩, rfl⟩
  rcases hk with rfl | rfl | rfl | rfl
  · rw [key _ (1 - M) (M - 1) 0 (by
      intro x; rw [hmem]
      simp [termsOf, termShapes, Num.int])]
    simp only [argTable, if_true]; omega
  · rw [key _ (-M) M 0 (by
      intro x; rw [hmem]
      simp only [termsOf, termShapes, Num.int, Option.getD_some, List.map_cons, List.map_nil, List.mem_cons,
        List.not_mem_nil, or_false, reduceIte, String.reduceEq]
      constructor
      · rintro ⟨p, hp, j, h1, h2, rfl⟩
        rcases hp with rfl | rfl | rfl | rfl
        · exact ⟨j + 1, by omega, by omega, by omega⟩
        · exact ⟨j - 1, by omega, by omega, by omega⟩
        · exact ⟨j, by omega, by omega, by omega⟩
        · exact ⟨j, by omega, by omega, by omega⟩
      · rintro ⟨j, h1, h2, rfl⟩
        rcases lt_trichotomy j 0 with h | h | h
        · exact ⟨-2, by simp, j + 1, by omega, by omega, by omega⟩
        · exact ⟨0, by simp, j, by omega, by omega, by omega⟩
        · exact ⟨2, by simp, j - 1, by omega, by omega, by omega⟩)]
    simp only [argTable, String.reduceEq, if_false]; omega
  · rw [key _ (-M) (M - 1) 1 (by
      intro x; rw [hmem]
      simp only [termsOf, termShapes, Num.int, Option.getD_some, List.map_cons, List.map_nil, List.mem_cons,
        List.not_mem_nil, or_false, reduceIte, String.reduceEq]
      constructor
      · rintro ⟨p, hp, j, h1, h2, rfl⟩
        rcases hp with rfl | rfl | rfl | rfl
        · exact ⟨j, by omega, by omega, by omega⟩
        · exact ⟨j, by omega, by omega, by omega⟩
        · exact ⟨j - 1, by omega, by omega, by omega⟩
        · exact ⟨j - 1, by omega, by omega, by omega⟩
      · rintro ⟨j, h1, h2, rfl⟩
        rcases lt_or_ge j 0 with h | h
        · exact ⟨-1, by simp, j + 1, by omega, by omega, by omega⟩
        · exact ⟨1, by simp, j, by omega, by omega, by omega⟩)]
    simp only [argTable, String.reduceEq, if_false, if_true]; omega
  · rw [key _ (-M) M 0 (by
      intro x; rw [hmem]
      simp only [termsOf, termShapes, Num.int, Option.getD_some, List.map_cons, List.map_nil, List.mem_cons,
        List.not_mem_nil, or_false, reduceIte, String.reduceEq]
      constructor
      · rintro ⟨p, hp, j, h1, h2, rfl⟩
        rcases hp with rfl | rfl | rfl | rfl | rfl | rfl | rfl | rfl
        · exact ⟨j, by omega, by omega, by omega⟩
        · exact ⟨j, by omega, by omega, by omega⟩
        · exact ⟨j + 1, by omega, by omega, by omega⟩
        · exact ⟨j + 1, by omega, by omega, by omega⟩
        · exact ⟨j - 1, by omega, by omega, by omega⟩
        · exact ⟨j - 1, by omega, by omega, by omega⟩
        · exact ⟨j, by omega, by omega, by omega⟩
        · exact ⟨j, by omega, by omega, by omega⟩
      · rintro ⟨j, h1, h2, rfl⟩
        rcases lt_trichotomy j 0 with h | h | h
        · exact ⟨-2, by simp, j + 1, by omega, by omega, by omega⟩
        · exact ⟨0, by simp, j, by omega, by omega, by omega⟩
        · exact ⟨2, by simp, j - 1, by omega, by omega, by omega⟩)]
    simp only [argTable, String.reduceEq, if_false]; omega

theorem rowTable_eq {m : Model R} {ct : String} (hk : Known ct) {g w : R} {i : Nat} (h : m.ham.terms = termsOf ct g i w)
    {M : Int} (hM : 1 ≤ M) : rowBound m M = rowTable ct M.toNat := by
  have h1 : (2 * M - 1).toNat = 2 * M.toNat - 1 := by omega
  have h2 : 1 ≤ M.toNat := by omega
  rw [rowBound, dagCount, dagCount, h, h1]
  rcases hk with rfl | rfl | rfl | rfl <;>
    simp only [termsOf, termShapes, Option.getD_some, List.map_cons, List.map_nil, List.filter_cons, List.filter_nil,
      reduceIte, String.reduceEq, reduceCtorEq, decide_true, decide_false, Bool.false_eq_true, List.length_cons,
      List.length_nil, rowTable] <;> omega

/-- **C113** for one `add_` call of any coupling type at zero temperature: with `c` clouds as counted by
`total_generalized_equations`, between `1 + c` and `1 + c · argTable` unknowns, at most `rowTable` entries per
unknown, and the exact number of unknowns computed from the clouds. -/
theorem C113_one_mode (σ : SetOrder) (P : Prims R) (hP : Names P) (hopping lattice : R) (a : AddArgs R)
    (hc : Clean P hopping 0 [a]) (F : Phys R K) (p : Point R) :
    ∃ m b ls c, (Model.fromParameters hopping lattice 0 none 1).adds P [a] = .ok m ∧ buildSystem σ m = .ok b ∧
      scaffold F m p (fullBasis b.eqs) b.eqs = .ok ls ∧ totalGeneralized [a.M] [a.N] 1 = .ok c ∧
      1 + c ≤ cooRows ls.triples ∧ cooRows ls.triples ≤ 1 + c * argTable a.ctype a.M.toNat ∧
      cooCols ls.triples = cooRows ls.triples ∧
      cooRows ls.triples ≤ ls.triples.length ∧
      ls.triples.length ≤ cooRows ls.triples * rowTable a.ctype a.M.toNat ∧
      ∃ confs, generateAll m = .ok confs ∧ cooRows ls.triples =
        1 + ((confs.flatMap Prod.snd).map (fun c => (oneArgs m.ham.terms a.M a.N c).length)).sum := by
  have hv := hc.valid a (by simp)
  have hk := hc.known a (by simp)
  obtain ⟨m, b, h1, ⟨ae, h2⟩, h3⟩ := C16_assembled σ P hP hopping lattice 0 none (by simp) [a] (by simp) hc
    (by rw [modes_of_clean hc]; simp [modesAt]) (by
      by_cases h : a.ctype = "BondPeierls"
      · exact Or.inl (by simpa using h)
      · exact Or.inr (by simpa using h))
  have hr : Records m (modes 0 [a]) := by
    simpa [Model.fromParameters] using adds_records (records_new hopping lattice 0 none 1) h1
  rw [modes_of_clean hc] at hr
  simp only [List.flatMap_cons, List.flatMap_nil, List.append_nil, modesAt, lt_self_iff_false, if_false] at hr
  obtain ⟨-, -, f1, f2, f3, -⟩ := adds_fixed [a] h1
  have hMe : m.extent = [a.M] := hr.extent
  have hae : ae = a.M := by
    have := h2.absExtent
    rw [Model.absExtent, f3] at this
    simpa [Model.fromParameters, hMe] using this.symm
  subst hae
  obtain ⟨cs, k1, k2, k3⟩ := clouds_one m a.M a.N (by rw [f1]; rfl) hr.nTypes hMe hr.number f2 f3
  have hterms : ∃ g, m.ham.terms = termsOf a.ctype g 0 a.freq := by
    unfold Model.adds at h1
    split at h1
    · cases h1
    · rename_i m1 h1'
      cases h1
      rcases add_cases h1' with ⟨hx, -⟩ | ⟨-, H1, q1, ⟨hT, rfl⟩ | ⟨hT, -⟩⟩
      · exact absurd hv hx
      · obtain ⟨⟨g, hg⟩, -⟩ := (hc.defined a (by simp)).strength hv.strength
        have hi : (Model.fromParameters hopping lattice 0 none 1).callIndex a = 0 := by
          simp [Model.callIndex, hc.noOverride a (by simp), Model.fromParameters]
        rw [hi, ham_add_ok P _ hk le_rfl a.freq hv.strength.xor hg] at q1
        cases q1
        exact ⟨_, rfl⟩
      · exact absurd hT (lt_irrefl _)
  obtain ⟨g, hg⟩ := hterms
  obtain ⟨u1, u2⟩ := C113_unknowns σ m a.M h2 b h3 cs k1 k2
  obtain ⟨ls, e1, e2, e3, -, e5, e6⟩ := C113_entries σ m a.M h2 b h3 F p
  rw [argTable_eq hk hg hv.extent] at u2
  rw [rowTable_eq hk hg hv.extent] at e6
  refine ⟨m, b, ls, cs.length, h1, h3, e1, k3, by omega, by omega, by omega, by omega,
    by rw [e2]; exact e6, ?_⟩
  rw [e2]
  exact C113_one_type σ m a.M a.N h2 hr.nTypes hMe hr.number f2 b h3

/-- the coupling of the tutorial notebook, with a round strength -/
def tutorial : AddArgs ℚ := { ctype := "EdwardsFermionBoson", freq := 5 / 4, M := 3, N := 9, g := some 1 }

theorem tutorial_clean : Clean exPrims (1 / 10) 0 [tutorial] where
  valid := by
    intro a ha
    rw [List.mem_singleton] at ha
    subst ha
    exact ⟨by decide, by decide, by simp [tutorial], by simp [tutorial], by simp, Or.inl ⟨1, rfl, rfl⟩, by simp⟩
  known := by simp [tutorial, Known]
  noOverride := by simp [tutorial]
  defined := by simp [tutorial, Defined]

/-- what `generateAll` and the formula give for a model that was assembled by `add_` calls -/
def predicted (P : Prims ℚ) (hopping : ℚ) (a : AddArgs ℚ) : Option Nat :=
  match (Model.fromParameters hopping 1 0 none 1).adds P [a] with
  | .error _ => none
  | .ok m => match generateAll m with
    | .error _ => none
    | .ok confs => some (1 + ((confs.flatMap Prod.snd).map (fun c => (oneArgs m.ham.terms a.M a.N c).length)).sum)

theorem predicted_eq {P : Prims ℚ} {hopping : ℚ} {a : AddArgs ℚ} {m : Model ℚ} {confs : Dict Nat (List Arr)} {n k : Nat}
    (h1 : (Model.fromParameters hopping 1 0 none 1).adds P [a] = .ok m) (h2 : generateAll m = .ok confs)
    (h3 : n = 1 + ((confs.flatMap Prod.snd).map (fun c => (oneArgs m.ham.terms a.M a.N c).length)).sum)
    (h4 : predicted P hopping a = some k) : n = k := by
  unfold predicted at h4
  rw [h1] at h4
  simp only [h2, Option.some.injEq] at h4
  rw [h3, h4]

/-- The tutorial notebook (`notebooks/GGCE_Tutorial.ipynb`, cells with "Predicted 166 generalized equations" and
"Generated 771 total equations"): the coupling EdwardsFermionBoson with extent 3 and 9 phonons has 165 clouds and 771
unknowns; at most 17 entries per unknown. -/
example (σ : SetOrder) (F : Phys ℚ ℚ) (p : Point ℚ) :
    ∃ m b ls, (Model.fromParameters (1 / 10) 1 0 none 1).adds exPrims [tutorial] = .ok m ∧
      buildSystem σ m = .ok b ∧ scaffold F m p (fullBasis b.eqs) b.eqs = .ok ls ∧
      cooRows ls.triples = 771 ∧ ls.triples.length ≤ 771 * 17 := by
  obtain ⟨m, b, ls, c, h1, h2, h3, h4, h5, h6, -, -, h7, confs, h8, h9⟩ := C113_one_mode σ exPrims exPrims_names (1 / 10) 1
    tutorial tutorial_clean F p
  have hp : predicted exPrims (1 / 10) tutorial = some 771 := by decide +kernel
  have hp : cooRows ls.triples = 771 := predicted_eq h1 h8 h9 hp
  have ht : rowTable tutorial.ctype tutorial.M.toNat = 17 := by decide
  rw [hp, ht] at h7
  exact ⟨m, b, ls, h1, h2, h3, hp, h7⟩

end GGCE.Props
