import Verif.Props.Spread
import Verif.Props.Parameters

/-!
Property C96: limits that no occupation can exceed have no effect on the result.
-/

set_option linter.unusedSectionVars false

namespace GGCE.Props
open Spec Arr Complex

variable {m m' : Model ℝ} {ae ae' : ℤ} {n : Occ}

/-- C96, for well-formed models: two models with the same Hamiltonian whose limits allow the same occupations give the
same result at every point, from both solvers. -/
theorem C96_states (σ σ' : SetOrder) (m m' : Model ℝ) (ae ae' : ℤ) (hm : WellFormed m ae) (hm' : WellFormed m' ae')
    (hp : Physical m) (hs : SameSystem m m') (hA : ∀ n, Allowed m ae n ↔ Allowed m' ae' n) (b b' : Built ℝ)
    (hb : buildSystem σ m = .ok b) (hb' : buildSystem σ' m' = .ok b') (k w eta : ℝ) (heta : 0 < eta) :
    ∃ G, Gives m b ⟨k, w, eta⟩ G ∧ Gives m' b' ⟨k, w, eta⟩ G := by
  have hp' : Physical m' := by
    obtain ⟨c, hc⟩ := hp.shifts
    refine ⟨⟨c, ?_⟩, ?_, ?_⟩
    · unfold ShiftsOk; rw [hs.ham]; exact hc
    · rw [hs.ham]; exact hp.adj
    · rw [hs.ham, hs.lattice]; exact hp.lattice
  obtain ⟨H, -, h2, h3⟩ := C56_operator σ m ae hm b hb hp k
  obtain ⟨H', -, h2', h3'⟩ := C56_operator σ' m' ae' hm' b' hb' hp' k
  have e : H' = H := by
    ext f n
    rw [h2, h2']
    unfold frame
    have hA' : Allowed m' ae' = Allowed m ae := funext (fun n => propext (hA n).symm)
    have ho : occEnergy m' n = occEnergy m n := by unfold occEnergy; rw [hs.types, hs.ham]
    rw [hA', hs.ham, hs.lattice, ho]
  subst e
  exact ⟨_, (h3 w eta heta).2, (h3' w eta heta).2⟩

theorem allowed_cap (hs : SameSystem m m') (hn : m'.number = m.number) (he : m'.extent = m.extent) (ha : ae' = ae)
    (hm : ListsOk m) (hcap' : ∀ c, m'.maxPerSite = some c → 1 ≤ c ∧ ∀ N ∈ m.number, N ≤ c) (h : Allowed m ae n) :
    Allowed m' ae' n := by
  subst ha
  refine ⟨h.nonneg, by rw [hs.types]; exact h.types, fun c hc t x => ?_, h.window, by rw [he]; exact h.extent,
    by rw [hn]; exact h.number⟩
  obtain ⟨h1, h2⟩ := hcap' c hc
  by_cases ht : n t x = 0
  · rw [ht]; omega
  · have ht' : t < m.number.length := by rw [hm.num]; exact h.types t x ht
    exact (h.le_total t x).trans ((h.number t _ (List.getElem?_eq_getElem ht')).trans (h2 _ (List.getElem_mem _)))

/-- with a cap `c` per site and an extent of `M` sites there are at most `c M` phonons -/
theorem total_le_cap (h : Allowed m ae n) {c M : ℤ} (hc : 0 ≤ c) (hM : 0 ≤ M) {t : ℕ} (h1 : ∀ x, n t x ≤ c)
    (h2 : ∀ x y, n t x ≠ 0 → n t y ≠ 0 → y - x + 1 ≤ M) : ∑ᶠ x, n t x ≤ c * M := by
  have hf := h.finite t
  rcases (Function.support (n t)).eq_empty_or_nonempty with he | hne
  · rw [finsum_eq_zero_of_forall_eq_zero (fun x => by
      by_contra hx
      exact (he ▸ (show x ∈ Function.support (n t) from hx) : x ∈ (∅ : Set ℤ)))]
    positivity
  · obtain ⟨x0, hx0, hmin⟩ := hf.toFinset.exists_min_image id (by simpa using hne)
    simp only [Set.Finite.mem_toFinset, Function.mem_support, id] at hx0 hmin
    rw [finsum_eq_sum_of_support_subset (s := Finset.Icc x0 (x0 + M - 1)) _ (fun x hx => by
      have a1 := hmin x hx
      have a2 := h2 x0 x hx0 hx
      simp only [Finset.coe_Icc, Set.mem_Icc]
      omega)]
    refine (Finset.sum_le_card_nsmul _ _ c (fun x _ => h1 x)).trans ?_
    rw [Int.card_Icc, nsmul_eq_mul, mul_comm]
    refine mul_le_mul_of_nonneg_left ?_ hc
    omega

theorem allowed_number (hs : SameSystem m m') (hc : m'.maxPerSite = m.maxPerSite) (he : m'.extent = m.extent)
    (ha : ae' = ae) (hm : ListsOk m) (hm' : ListsOk m') {c : ℤ} (hcap : m.maxPerSite = some c) (hc1 : 1 ≤ c)
    (hext : ∀ M ∈ m.extent, 1 ≤ M)
    (hnum : ∀ (t : ℕ) M N, m.extent[t]? = some M → m'.number[t]? = some N → c * M ≤ N) (h : Allowed m ae n) :
    Allowed m' ae' n := by
  subst ha
  refine ⟨h.nonneg, by rw [hs.types]; exact h.types, by rw [hc]; exact h.cap, h.window, by rw [he]; exact h.extent,
    fun t N hN => ?_⟩
  have ht : t < m.extent.length := by
    rw [hm.ext, ← hs.types, ← hm'.num]
    exact (List.getElem?_eq_some_iff.1 hN).1
  have hM := List.getElem?_eq_getElem ht
  have := hext _ (List.getElem_mem ht)
  exact (total_le_cap h (by omega) (by omega) (fun x => h.cap c hcap t x) (h.extent t _ hM)).trans (hnum t _ N hM hN)

/-! ### from the user's side -/

/-- two histories of acceptable calls with the same couplings: all that is needed to compare their results -/
theorem assembled_pair (σ σ' : SetOrder) (hopping lattice T : ℝ) (hl : hopping = 0 ∨ (0 < hopping ∧ lattice = 1))
    (cap cap' : Option Int) (hcap : ∀ c, cap = some c → 1 ≤ c) (hcap' : ∀ c, cap' = some c → 1 ≤ c)
    (as as' : List (AddArgs ℝ)) (hne : as ≠ []) (hc : Clean realPrims hopping T as)
    (hf : ((modes T as).map (·.freq)).Nodup)
    (hb : (∀ a ∈ as, a.ctype = "BondPeierls") ∨ (∀ a ∈ as, a.ctype ≠ "BondPeierls"))
    (hs : List.Forall₂ SameCall as as') (hv : ∀ a ∈ as', Valid T a) :
    ∃ m b ae m' b' ae', (Model.fromParameters hopping lattice T cap 1).adds realPrims as = .ok m ∧
      buildSystem σ m = .ok b ∧ (Model.fromParameters hopping lattice T cap' 1).adds realPrims as' = .ok m' ∧
      buildSystem σ' m' = .ok b' ∧ WellFormed m ae ∧ WellFormed m' ae' ∧ Physical m ∧ SameSystem m m' ∧
      (m.extent = (modes T as).map (·.M) ∧ m.number = (modes T as).map (·.N) ∧ m.maxPerSite = cap) ∧
      (m'.extent = (modes T as').map (·.M) ∧ m'.number = (modes T as').map (·.N) ∧ m'.maxPerSite = cap') ∧
      m.absExtentOpt = none ∧ m'.absExtentOpt = none := by
  have hc' := clean_same hc hs hv
  have hne' : as' ≠ [] := by rintro rfl; cases hs; exact hne rfl
  have hf' : ((modes T as').map (·.freq)).Nodup := by
    rw [modes_of_clean hc', freqs_same hs, ← modes_of_clean hc]; exact hf
  have hb' : (∀ a ∈ as', a.ctype = "BondPeierls") ∨ (∀ a ∈ as', a.ctype ≠ "BondPeierls") := by
    rcases hb with hb | hb
    · refine Or.inl (fun a ha => ?_)
      obtain ⟨x, hx, h⟩ := forall₂_mem hs a ha
      rw [h.ctype]; exact hb x hx
    · refine Or.inr (fun a ha => ?_)
      obtain ⟨x, hx, h⟩ := forall₂_mem hs a ha
      rw [h.ctype]; exact hb x hx
  obtain ⟨m, b, h1, ⟨ae, h2⟩, h3⟩ := C16_assembled σ realPrims C42_names hopping lattice T cap hcap as hne hc hf hb
  obtain ⟨m', b', k1, ⟨ae', k2⟩, k3⟩ := C16_assembled σ' realPrims C42_names hopping lattice T cap' hcap' as' hne' hc' hf' hb'
  have r := adds_records (records_new hopping lattice T cap 1) h1
  have r' := adds_records (records_new hopping lattice T cap' 1) k1
  rw [List.nil_append, show (Model.fromParameters hopping lattice T cap 1).temperature = T from rfl] at r
  rw [List.nil_append, show (Model.fromParameters hopping lattice T cap' 1).temperature = T from rfl] at r'
  obtain ⟨-, -, -, q1, q2, -⟩ := adds_fixed as h1
  obtain ⟨-, -, -, q1', q2', -⟩ := adds_fixed as' k1
  exact ⟨m, b, ae, m', b', ae', h1, h3, k1, k3, h2, k2, physical_assembled h1 hb hl,
    adds_same hs (m := Model.fromParameters hopping lattice T cap 1) (m' := Model.fromParameters hopping lattice T cap' 1)
      ⟨rfl, rfl, rfl⟩ rfl hc.valid hc'.valid h1 k1, ⟨r.extent, r.number, q1⟩, ⟨r'.extent, r'.number, q1'⟩, q2, q2'⟩

theorem absExtent_eq (hm : WellFormed m ae) (hm' : WellFormed m' ae') (h : m.absExtentOpt = none)
    (h' : m'.absExtentOpt = none) (he : m'.extent = m.extent) : ae' = ae := by
  have a := hm.absExtent
  have a' := hm'.absExtent
  unfold Model.absExtent at a a'
  rw [h] at a
  rw [h', he] at a'
  simp only at a a'
  rw [a] at a'
  exact (Option.some.inj a').symm

/-- **C96**, the cap. Two models made from the same calls with different `phonon_max_per_site`, each absent or at least
as large as every phonon number: both solvers return the same number for both models, at every point. -/
theorem C96_cap (σ σ' : SetOrder) (hopping lattice T : ℝ) (hl : hopping = 0 ∨ (0 < hopping ∧ lattice = 1))
    (as : List (AddArgs ℝ)) (hne : as ≠ []) (hc : Clean realPrims hopping T as)
    (hf : ((modes T as).map (·.freq)).Nodup)
    (hb : (∀ a ∈ as, a.ctype = "BondPeierls") ∨ (∀ a ∈ as, a.ctype ≠ "BondPeierls"))
    (cap cap' : Option Int) (hcap : ∀ c, cap = some c → ∀ d ∈ modes T as, d.N ≤ c)
    (hcap' : ∀ c, cap' = some c → ∀ d ∈ modes T as, d.N ≤ c) :
    ∃ m b m' b', (Model.fromParameters hopping lattice T cap 1).adds realPrims as = .ok m ∧ buildSystem σ m = .ok b ∧
      (Model.fromParameters hopping lattice T cap' 1).adds realPrims as = .ok m' ∧ buildSystem σ' m' = .ok b' ∧
      ∀ k w eta : ℝ, 0 < eta → ∃ G, Gives m b ⟨k, w, eta⟩ G ∧ Gives m' b' ⟨k, w, eta⟩ G := by
  have hpos : ∀ o : Option Int, (∀ c, o = some c → ∀ d ∈ modes T as, d.N ≤ c) → ∀ c, o = some c → 1 ≤ c := by
    intro o ho c h
    obtain ⟨a, l, rfl⟩ := List.exists_cons_of_ne_nil hne
    have hmem : (⟨a.freq, a.M, a.N⟩ : Mode ℝ) ∈ modes T (a :: l) := by
      rw [modes_of_clean hc]
      refine List.mem_flatMap.2 ⟨a, List.mem_cons_self, ?_⟩
      unfold modesAt
      split <;> simp
    exact (hc.valid a List.mem_cons_self).number.trans (ho c h _ hmem)
  obtain ⟨m, b, ae, m', b', ae', h1, h2, h3, h4, h5, h6, h7, h8, ⟨e1, e2, e3⟩, ⟨f1, f2, f3⟩, a1, a2⟩ :=
    assembled_pair σ σ' hopping lattice T hl cap cap' (hpos _ hcap) (hpos _ hcap') as as hne hc hf hb
      (List.forall₂_same.2 (fun a _ => ⟨rfl, rfl, rfl, rfl, rfl⟩)) hc.valid
  refine ⟨m, b, m', b', h1, h2, h3, h4, fun k w eta heta => ?_⟩
  have hN : ∀ c, (∀ d ∈ modes T as, d.N ≤ c) → ∀ N ∈ (modes T as).map (·.N), N ≤ c := by
    intro c h N hN
    obtain ⟨d, hd, rfl⟩ := List.mem_map.1 hN
    exact h d hd
  have hae := absExtent_eq h5 h6 a1 a2 (f1.trans e1.symm)
  have hs' : SameSystem m' m := ⟨h8.ham.symm, h8.lattice.symm, h8.types.symm⟩
  refine C96_states σ σ' m m' ae ae' h5 h6 h7 h8 (fun n => ⟨fun h => ?_, fun h => ?_⟩) b b' h2 h4 k w eta heta
  · refine allowed_cap h8 (f2.trans e2.symm) (f1.trans e1.symm) hae h5.toListsOk (fun c h => ?_) h
    rw [f3] at h
    exact ⟨hpos _ hcap' c h, by rw [e2]; exact hN c (hcap' c h)⟩
  · refine allowed_cap hs' (e2.trans f2.symm) (e1.trans f1.symm) hae.symm h6.toListsOk (fun c h => ?_) h
    rw [e3] at h
    exact ⟨hpos _ hcap c h, by rw [f2]; exact hN c (hcap c h)⟩

/-- **C96**, the phonon numbers. With a cap of `c` phonons per site, a cloud of `M` sites holds at most `c M` phonons,
and raising a phonon number `N` beyond `c M` changes nothing. -/
theorem C96_numbers (σ σ' : SetOrder) (hopping lattice T : ℝ) (hl : hopping = 0 ∨ (0 < hopping ∧ lattice = 1))
    (c : ℤ) (hc1 : 1 ≤ c)
    (as as' : List (AddArgs ℝ)) (hne : as ≠ []) (hc : Clean realPrims hopping T as)
    (hf : ((modes T as).map (·.freq)).Nodup)
    (hb : (∀ a ∈ as, a.ctype = "BondPeierls") ∨ (∀ a ∈ as, a.ctype ≠ "BondPeierls"))
    (hs : List.Forall₂ SameCall as as') (hv : ∀ a ∈ as', Valid T a)
    (hM : (modes T as').map (·.M) = (modes T as).map (·.M))
    (hN : ∀ d ∈ modes T as, c * d.M ≤ d.N) (hN' : ∀ d ∈ modes T as', c * d.M ≤ d.N) :
    ∃ m b m' b', (Model.fromParameters hopping lattice T (some c) 1).adds realPrims as = .ok m ∧
      buildSystem σ m = .ok b ∧ (Model.fromParameters hopping lattice T (some c) 1).adds realPrims as' = .ok m' ∧
      buildSystem σ' m' = .ok b' ∧
      ∀ k w eta : ℝ, 0 < eta → ∃ G, Gives m b ⟨k, w, eta⟩ G ∧ Gives m' b' ⟨k, w, eta⟩ G := by
  have hcap : ∀ x, some c = some x → 1 ≤ x := fun x h => by cases h; exact hc1
  obtain ⟨m, b, ae, m', b', ae', h1, h2, h3, h4, h5, h6, h7, h8, ⟨e1, e2, e3⟩, ⟨f1, f2, f3⟩, a1, a2⟩ :=
    assembled_pair σ σ' hopping lattice T hl (some c) (some c) hcap hcap as as' hne hc hf hb hs hv
  refine ⟨m, b, m', b', h1, h2, h3, h4, fun k w eta heta => ?_⟩
  have hx : m'.extent = m.extent := by rw [f1, e1, hM]
  have hae := absExtent_eq h5 h6 a1 a2 hx
  have hs' : SameSystem m' m := ⟨h8.ham.symm, h8.lattice.symm, h8.types.symm⟩
  have hnum : ∀ ds : List (Mode ℝ), (∀ d ∈ ds, c * d.M ≤ d.N) → ∀ (t : ℕ) M N, (ds.map (·.M))[t]? = some M →
      (ds.map (·.N))[t]? = some N → c * M ≤ N := by
    intro ds h t M N p1 p2
    rw [List.getElem?_map, Option.map_eq_some_iff] at p1 p2
    obtain ⟨d, hd, rfl⟩ := p1
    obtain ⟨d', hd', rfl⟩ := p2
    rw [hd] at hd'; cases hd'
    exact h d (List.mem_of_getElem? hd)
  refine C96_states σ σ' m m' ae ae' h5 h6 h7 h8 (fun n => ⟨fun h => ?_, fun h => ?_⟩) b b' h2 h4 k w eta heta
  · exact allowed_number h8 (f3.trans e3.symm) hx hae h5.toListsOk h6.toListsOk e3 hc1 h5.extPos
      (by rw [← hx, f1, f2]; exact hnum _ hN') h
  · exact allowed_number hs' (e3.trans f3.symm) hx.symm hae.symm h6.toListsOk h5.toListsOk f3 hc1 h6.extPos
      (by rw [hx, e1, e2]; exact hnum _ hN) h

theorem mode_single {T : ℝ} (hT : ¬ 0 < T) {hopping : ℝ} {a : AddArgs ℝ} (hc : Clean realPrims hopping T [a]) :
    modes T [a] = [⟨a.freq, a.M, a.N⟩] := by
  rw [modes_of_clean hc]
  simp [modesAt, hT]

/-- the sites of a single phonon -/
theorem single_site (h : Allowed m ae n) {t : ℕ} (h1 : ∑ᶠ x, n t x ≤ 1) {x y : ℤ} (hx : n t x ≠ 0) (hy : n t y ≠ 0) :
    x = y := by
  by_contra hxy
  have hf := h.finite t
  have p1 := h.nonneg t x
  have p2 := h.nonneg t y
  have : n t x + n t y ≤ ∑ᶠ z, n t z := by
    rw [finsum_eq_sum_of_support_subset (s := hf.toFinset) _ (by simp), ← Finset.sum_pair hxy]
    refine Finset.sum_le_sum_of_subset_of_nonneg (fun z hz => ?_) (fun z _ _ => h.nonneg t z)
    rcases Finset.mem_insert.1 hz with rfl | hz
    · simpa using hx
    · rw [Finset.mem_singleton.1 hz]; simpa using hy
  omega

theorem allowed_one (hs : SameSystem m m') (hc : m'.maxPerSite = m.maxPerSite) (hn : m.number = [1])
    (hn' : m'.number = [1]) (ht : m.nTypes = 1) (hm' : WellFormed m' ae') (h : Allowed m ae n) :
    Allowed m' ae' n := by
  have hsite : ∀ t x t' y, n t x ≠ 0 → n t' y ≠ 0 → x = y := by
    intro t x t' y hx hy
    have e1 := h.types t x hx
    have e2 := h.types t' y hy
    have : t = t' := by omega
    subst this
    refine single_site h (h.number t 1 ?_) hx hy
    have : t = 0 := by omega
    subst this
    rw [hn]; rfl
  refine ⟨h.nonneg, by rw [hs.types]; exact h.types, by rw [hc]; exact h.cap, fun t x t' y hx hy => ?_,
    fun t M hM x y hx hy => ?_, by rw [hn', ← hn]; exact h.number⟩
  · have := hsite t x t' y hx hy
    have := hm'.aePos
    omega
  · have := hsite t x t y hx hy
    have := hm'.extPos M (List.mem_of_getElem? hM)
    omega

/-- **C96**, the extent. With one phonon type and `N = 1` at zero temperature, the extent `M` does not matter. -/
theorem C96_extent (σ σ' : SetOrder) (hopping lattice : ℝ) (hl : hopping = 0 ∨ (0 < hopping ∧ lattice = 1))
    (cap : Option Int) (hcap : ∀ c, cap = some c → 1 ≤ c) (a : AddArgs ℝ) (hc : Clean realPrims hopping 0 [a])
    (hN : a.N = 1) (M : ℤ) (hM : 1 ≤ M) :
    ∃ m b m' b', (Model.fromParameters hopping lattice 0 cap 1).adds realPrims [a] = .ok m ∧ buildSystem σ m = .ok b ∧
      (Model.fromParameters hopping lattice 0 cap 1).adds realPrims [{ a with M := M }] = .ok m' ∧
      buildSystem σ' m' = .ok b' ∧
      ∀ k w eta : ℝ, 0 < eta → ∃ G, Gives m b ⟨k, w, eta⟩ G ∧ Gives m' b' ⟨k, w, eta⟩ G := by
  have hv := hc.valid a (by simp)
  have hv' : ∀ x ∈ [{ a with M := M }], Valid (0 : ℝ) x := by
    intro x hx
    rw [List.mem_singleton.1 hx]
    exact ⟨hM, hv.number, hv.extentTfd, hv.numberTfd, hv.tfd, hv.strength, hv.override⟩
  have hs : List.Forall₂ SameCall [a] [{ a with M := M }] := .cons ⟨rfl, rfl, rfl, rfl, rfl⟩ .nil
  obtain ⟨m, b, ae, m', b', ae', h1, h2, h3, h4, h5, h6, h7, h8, ⟨e1, e2, e3⟩, ⟨f1, f2, f3⟩, a1, a2⟩ :=
    assembled_pair σ σ' hopping lattice 0 hl cap cap hcap hcap [a] [{ a with M := M }] (by simp) hc
      (by rw [mode_single (lt_irrefl _) hc]; simp) (by
        by_cases h : a.ctype = "BondPeierls"
        · exact Or.inl (by simpa using h)
        · exact Or.inr (by simpa using h)) hs hv'
  rw [mode_single (lt_irrefl _) hc] at e1 e2
  rw [mode_single (lt_irrefl _) (clean_same hc hs hv')] at f1 f2
  simp only [List.map_cons, List.map_nil, hN] at e2 f2
  have ht : m.nTypes = 1 := by rw [← h5.num, e2]; rfl
  refine ⟨m, b, m', b', h1, h2, h3, h4, fun k w eta heta => ?_⟩
  refine C96_states σ σ' m m' ae ae' h5 h6 h7 h8 (fun n => ⟨fun h => ?_, fun h => ?_⟩) b b' h2 h4 k w eta heta
  · exact allowed_one h8 (f3.trans e3.symm) e2 f2 ht h6 h
  · exact allowed_one ⟨h8.ham.symm, h8.lattice.symm, h8.types.symm⟩ (e3.trans f3.symm) f2 e2 (h8.types.trans ht) h5 h

/-- **C96**, the absolute extent. With one phonon type at zero temperature, setting `phonon_absolute_extent` to a value
that is not below the extent `M` changes no result. -/
theorem C96_window (σ σ' : SetOrder) (hopping lattice : ℝ) (hl : hopping = 0 ∨ (0 < hopping ∧ lattice = 1))
    (cap : Option Int) (hcap : ∀ c, cap = some c → 1 ≤ c) (a : AddArgs ℝ) (hc : Clean realPrims hopping 0 [a])
    (x : ℤ) (hx : a.M ≤ x) :
    ∃ m b b', (Model.fromParameters hopping lattice 0 cap 1).adds realPrims [a] = .ok m ∧ buildSystem σ m = .ok b ∧
      (m.setAbsExtent (some x)).absExtent = some x ∧ buildSystem σ' (m.setAbsExtent (some x)) = .ok b' ∧
      ∀ k w eta : ℝ, 0 < eta → ∃ G, Gives m b ⟨k, w, eta⟩ G ∧ Gives (m.setAbsExtent (some x)) b' ⟨k, w, eta⟩ G := by
  have hb : (∀ z ∈ [a], z.ctype = "BondPeierls") ∨ (∀ z ∈ [a], z.ctype ≠ "BondPeierls") := by
    by_cases h : a.ctype = "BondPeierls"
    · exact Or.inl (by simpa using h)
    · exact Or.inr (by simpa using h)
  obtain ⟨m, b, h1, ⟨ae, h2⟩, h3⟩ := C16_assembled σ realPrims C42_names hopping lattice 0 cap hcap [a] (by simp) hc
    (by rw [mode_single (lt_irrefl _) hc]; simp) hb
  have r := (adds_records (records_new hopping lattice 0 cap 1) h1).extent
  rw [List.nil_append, show (Model.fromParameters hopping lattice 0 cap 1).temperature = 0 from rfl,
    mode_single (lt_irrefl _) hc] at r
  simp only [List.map_cons, List.map_nil] at r
  have ht : m.nTypes = 1 := by rw [← h2.ext, r]; rfl
  have hae : ae = a.M := by
    obtain ⟨-, -, -, -, q, -⟩ := adds_fixed [a] h1
    have := h2.absExtent
    unfold Model.absExtent at this
    rw [q, r] at this
    exact (Option.some.inj this).symm
  have hset : m.setAbsExtent (some x) = { m with absExtentOpt := some x } := by
    unfold Model.setAbsExtent
    rw [if_neg (by rw [r]; simp)]
  have hw : WellFormed { m with absExtentOpt := some x } x := by
    have := h2.aePos
    exact ⟨⟨⟨⟨h2.ext, h2.num⟩, rfl, h2.freqs, h2.index⟩, h2.dim, h2.types, by omega, h2.extPos, h2.numPos, h2.capPos, h2.plus,
      h2.minus⟩, h2.dtype⟩
  obtain ⟨b', L, h4, -⟩ := buildSystem_ok σ' hw
  refine ⟨m, b, b', h1, h3, by rw [hset]; rfl, by rw [hset]; exact h4, fun k w eta heta => ?_⟩
  rw [hset]
  refine C96_states σ σ' m _ ae x h2 hw (physical_assembled h1 hb hl) ⟨rfl, rfl, rfl⟩ (fun n => ⟨fun h => ?_, fun h => ?_⟩)
    b b' h3 h4 k w eta heta
  · exact ⟨h.nonneg, h.types, h.cap, fun t u t' v p q => by have := h.window t u t' v p q; omega, h.extent, h.number⟩
  · refine ⟨h.nonneg, h.types, h.cap, fun t u t' v p q => ?_, h.extent, h.number⟩
    have e1 : t < m.nTypes := h.types t u p
    have e2 : t' < m.nTypes := h.types t' v q
    have e3 : t = 0 := by omega
    have e4 : t' = 0 := by omega
    subst e3 e4
    rw [hae]
    exact h.extent 0 a.M (show m.extent[0]? = _ by rw [r]; rfl) u v p q

/-- one Holstein phonon type on 2 sites -/
noncomputable def exOne (N : ℤ) : AddArgs ℝ := { ctype := "Holstein", freq := 1, M := 2, N := N, g := some 1 }

theorem exOne_clean {N : ℤ} (hN : 1 ≤ N) : Clean realPrims 1 0 [exOne N] := by
  constructor <;> intro a ha <;> rw [List.mem_singleton.1 ha]
  · refine ⟨by simp [exOne], hN, by simp [exOne], by simp [exOne], by simp, ?_, by simp⟩
    simp [OneStrength, exOne]
  · simp [Known, exOne]
  · rfl
  · simp [Defined, exOne]

/-- The hypotheses of C96 are met: by a Holstein–Peierls model with at most 3 and 2 phonons, without a cap and with a cap
of 3; by a BondPeierls model at finite temperature; by a Holstein model with one phonon per site on 2 sites, with 2 and
with 7 phonons; with one phonon on 2 and on 9 sites; and with 3 phonons on 2 sites and an absolute extent of 5. -/
example (σ : SetOrder) :
    (∃ m b m' b', (Model.fromParameters (1 : ℝ) 1 0 none 1).adds realPrims exCalls = .ok m ∧ buildSystem σ m = .ok b ∧
      (Model.fromParameters (1 : ℝ) 1 0 (some 3) 1).adds realPrims exCalls = .ok m' ∧ buildSystem σ m' = .ok b' ∧
      ∀ k w eta : ℝ, 0 < eta → ∃ G, Gives m b ⟨k, w, eta⟩ G ∧ Gives m' b' ⟨k, w, eta⟩ G) ∧
    (∃ m b m' b', (Model.fromParameters (1 : ℝ) 1 1 none 1).adds realPrims exBondCalls = .ok m ∧ buildSystem σ m = .ok b ∧
      (Model.fromParameters (1 : ℝ) 1 1 (some 9) 1).adds realPrims exBondCalls = .ok m' ∧ buildSystem σ m' = .ok b' ∧
      ∀ k w eta : ℝ, 0 < eta → ∃ G, Gives m b ⟨k, w, eta⟩ G ∧ Gives m' b' ⟨k, w, eta⟩ G) ∧
    (∃ m b m' b', (Model.fromParameters (1 : ℝ) 1 0 (some 1) 1).adds realPrims [exOne 2] = .ok m ∧
      buildSystem σ m = .ok b ∧ (Model.fromParameters (1 : ℝ) 1 0 (some 1) 1).adds realPrims [exOne 7] = .ok m' ∧
      buildSystem σ m' = .ok b' ∧
      ∀ k w eta : ℝ, 0 < eta → ∃ G, Gives m b ⟨k, w, eta⟩ G ∧ Gives m' b' ⟨k, w, eta⟩ G) ∧
    (∃ m b m' b', (Model.fromParameters (1 : ℝ) 1 0 none 1).adds realPrims [exOne 1] = .ok m ∧
      buildSystem σ m = .ok b ∧ (Model.fromParameters (1 : ℝ) 1 0 none 1).adds realPrims [{ exOne 1 with M := 9 }] = .ok m' ∧
      buildSystem σ m' = .ok b' ∧
      ∀ k w eta : ℝ, 0 < eta → ∃ G, Gives m b ⟨k, w, eta⟩ G ∧ Gives m' b' ⟨k, w, eta⟩ G) ∧
    (∃ m b b', (Model.fromParameters (1 : ℝ) 1 0 none 1).adds realPrims [exOne 3] = .ok m ∧ buildSystem σ m = .ok b ∧
      (m.setAbsExtent (some 5)).absExtent = some 5 ∧ buildSystem σ (m.setAbsExtent (some 5)) = .ok b' ∧
      ∀ k w eta : ℝ, 0 < eta → ∃ G, Gives m b ⟨k, w, eta⟩ G ∧ Gives (m.setAbsExtent (some 5)) b' ⟨k, w, eta⟩ G) := by
  refine ⟨?_, ?_, ?_, ?_, ?_⟩
  · obtain ⟨h1, h2, h3⟩ := exCalls_clean
    refine C96_cap σ σ 1 1 0 (Or.inr ⟨one_pos, rfl⟩) exCalls (by simp [exCalls]) h1 h2 (Or.inr h3) none (some 3) (by simp) ?_
    intro c hc
    cases hc
    rw [modes_of_clean h1]
    simp [exCalls, modesAt]
  · obtain ⟨h1, h2, h3⟩ := exBondCalls_clean
    refine C96_cap σ σ 1 1 1 (Or.inr ⟨one_pos, rfl⟩) exBondCalls (by simp [exBondCalls]) h1 h2 (Or.inl h3) none (some 9)
      (by simp) ?_
    intro c hc
    cases hc
    rw [modes_of_clean h1]
    simp [exBondCalls, modesAt]
  · have h2 := exOne_clean (N := 2) (by norm_num)
    have h7 := exOne_clean (N := 7) (by norm_num)
    refine C96_numbers σ σ 1 1 0 (Or.inr ⟨one_pos, rfl⟩) 1 le_rfl [exOne 2] [exOne 7] (by simp) h2
      (by rw [mode_single (lt_irrefl _) h2]; simp) (Or.inr (by simp [exOne])) (.cons ⟨rfl, rfl, rfl, rfl, rfl⟩ .nil) h7.valid ?_ ?_ ?_
    · rw [mode_single (lt_irrefl _) h2, mode_single (lt_irrefl _) h7]; rfl
    · rw [mode_single (lt_irrefl _) h2]; simp [exOne]
    · rw [mode_single (lt_irrefl _) h7]; simp [exOne]
  · exact C96_extent σ σ 1 1 (Or.inr ⟨one_pos, rfl⟩) none (by simp) _ (exOne_clean le_rfl) rfl 9 (by norm_num)
  · exact C96_window σ σ 1 1 (Or.inr ⟨one_pos, rfl⟩) none (by simp) _ (exOne_clean (by norm_num)) 5 (by simp [exOne])

end GGCE.Props
