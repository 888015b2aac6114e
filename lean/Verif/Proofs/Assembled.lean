import Verif.Proofs.Modes
import Verif.Proofs.Failures
import Mathlib.Data.List.Dedup

/-! Models assembled with `from_parameters` and `add_` are well formed. -/

set_option linter.unusedSectionVars false

namespace GGCE
open Spec

variable {R : Type} [Field R] [LinearOrder R]

theorem termsOf_plus {ct : String} (hk : Known ct) (g : R) (idx : Nat) (freq : R) (d : Dag) :
    ∃ h ∈ termsOf ct g idx freq, h.phononIndex = idx ∧ h.dag = d := by
  rcases hk with rfl | rfl | rfl | rfl <;> cases d <;>
    simp [termsOf, termShapes]

/-- every registered type is created and annihilated by some term -/
def Active (m : Model R) : Prop :=
  ∀ t, t < m.nTypes → ∀ d, ∃ h ∈ m.ham.terms, h.phononIndex = t ∧ h.dag = d

theorem ham_add_mem {P : Prims R} {H H' : Hamiltonian R} {ct : String} {idx : Int} {freq : R}
    {g? lam? : Option R} {mult : R} (h : H.add P ct idx freq g? lam? mult = .ok H')
    {t : SingleTerm R} (ht : t ∈ H.terms) : t ∈ H'.terms := by
  rcases ham_add_cases P H H' ct idx freq g? lam? mult h with rfl | ⟨-, -, g, -, rfl⟩
  · exact ht
  · exact List.mem_append_left _ ht

theorem ham_add_new {P : Prims R} {H H' : Hamiltonian R} {ct : String} {idx : Int} {freq : R}
    {g? lam? : Option R} {mult : R} (hk : Known ct) (hi : 0 ≤ idx)
    (hx : xor g?.isSome lam?.isSome = true) {g : R}
    (hg : Hamiltonian.strength P H.hopping ct freq g? lam? = .ok g)
    (h : H.add P ct idx freq g? lam? mult = .ok H') (d : Dag) :
    ∃ t ∈ H'.terms, t.phononIndex = idx.toNat ∧ t.dag = d := by
  rw [ham_add_ok P H hk hi freq hx hg mult] at h
  cases h
  obtain ⟨t, h1, h2, h3⟩ := termsOf_plus hk (g * mult) idx.toNat freq d
  exact ⟨t, List.mem_append_right _ h1, h2, h3⟩

theorem Spec.Defined.strength {P : Prims R} {hopping : R} {a : AddArgs R} (h : Defined P hopping a)
    (hs : OneStrength a) :
    (∃ g, Hamiltonian.strength P hopping a.ctype a.freq a.g a.lam = .ok g) ∧
    ∃ g, Hamiltonian.strength P hopping a.ctype (-a.freq) a.g a.lam = .ok g := by
  rcases hs with ⟨g, h1, h2⟩ | ⟨l, h1, h2⟩
  · simp [Hamiltonian.strength, h1, h2]
  · simpa [Hamiltonian.strength, h1] using h l h1

theorem active_add {P : Prims R} {m m' : Model R} {a : AddArgs R} (ha : Active m)
    (hk : Known a.ctype) (ho : a.override = none) (hd : Defined P m.ham.hopping a)
    (h : m.add P a = .ok m') : Active m' := by
  have hi : m.callIndex a = (m.nTypes : Int) := by simp [Model.callIndex, ho]
  rcases add_cases h with ⟨-, rfl⟩ | ⟨hv, H1, h1, hrest⟩
  · exact ha
  obtain ⟨⟨g1, hg1⟩, g2, hg2⟩ := hd.strength hv.strength
  rw [hi] at h1
  rcases hrest with ⟨hT, rfl⟩ | ⟨hT, H2, Mt, Nt, hM, hN, h2, rfl⟩
  · intro t ht d
    simp only at ht
    by_cases e : t < m.nTypes
    · obtain ⟨x, h3, h4⟩ := ha t e d
      exact ⟨x, ham_add_mem h1 h3, h4⟩
    · have : t = m.nTypes := by omega
      subst this
      have := ham_add_new hk (by omega) hv.strength.xor hg1 h1 d
      simpa using this
  · rw [hi] at h2
    intro t ht d
    simp only at ht
    by_cases e : t < m.nTypes
    · obtain ⟨x, h3, h4⟩ := ha t e d
      exact ⟨x, ham_add_mem h2 (ham_add_mem h1 h3), h4⟩
    · by_cases e2 : t = m.nTypes
      · subst e2
        obtain ⟨x, h3, h4⟩ := ham_add_new hk (by omega) hv.strength.xor hg1 h1 d
        exact ⟨x, ham_add_mem h2 h3, by simpa using h4⟩
      · have : t = m.nTypes + 1 := by omega
        subst this
        have := ham_add_new hk (by omega) hv.strength.xor
          (by rw [(ham_add_hopping h1).1]; exact hg2) h2 d
        simpa using this

/-- every term comes from a call of the history -/
theorem adds_ctypes {P : Prims R} : ∀ (as : List (AddArgs R)) {m m' : Model R},
    m.adds P as = .ok m' → ∀ h ∈ m'.ham.terms, h ∈ m.ham.terms ∨
      ∃ a ∈ as, ∃ g i f, h ∈ termsOf a.ctype g i f
  | [], m, m', h0, h, hh => by cases h0; exact Or.inl hh
  | a :: as, m, m', h0, h, hh => by
    unfold Model.adds at h0
    split at h0
    · cases h0
    · rename_i m1 h1
      rcases adds_ctypes as h0 h hh with hm | ⟨b, hb, hrest⟩
      · have key : ∀ {H H' : Hamiltonian R} {idx : Int} {freq : R} {mult : R},
            H.add P a.ctype idx freq a.g a.lam mult = .ok H' → h ∈ H'.terms →
            h ∈ H.terms ∨ ∃ g i f, h ∈ termsOf a.ctype g i f := by
          intro H H' idx freq mult e he
          rcases ham_add_cases P H H' _ idx freq a.g a.lam mult e with rfl | ⟨-, -, g, -, rfl⟩
          · exact Or.inl he
          · rcases List.mem_append.1 he with h | h
            · exact Or.inl h
            · exact Or.inr ⟨_, _, _, h⟩
        have fin : h ∈ m.ham.terms ∨ ∃ g i f, h ∈ termsOf a.ctype g i f := by
          rcases add_cases h1 with ⟨-, rfl⟩ | ⟨-, H1, e1, ⟨-, rfl⟩ | ⟨-, H2, Mt, Nt, -, -, e2, rfl⟩⟩
          · exact Or.inl hm
          · exact key e1 hm
          · rcases key e2 hm with h | h
            · exact key e1 h
            · exact Or.inr h
        rcases fin with h | ⟨g, i, f, h⟩
        · exact Or.inl h
        · exact Or.inr ⟨a, by simp, g, i, f, h⟩
      · exact Or.inr ⟨b, List.mem_cons_of_mem _ hb, hrest⟩

theorem termsOf_flt {ct : String} {g : R} {idx : Nat} {freq : R} {h : SingleTerm R}
    (hh : h ∈ termsOf ct g idx freq) : h.psi.flt = false ∧
      (h.phi.flt = true ↔ ct = "BondPeierls") := by
  simp only [termsOf, List.mem_map] at hh
  obtain ⟨s, hs, rfl⟩ := hh
  unfold termShapes at hs
  split at hs
  · subst ct; simp [Num.int] at hs; rcases hs with rfl | rfl <;> simp
  split at hs
  · subst ct; simp [Num.int] at hs; rcases hs with rfl | rfl | rfl | rfl <;> simp
  split at hs
  · subst ct; simp [Num.int] at hs; rcases hs with rfl | rfl | rfl | rfl <;> simp
  split at hs
  · subst ct; simp [Num.int] at hs
    rcases hs with rfl | rfl | rfl | rfl | rfl | rfl | rfl | rfl <;> simp
  · simp at hs

theorem clean_adds {P : Prims R} : ∀ (as : List (AddArgs R)) (m : Model R),
    Clean P m.ham.hopping m.temperature as → Active m → ∃ m', m.adds P as = .ok m' ∧ Active m'
  | [], m, _, ha => ⟨m, rfl, ha⟩
  | a :: as, m, hc, ha => by
    have hv := hc.valid a (by simp)
    have hk := hc.known a (by simp)
    have ho := hc.noOverride a (by simp)
    have hd := hc.defined a (by simp)
    obtain ⟨⟨g1, hg1⟩, g2, hg2⟩ := hd.strength hv.strength
    obtain ⟨m1, h1⟩ := add_ok m hv hk (by simp [Model.callIndex, ho]) hg1 (fun _ => hg2)
    have e := add_fixed h1
    obtain ⟨m', h2, h3⟩ := clean_adds as m1 (by
      rw [e.1, e.2.1]
      exact ⟨fun b hb => hc.valid b (List.mem_cons_of_mem _ hb),
        fun b hb => hc.known b (List.mem_cons_of_mem _ hb),
        fun b hb => hc.noOverride b (List.mem_cons_of_mem _ hb),
        fun b hb => hc.defined b (List.mem_cons_of_mem _ hb)⟩) (active_add ha hk ho hd h1)
    refine ⟨m', ?_, h3⟩
    unfold Model.adds
    rw [h1]
    exact h2

theorem le_max_of_mem {x : Int} : ∀ {l : List Int}, x ∈ l → ∃ y, l.max? = some y ∧ x ≤ y := by
  intro l hl
  cases h : l.max? with
  | none => rw [List.max?_eq_none_iff] at h; subst h; simp at hl
  | some y =>
    exact ⟨y, rfl, (List.max?_eq_some_iff.1 h).2 x hl⟩

theorem modes_of_clean {P : Prims R} {hopping T : R} {as : List (AddArgs R)}
    (hc : Clean P hopping T as) : modes T as = as.flatMap (modesAt T) := by
  unfold modes
  congr 1
  rw [List.filter_eq_self]
  intro a ha
  simpa using hc.valid a ha

theorem modesAt_ne (T : R) (a : AddArgs R) : modesAt T a ≠ [] := by
  unfold modesAt; split <;> simp

theorem bounded_of_records {m : Model R} {ms : List (Mode R)} (hr : Records m ms)
    (hpos : 1 ≤ ms.length) (hidx : ∀ h ∈ m.ham.terms, h.phononIndex < m.nTypes)
    (h0 : m.absExtentOpt = none) (hdim : m.ham.dimension = 1)
    (hcap : ∀ c, m.maxPerSite = some c → 1 ≤ c) : ∃ ae, Bounded m ae := by
  have hex : ∀ x ∈ m.extent, 1 ≤ x := by
    rw [hr.extent]; intro x hx
    obtain ⟨d, hd, rfl⟩ := List.mem_map.1 hx
    exact hr.extPos d hd
  have habs : ∃ ae, m.absExtent = some ae ∧ 1 ≤ ae := by
    have hl : m.extent ≠ [] := by
      rw [hr.extent]; intro h
      rw [List.map_eq_nil_iff] at h
      rw [h] at hpos; simp at hpos
    obtain ⟨x, xs, hx⟩ := List.exists_cons_of_ne_nil hl
    obtain ⟨y, hy, hxy⟩ := le_max_of_mem (x := x) (l := m.extent) (by rw [hx]; simp)
    have := hex x (by rw [hx]; simp)
    exact ⟨y, by simp [Model.absExtent, h0, hy], by omega⟩
  obtain ⟨ae, hae, hae1⟩ := habs
  refine ⟨ae, { ext := by rw [hr.extent, hr.nTypes]; simp
                num := by rw [hr.number, hr.nTypes]; simp
                absExtent := hae
                index := hidx
                dim := hdim
                types := by rw [hr.nTypes]; exact hpos
                aePos := hae1
                extPos := hex
                numPos := ?_
                capPos := hcap }⟩
  rw [hr.number]; intro x hx
  obtain ⟨d, hd, rfl⟩ := List.mem_map.1 hx
  exact hr.numPos d hd

/-- what a clean history of calls gives, whatever the frequencies -/
theorem assembled_bounded {P : Prims R}
    (hopping lattice T : R) (cap : Option Int) (hcap : ∀ c, cap = some c → 1 ≤ c)
    (as : List (AddArgs R)) (hne : as ≠ []) (hc : Clean P hopping T as) :
    ∃ m ae, (Model.fromParameters hopping lattice T cap 1).adds P as = .ok m ∧ Bounded m ae ∧
      Active m ∧ Records m (modes T as) ∧ TermsBelong m.ham (modes T as) := by
  obtain ⟨m, h1, h2⟩ := clean_adds as (Model.fromParameters hopping lattice T cap 1) hc
    (by intro t ht; simp [Model.fromParameters] at ht)
  have hr : Records m (modes T as) := by
    simpa [Model.fromParameters] using adds_records (records_new hopping lattice T cap 1) h1
  have hb : TermsBelong m.ham (modes T as) := by
    have := adds_belong (records_new hopping lattice T cap 1)
      (by intro h hh; simp [Model.fromParameters, Hamiltonian.new] at hh) hc.noOverride h1
    simpa [Model.fromParameters] using this
  have hfix := adds_fixed as h1
  have hpos : 1 ≤ (modes T as).length := by
    rw [modes_of_clean hc]
    obtain ⟨a, as', rfl⟩ := List.exists_cons_of_ne_nil hne
    have := List.length_pos_iff.2 (modesAt_ne T a)
    simp only [List.flatMap_cons, List.length_append]; omega
  obtain ⟨ae, hae⟩ := bounded_of_records hr hpos (by
    intro h hh
    obtain ⟨d, hd, -⟩ := hb h hh
    rw [hr.nTypes]
    exact (List.getElem?_eq_some_iff.1 hd).1) hfix.2.2.2.2.1 hfix.2.2.1
    (by rw [hfix.2.2.2.1]; exact hcap)
  exact ⟨m, ae, h1, hae, h2, hr, hb⟩

theorem assembled {P : Prims R}
    (hP : ∀ ct t w l, Known ct → P.couplingMap ct t w l ≠ .error .runtimeError)
    (hopping lattice T : R) (cap : Option Int) (hcap : ∀ c, cap = some c → 1 ≤ c)
    (as : List (AddArgs R)) (hne : as ≠ []) (hc : Clean P hopping T as)
    (hf : ((modes T as).map (·.freq)).Nodup) :
    ∃ m ae, (Model.fromParameters hopping lattice T cap 1).adds P as = .ok m ∧ Shaped m ae ∧
      Active m := by
  obtain ⟨m, ae, h1, hb, h2, hr, -⟩ := assembled_bounded hopping lattice T cap hcap as hne hc
  have hfr : m.ham.freqs = (modes T as).map (·.freq) := by
    have := adds_freqs hP T as (Model.fromParameters hopping lattice T cap 1) m [] rfl
      (fun a ha _ => hc.known a ha) rfl (by simpa using hf) h1
    simpa using this
  refine ⟨m, ae, h1, ?_, h2⟩
  refine { toListsOk := hb.toListsOk
           absExtent := hb.absExtent
           freqs := by rw [hfr, hr.nTypes]; simp
           index := hb.index
           dim := hb.dim
           types := hb.types
           aePos := hb.aePos
           extPos := hb.extPos
           numPos := hb.numPos
           capPos := hb.capPos
           plus := fun t ht => h2 t ht .plus
           minus := ?_ }
  obtain ⟨h, hh, -, hd⟩ := h2 0 (by have := hb.types; omega) .minus
  exact ⟨h, hh, hd⟩

/-! ### Equal frequencies -/

/-- the recorded frequencies are distinct and among those of the modes -/
def FreqsSub (m : Model R) (ms : List (Mode R)) : Prop :=
  m.ham.freqs.Nodup ∧ ∀ f ∈ m.ham.freqs, f ∈ ms.map (·.freq)

theorem insertFreq_nodup {fs : List R} (h : fs.Nodup) (f : R) : (insertFreq fs f).Nodup := by
  unfold insertFreq; split
  · exact h
  · rename_i hf
    rw [List.nodup_append]
    exact ⟨h, by simp, by rintro a ha b hb rfl; simp at hb; subst hb; exact hf ha⟩

theorem mem_insertFreq {fs : List R} {f x : R} (h : x ∈ insertFreq fs f) : x ∈ fs ∨ x = f := by
  unfold insertFreq at h; split at h
  · exact Or.inl h
  · simpa using h

theorem ham_add_sub {P : Prims R} {H H' : Hamiltonian R} {ct : String} {idx : Int} {freq : R}
    {g? lam? : Option R} {mult : R} (h : H.add P ct idx freq g? lam? mult = .ok H')
    (hn : H.freqs.Nodup) : H'.freqs.Nodup ∧ ∀ f ∈ H'.freqs, f ∈ H.freqs ∨ f = freq := by
  rcases ham_add_cases P H H' ct idx freq g? lam? mult h with rfl | ⟨-, -, g, -, rfl⟩
  · exact ⟨hn, fun f hf => Or.inl hf⟩
  · exact ⟨insertFreq_nodup hn _, fun f hf => mem_insertFreq hf⟩

theorem freqsSub_add {P : Prims R} {m m' : Model R} {a : AddArgs R} {ms : List (Mode R)}
    (hs : FreqsSub m ms) (h : m.add P a = .ok m') (hv : Valid m.temperature a) :
    FreqsSub m' (ms ++ modesAt m.temperature a) := by
  rcases add_cases h with ⟨hn, -⟩ | ⟨-, H1, e1, ⟨hT, rfl⟩ | ⟨hT, H2, Mt, Nt, -, -, e2, rfl⟩⟩
  · exact absurd hv hn
  · obtain ⟨k1, k2⟩ := ham_add_sub e1 hs.1
    refine ⟨k1, fun f hf => ?_⟩
    rw [List.map_append, List.mem_append]
    rcases k2 f hf with h0 | rfl
    · exact Or.inl (hs.2 f h0)
    · right; simp [modesAt, hT]
  · obtain ⟨k1, k2⟩ := ham_add_sub e1 hs.1
    obtain ⟨l1, l2⟩ := ham_add_sub e2 k1
    refine ⟨l1, fun f hf => ?_⟩
    rw [List.map_append, List.mem_append]
    rcases l2 f hf with h0 | rfl
    · rcases k2 f h0 with h1 | rfl
      · exact Or.inl (hs.2 f h1)
      · right; simp [modesAt, hT]
    · right; simp [modesAt, hT]

theorem adds_freqsSub {P : Prims R} {as : List (AddArgs R)} {m m' : Model R} {ms : List (Mode R)}
    (hs : FreqsSub m ms) (h : m.adds P as = .ok m') :
    FreqsSub m' (ms ++ modes m.temperature as) :=
  adds_induct FreqsSub (fun _ => True) m.temperature
    (fun m1 m2 a ns hT _ hv hi he => by
      rw [← hT] at hv ⊢
      exact freqsSub_add hi he hv) as m m' ms rfl (by simp) hs h

/-- with two equal frequencies fewer are recorded than there are types -/
theorem freqs_short {m : Model R} {ms : List (Mode R)} (hs : FreqsSub m ms)
    (hd : ¬ (ms.map (·.freq)).Nodup) : m.ham.freqs.length < ms.length := by
  have h1 : m.ham.freqs.length ≤ (ms.map (·.freq)).dedup.length := by
    apply List.Subperm.length_le
    apply hs.1.subperm
    intro f hf
    rw [List.mem_dedup]; exact hs.2 f hf
  have h2 : (ms.map (·.freq)).dedup.length ≠ (ms.map (·.freq)).length := by
    intro h
    have := (List.dedup_sublist (ms.map (·.freq))).eq_of_length h
    exact hd (List.dedup_eq_self.1 this)
  have h3 := (List.dedup_sublist (ms.map (·.freq))).length_le
  rw [List.length_map] at h2 h3
  omega

/-- a clean history with two equal frequencies: the system cannot be built -/
theorem equal_freqs {P : Prims R}
    (hopping lattice T : R) (cap : Option Int) (hcap : ∀ c, cap = some c → 1 ≤ c)
    (as : List (AddArgs R)) (hc : Clean P hopping T as)
    (hf : ¬ ((modes T as).map (·.freq)).Nodup) :
    ∃ m, (Model.fromParameters hopping lattice T cap 1).adds P as = .ok m ∧
      ∀ σ, buildSystem σ m = .error .indexError := by
  have hne : as ≠ [] := by rintro rfl; exact hf (by simp [modes])
  obtain ⟨m, ae, h1, hb, h2, hr, -⟩ := assembled_bounded hopping lattice T cap hcap as hne hc
  refine ⟨m, h1, fun σ => buildSystem_short hb ?_ σ ?_⟩
  · rw [hr.nTypes]
    have := adds_freqsSub (ms := []) (m := Model.fromParameters hopping lattice T cap 1)
      ⟨by simp [Model.fromParameters, Hamiltonian.new],
        by simp [Model.fromParameters, Hamiltonian.new]⟩ h1
    rw [List.nil_append] at this
    exact freqs_short this hf
  · obtain ⟨h, hh, -, hd⟩ := h2 0 (by have := hb.types; omega) .minus
    exact ⟨h, hh, hd⟩

theorem adds_append {P : Prims R} : ∀ (as bs : List (AddArgs R)) (m : Model R),
    m.adds P (as ++ bs) = (m.adds P as).bind (fun m' => m'.adds P bs)
  | [], bs, m => rfl
  | a :: as, bs, m => by
    rw [List.cons_append, Model.adds, Model.adds]
    cases m.add P a with
    | error e => rfl
    | ok m' => exact adds_append as bs m'

/-- An override that puts a second coupling on an existing mode: the system cannot be built. -/
theorem override_short {P : Prims R}
    (hopping lattice T : R) (cap : Option Int) (hcap : ∀ c, cap = some c → 1 ≤ c)
    (as : List (AddArgs R)) (hc : Clean P hopping T as) (a : AddArgs R) (hv : Valid T a)
    (hk : Known a.ctype) (hd : Defined P hopping a) (i : Int) (ho : a.override = some i)
    (hi : 0 ≤ i) (hi2 : i.toNat + (modesAt T a).length ≤ (modes T as).length)
    (hf : a.freq ∈ (modes T as).map (·.freq)) :
    ∃ m, (Model.fromParameters hopping lattice T cap 1).adds P (as ++ [a]) = .ok m ∧
      ∀ σ, buildSystem σ m = .error .indexError := by
  have hne : as ≠ [] := by rintro rfl; simp [modes] at hf
  obtain ⟨m, ae, h1, hb, h2, hr, -⟩ := assembled_bounded hopping lattice T cap hcap as hne hc
  have hfix := adds_fixed as h1
  have hTm : m.temperature = T := hfix.1
  have hHm : m.ham.hopping = hopping := hfix.2.1
  have hci : m.callIndex a = i := by rw [Model.callIndex, ho]
  obtain ⟨⟨g1, hg1⟩, g2, hg2⟩ := hd.strength hv.strength
  obtain ⟨m2, e2⟩ := add_ok (P := P) m (a := a) (by rw [hTm]; exact hv) hk (by rw [hci]; exact hi)
    (by rw [hHm]; exact hg1) (fun _ => by rw [hHm]; exact hg2)
  have hfix2 := add_fixed e2
  have hr2 := records_add hr e2 (by rw [hTm]; exact hv)
  rw [hTm] at hr2
  have hadds : (Model.fromParameters hopping lattice T cap 1).adds P (as ++ [a]) = .ok m2 := by
    rw [adds_append, h1]
    simp [Except.bind, Model.adds, e2]
  have hmem : ∀ t ∈ m.ham.terms, t ∈ m2.ham.terms := by
    intro t ht
    rcases add_cases e2 with ⟨-, rfl⟩ | ⟨-, H1, e1, ⟨-, rfl⟩ | ⟨-, H2, Mt, Nt, -, -, e2', rfl⟩⟩
    · exact ht
    · exact ham_add_mem e1 ht
    · exact ham_add_mem e2' (ham_add_mem e1 ht)
  have hidx : ∀ h ∈ m2.ham.terms, h.phononIndex < m2.nTypes := by
    rw [hr2.nTypes, List.length_append]
    have hold : ∀ h ∈ m.ham.terms, h.phononIndex < (modes T as).length := by
      rw [← hr.nTypes]; exact hb.index
    rw [← hTm] at hi2 ⊢
    rcases add_cases e2 with ⟨-, rfl⟩ | ⟨-, H1, e1, ⟨hT, rfl⟩ | ⟨hT, H2, Mt, Nt, -, -, e2', rfl⟩⟩
    · intro h hh; have := hold h hh; rw [hTm]; omega
    · have hl : (modesAt m.temperature a).length = 1 := by simp [modesAt, hT]
      intro h hh
      rcases ham_add_cases P _ _ _ _ _ _ _ _ e1 with rfl | ⟨-, -, g, -, rfl⟩
      · have := hold h hh; rw [hTm]; omega
      · rcases List.mem_append.1 hh with hh | hh
        · have := hold h hh; rw [hTm]; omega
        · rw [(mem_termsOf hh).1, hci]; omega
    · have hl : (modesAt m.temperature a).length = 2 := by simp [modesAt, hT]
      have key1 : ∀ h ∈ H1.terms, h.phononIndex < (modes m.temperature as).length := by
        intro h hh
        rcases ham_add_cases P _ _ _ _ _ _ _ _ e1 with rfl | ⟨-, -, g, -, rfl⟩
        · have := hold h hh; rw [hTm]; omega
        · rcases List.mem_append.1 hh with hh | hh
          · have := hold h hh; rw [hTm]; omega
          · rw [(mem_termsOf hh).1, hci]; omega
      intro h hh
      rcases ham_add_cases P _ _ _ _ _ _ _ _ e2' with rfl | ⟨-, -, g, -, rfl⟩
      · have := key1 h hh; omega
      · rcases List.mem_append.1 hh with hh | hh
        · have := key1 h hh; omega
        · rw [(mem_termsOf hh).1, hci]; omega
  have hpos : 1 ≤ (modes T as ++ modesAt T a).length := by
    have := List.length_pos_iff.2 (modesAt_ne T a)
    rw [List.length_append]; omega
  obtain ⟨ae2, hb2⟩ := bounded_of_records hr2 hpos hidx
    (by rw [hfix2.2.2.2.2.1]; exact hfix.2.2.2.2.1) (by rw [hfix2.2.2.1]; exact hfix.2.2.1)
    (by rw [hfix2.2.2.2.1, hfix.2.2.2.1]; exact hcap)
  refine ⟨m2, hadds, fun σ => buildSystem_short hb2 ?_ σ ?_⟩
  · have h0 := adds_freqsSub (ms := []) (m := Model.fromParameters hopping lattice T cap 1)
      ⟨by simp [Model.fromParameters, Hamiltonian.new],
        by simp [Model.fromParameters, Hamiltonian.new]⟩ h1
    rw [List.nil_append] at h0
    have h3 := freqsSub_add h0 e2 (by rw [hTm]; exact hv)
    rw [hTm] at h3
    rw [hr2.nTypes]
    apply freqs_short h3
    rw [List.map_append, List.nodup_append]
    rintro ⟨-, -, h⟩
    refine h _ hf a.freq ?_ rfl
    unfold modesAt; split <;> simp
  · obtain ⟨h, hh, -, hd⟩ := h2 0 (by have := hb.types; omega) .minus
    exact ⟨h, hmem h hh, hd⟩

/-! ### Coupling types of the phonon types -/

/-- every term carries the coupling type of its phonon type -/
def Typed (m : Model R) (cts : List String) : Prop :=
  m.nTypes = cts.length ∧ ∀ h ∈ m.ham.terms, cts[h.phononIndex]? = some h.ctype

theorem ham_add_typed {P : Prims R} {H H' : Hamiltonian R} {ct : String} {freq : R}
    {g? lam? : Option R} {mult : R} {cts : List String}
    (h : H.add P ct (cts.length : Int) freq g? lam? mult = .ok H')
    (hb : ∀ t ∈ H.terms, cts[t.phononIndex]? = some t.ctype) :
    ∀ t ∈ H'.terms, (cts ++ [ct])[t.phononIndex]? = some t.ctype := by
  have hmono : ∀ t ∈ H.terms, (cts ++ [ct])[t.phononIndex]? = some t.ctype := by
    intro t ht
    have := hb t ht
    rw [List.getElem?_append_left (List.getElem?_eq_some_iff.1 this).1]; exact this
  rcases ham_add_cases P H H' ct _ freq g? lam? mult h with rfl | ⟨-, -, g, -, rfl⟩
  · exact hmono
  · intro t ht
    rcases List.mem_append.1 ht with ht | ht
    · exact hmono t ht
    · obtain ⟨k1, -, k3⟩ := mem_termsOf ht
      rw [k1, k3]; simp

theorem typed_add {P : Prims R} {m m' : Model R} {a : AddArgs R} {cts : List String}
    (hs : Typed m cts) (ho : a.override = none) (h : m.add P a = .ok m')
    (hv : Valid m.temperature a) :
    Typed m' (cts ++ (modesAt m.temperature a).map (fun _ => a.ctype)) := by
  have hi : m.callIndex a = (cts.length : Int) := by rw [Model.callIndex, ho, hs.1]
  rcases add_cases h with ⟨hn, -⟩ | ⟨-, H1, e1, ⟨hT, rfl⟩ | ⟨hT, H2, Mt, Nt, -, -, e2, rfl⟩⟩
  · exact absurd hv hn
  · rw [hi] at e1
    have := ham_add_typed e1 hs.2
    refine ⟨by simp [modesAt, hT, hs.1], by simpa [modesAt, hT] using this⟩
  · rw [hi] at e1 e2
    have h1 := ham_add_typed e1 hs.2
    have h2 := ham_add_typed (cts := cts ++ [a.ctype]) (by simpa using e2) h1
    refine ⟨by simp [modesAt, hT, hs.1], by simpa [modesAt, hT] using h2⟩

theorem adds_typed {P : Prims R} {T : R} : ∀ (as : List (AddArgs R)) {m m' : Model R}
    {cts : List String}, m.temperature = T → (∀ a ∈ as, Valid T a) → (∀ a ∈ as, a.override = none) →
    Typed m cts → m.adds P as = .ok m' →
    Typed m' (cts ++ as.flatMap (fun a => (modesAt T a).map (fun _ => a.ctype)))
  | [], m, m', cts, _, _, _, hs, h => by cases h; simpa using hs
  | a :: as, m, m', cts, hT, hv, ho, hs, h => by
    unfold Model.adds at h
    split at h
    · cases h
    · rename_i m1 h1
      have hT1 : m1.temperature = T := by rw [(add_fixed h1).1, hT]
      have := adds_typed as hT1 (fun b hb => hv b (List.mem_cons_of_mem _ hb))
        (fun b hb => ho b (List.mem_cons_of_mem _ hb))
        (typed_add hs (ho a (by simp)) h1 (by rw [hT]; exact hv a (by simp))) h
      rw [hT] at this
      simpa [List.append_assoc] using this

/-- terms of a BondPeierls coupling have half-integer phonon shifts, all others integer shifts -/
theorem termsOf_phi {ct : String} {g : R} {idx : Nat} {freq : R} {h : SingleTerm R}
    (hh : h ∈ termsOf ct g idx freq) : Even h.phi.tw ↔ ct ≠ "BondPeierls" := by
  unfold termsOf termShapes at hh
  split at hh
  · subst_vars
    simp [Num.int] at hh
    rcases hh with rfl | rfl <;> simp
  · split at hh
    · subst_vars
      simp [Num.int] at hh
      rcases hh with rfl | rfl | rfl | rfl <;> simp
    · split at hh
      · subst_vars
        simp [Num.int] at hh
        rcases hh with rfl | rfl | rfl | rfl <;> simp
      · split at hh
        · subst_vars
          simp [Num.int] at hh
          rcases hh with rfl | rfl | rfl | rfl | rfl | rfl | rfl | rfl <;> simp
        · simp at hh

/-- a BondPeierls coupling and another one: the system cannot be built -/
theorem mixed_types {P : Prims R}
    (hP : ∀ ct t w l, Known ct → P.couplingMap ct t w l ≠ .error .runtimeError)
    (hopping lattice T : R) (cap : Option Int) (hcap : ∀ c, cap = some c → 1 ≤ c)
    (as : List (AddArgs R)) (hc : Clean P hopping T as)
    (hf : ((modes T as).map (·.freq)).Nodup)
    {a b : AddArgs R} (ha : a ∈ as) (hb : b ∈ as) (hac : a.ctype = "BondPeierls")
    (hbc : b.ctype ≠ "BondPeierls") :
    ∃ m, (Model.fromParameters hopping lattice T cap 1).adds P as = .ok m ∧
      ∀ σ, buildSystem σ m = .error .typeError := by
  obtain ⟨m, ae, h1, hm, hact⟩ := assembled hP hopping lattice T cap hcap as
    (List.ne_nil_of_mem ha) hc hf
  refine ⟨m, h1, fun σ => ?_⟩
  have hty := adds_typed (T := T) (cts := []) as rfl hc.valid hc.noOverride
    ⟨rfl, by simp [Model.fromParameters, Hamiltonian.new]⟩ h1
  rw [List.nil_append] at hty
  have key := fun z hz => (adds_ctypes as h1 z hz).resolve_left
    (by simp [Model.fromParameters, Hamiltonian.new])
  have hpick : ∀ c ∈ as, ∃ h ∈ m.ham.terms, h.dag = .plus ∧ h.ctype = c.ctype := by
    intro c hcm
    have hmem : c.ctype ∈ as.flatMap (fun a => (modesAt T a).map (fun _ => a.ctype)) := by
      rw [List.mem_flatMap]
      refine ⟨c, hcm, ?_⟩
      obtain ⟨d, hd⟩ := List.exists_mem_of_ne_nil _ (modesAt_ne T c)
      exact List.mem_map.2 ⟨d, hd, rfl⟩
    obtain ⟨i, hi, hic⟩ := List.getElem_of_mem hmem
    obtain ⟨h, hh, k1, k2⟩ := hact i (by rw [hty.1]; exact hi) .plus
    refine ⟨h, hh, k2, ?_⟩
    have := hty.2 h hh
    rw [k1, List.getElem?_eq_getElem hi, hic] at this
    simpa using this.symm
  obtain ⟨h, hh, hd, hct⟩ := hpick a ha
  obtain ⟨h', hh', hd', hct'⟩ := hpick b hb
  have hphi : ∀ z ∈ m.ham.terms, (Even z.phi.tw ↔ z.ctype ≠ "BondPeierls") ∧ z.psi.flt = false ∧
      (z.phi.flt = true ↔ z.ctype = "BondPeierls") := by
    intro z hz
    obtain ⟨c, -, g, i, f, hzm⟩ := key z hz
    rw [(mem_termsOf hzm).2.2]
    exact ⟨termsOf_phi hzm, termsOf_flt hzm⟩
  refine buildSystem_mixed σ hm ?_ hh hh' hd hd' ?_ ?_ ?_
  · intro z hz hzf
    rw [(hphi z hz).1]
    intro h0
    have := (hphi z hz).2.2.2 h0
    rw [hzf] at this; cases this
  · rw [(hphi h hh).1]; simp [hct, hac]
  · rw [(hphi h' hh').2.1, Bool.false_or]
    by_contra hcon
    have : h'.phi.flt = true := by simpa using hcon
    exact hbc (by rw [← hct']; exact (hphi h' hh').2.2.1 this)
  · intro he
    have e1 := hty.2 h hh
    have e2 := hty.2 h' hh'
    rw [he, e1] at e2
    have : h.ctype = h'.ctype := by simpa using e2
    rw [hct, hct', hac] at this
    exact hbc this.symm

theorem Spec.Shaped.wellFormed {m : Model R} {ae : Int} (h : Shaped m ae)
    (hd : ∀ h ∈ m.ham.terms, h.phi.flt = true →
      ∀ h' ∈ m.ham.terms, (h'.psi.flt || h'.phi.flt) = true) : WellFormed m ae :=
  { h with dtype := hd }

theorem dtype_of_types {P : Prims R} {hopping lattice T : R} {cap : Option Int}
    {as : List (AddArgs R)} {m : Model R}
    (h : (Model.fromParameters hopping lattice T cap 1).adds P as = .ok m)
    (hb : (∀ a ∈ as, a.ctype = "BondPeierls") ∨ (∀ a ∈ as, a.ctype ≠ "BondPeierls")) :
    ∀ h ∈ m.ham.terms, h.phi.flt = true →
      ∀ h' ∈ m.ham.terms, (h'.psi.flt || h'.phi.flt) = true := by
  intro x hx hxf y hy
  have key := fun z hz => (adds_ctypes as h z hz).resolve_left
    (by simp [Model.fromParameters, Hamiltonian.new])
  obtain ⟨a, ha, g, i, f, hxm⟩ := key x hx
  obtain ⟨b, hb', g', i', f', hym⟩ := key y hy
  rcases hb with hb | hb
  · have := (termsOf_flt hym).2.2 (hb b hb')
    simp [this]
  · exact absurd ((termsOf_flt hxm).2.1 hxf) (hb a ha)

end GGCE
