import Verif.Proofs.ModelAdd

/-! Invariants of histories of `Model.add_` calls. -/

set_option linter.unusedSectionVars false

namespace GGCE
open Spec

variable {R : Type} [Field R] [LinearOrder R]

/-- the model's lists record the modes -/
structure Records (m : Model R) (ms : List (Mode R)) : Prop where
  extent : m.extent = ms.map (·.M)
  number : m.number = ms.map (·.N)
  nTypes : m.nTypes = ms.length
  extPos : ∀ d ∈ ms, 1 ≤ d.M
  numPos : ∀ d ∈ ms, 1 ≤ d.N

theorem records_add {P : Prims R} {m m' : Model R} {a : AddArgs R} {ms : List (Mode R)}
    (hm : Records m ms) (h : m.add P a = .ok m') (hv : Valid m.temperature a) :
    Records m' (ms ++ modesAt m.temperature a) := by
  rcases add_cases h with ⟨hn, rfl⟩ | ⟨-, H1, h1, ⟨hT, rfl⟩ | ⟨hT, H2, Mt, Nt, hM, hN, h2, rfl⟩⟩
  · exact absurd hv hn
  · unfold modesAt
    rw [if_neg hT]
    refine ⟨by simp [hm.extent], by simp [hm.number], by simp [hm.nTypes], ?_, ?_⟩
    · intro d hd
      rcases List.mem_append.1 hd with h | h
      · exact hm.extPos d h
      · simp at h; subst h; exact hv.extent
    · intro d hd
      rcases List.mem_append.1 hd with h | h
      · exact hm.numPos d h
      · simp at h; subst h; exact hv.number
  · unfold modesAt
    rw [if_pos hT]
    refine ⟨by simp [hm.extent, hM], by simp [hm.number, hN], by simp [hm.nTypes], ?_, ?_⟩
    · intro d hd
      rcases List.mem_append.1 hd with h | h
      · exact hm.extPos d h
      · simp at h
        rcases h with rfl | rfl
        · exact hv.extent
        · rw [hM]; exact hv.extentTfd _ hM
    · intro d hd
      rcases List.mem_append.1 hd with h | h
      · exact hm.numPos d h
      · simp at h
        rcases h with rfl | rfl
        · exact hv.number
        · rw [hN]; exact hv.numberTfd _ hN

theorem modes_cons_valid {T : R} {a : AddArgs R} (as : List (AddArgs R)) (h : Valid T a) :
    modes T (a :: as) = modesAt T a ++ modes T as := by
  simp [modes, List.filter_cons, h]

theorem modes_cons_invalid {T : R} {a : AddArgs R} (as : List (AddArgs R)) (h : ¬ Valid T a) :
    modes T (a :: as) = modes T as := by
  simp [modes, List.filter_cons, h]

/-- Induction over a history: a relation between model and registered modes that holds initially
and is preserved by every acceptable call. -/
theorem adds_induct {P : Prims R} (I : Model R → List (Mode R) → Prop) (Q : AddArgs R → Prop)
    (T : R)
    (hI : ∀ m m' a ms, m.temperature = T → Q a → Valid T a → I m ms → m.add P a = .ok m' →
      I m' (ms ++ modesAt T a)) :
    ∀ (as : List (AddArgs R)) (m m' : Model R) (ms : List (Mode R)), m.temperature = T →
      (∀ a ∈ as, Q a) → I m ms → m.adds P as = .ok m' → I m' (ms ++ modes T as)
  | [], m, m', ms, _, _, h0, h => by
    cases h; simpa [modes] using h0
  | a :: as, m, m', ms, hT, hQ, h0, h => by
    unfold Model.adds at h
    split at h
    · cases h
    · rename_i m1 h1
      have hT1 : m1.temperature = T := by rw [(add_fixed h1).1, hT]
      by_cases hv : Valid T a
      · rw [modes_cons_valid as hv, ← List.append_assoc]
        exact adds_induct I Q T hI as m1 m' _ hT1 (fun b hb => hQ b (List.mem_cons_of_mem _ hb))
          (hI m m1 a ms hT (hQ a (by simp)) hv h0 h1) h
      · rw [modes_cons_invalid as hv]
        have : m1 = m := by
          rw [add_rejected P m a (by rw [hT]; exact hv)] at h1; cases h1; rfl
        subst this
        exact adds_induct I Q T hI as m1 m' _ hT1 (fun b hb => hQ b (List.mem_cons_of_mem _ hb))
          h0 h

theorem adds_fixed {P : Prims R} : ∀ (as : List (AddArgs R)) {m m' : Model R},
    m.adds P as = .ok m' →
    m'.temperature = m.temperature ∧ m'.ham.hopping = m.ham.hopping ∧
      m'.ham.dimension = m.ham.dimension ∧ m'.maxPerSite = m.maxPerSite ∧
      m'.absExtentOpt = m.absExtentOpt ∧ m'.latticeConstant = m.latticeConstant
  | [], m, m', h => by cases h; simp
  | a :: as, m, m', h => by
    unfold Model.adds at h
    split at h
    · cases h
    · rename_i m1 h1
      have e1 := add_fixed h1
      have e2 := adds_fixed as h
      simp [e2, e1]

theorem adds_records {P : Prims R} {as : List (AddArgs R)} {m m' : Model R} {ms : List (Mode R)}
    (hm : Records m ms) (h : m.adds P as = .ok m') :
    Records m' (ms ++ modes m.temperature as) := by
  refine adds_induct (P := P) Records (fun _ => True) m.temperature ?_ as m m' ms rfl (by simp) hm h
  intro m m' a ms hT _ hv hr h
  have := records_add hr h (by rw [hT]; exact hv)
  rwa [hT] at this

theorem records_new (hopping latticeConstant temperature : R) (cap : Option Int) (dim : Nat) :
    Records (Model.fromParameters hopping latticeConstant temperature cap dim) [] :=
  ⟨rfl, rfl, rfl, by simp, by simp⟩

/-! ### Hamiltonian terms and frequencies without overrides -/

theorem mem_termsOf {ct : String} {g : R} {idx : Nat} {freq : R} {h : SingleTerm R}
    (hh : h ∈ termsOf ct g idx freq) : h.phononIndex = idx ∧ h.phononFrequency = freq ∧ h.ctype = ct := by
  simp only [termsOf, List.mem_map] at hh
  obtain ⟨s, -, rfl⟩ := hh
  exact ⟨rfl, rfl, rfl⟩

/-- every term belongs to a registered mode and carries its frequency -/
def TermsBelong (H : Hamiltonian R) (ms : List (Mode R)) : Prop :=
  ∀ h ∈ H.terms, ∃ d, ms[h.phononIndex]? = some d ∧ h.phononFrequency = d.freq

theorem TermsBelong.mono {H : Hamiltonian R} {ms : List (Mode R)} (h : TermsBelong H ms)
    (ns : List (Mode R)) : TermsBelong H (ms ++ ns) := by
  intro t ht
  obtain ⟨d, h1, h2⟩ := h t ht
  exact ⟨d, by rw [List.getElem?_append_left (List.getElem?_eq_some_iff.1 h1).1]; exact h1, h2⟩

theorem ham_add_belong {P : Prims R} {H H' : Hamiltonian R} {ct : String} {freq : R}
    {g? lam? : Option R} {mult : R} {ms : List (Mode R)} (d : Mode R) (hd : d.freq = freq)
    (h : H.add P ct (ms.length : Int) freq g? lam? mult = .ok H') (hb : TermsBelong H ms) :
    TermsBelong H' (ms ++ [d]) := by
  rcases ham_add_cases P H H' ct _ freq g? lam? mult h with rfl | ⟨-, -, g, -, rfl⟩
  · exact hb.mono _
  · intro t ht
    rcases List.mem_append.1 ht with h1 | h1
    · exact hb.mono [d] t h1
    · obtain ⟨e1, e2, -⟩ := mem_termsOf h1
      refine ⟨d, ?_, by rw [e2, hd]⟩
      rw [e1]
      simp

theorem belong_add {P : Prims R} {m m' : Model R} {a : AddArgs R} {ms : List (Mode R)}
    (hr : Records m ms) (hb : TermsBelong m.ham ms) (ho : a.override = none)
    (h : m.add P a = .ok m') (hv : Valid m.temperature a) :
    TermsBelong m'.ham (ms ++ modesAt m.temperature a) := by
  have hi : m.callIndex a = (ms.length : Int) := by simp [Model.callIndex, ho, hr.nTypes]
  rcases add_cases h with ⟨hn, rfl⟩ | ⟨-, H1, h1, ⟨hT, rfl⟩ | ⟨hT, H2, Mt, Nt, hM, hN, h2, rfl⟩⟩
  · exact absurd hv hn
  · unfold modesAt
    rw [if_neg hT]
    rw [hi] at h1
    exact ham_add_belong _ rfl h1 hb
  · unfold modesAt
    rw [if_pos hT]
    rw [hi] at h1 h2
    have e1 := ham_add_belong (⟨a.freq, a.M, a.N⟩ : Mode R) rfl h1 hb
    rw [show ((ms.length : Int) + 1) = ((ms ++ [⟨a.freq, a.M, a.N⟩] : List (Mode R)).length : Int) by
      simp] at h2
    have e2 := ham_add_belong (⟨-a.freq, a.Mtfd.getD 0, a.Ntfd.getD 0⟩ : Mode R) rfl h2 e1
    rw [List.append_assoc] at e2
    exact e2

theorem adds_belong {P : Prims R} {as : List (AddArgs R)} {m m' : Model R} {ms : List (Mode R)}
    (hm : Records m ms) (hb : TermsBelong m.ham ms) (ho : ∀ a ∈ as, a.override = none)
    (h : m.adds P as = .ok m') :
    TermsBelong m'.ham (ms ++ modes m.temperature as) := by
  have := adds_induct (P := P) (fun m ms => Records m ms ∧ TermsBelong m.ham ms)
    (fun a => a.override = none) m.temperature ?_ as m m' ms rfl ho ⟨hm, hb⟩ h
  · exact this.2
  intro m m' a ms hT ho hv ⟨hr, hb⟩ h
  have e1 := records_add hr h (by rw [hT]; exact hv)
  have e2 := belong_add hr hb ho h (by rw [hT]; exact hv)
  rw [hT] at e1 e2
  exact ⟨e1, e2⟩

/-- frequencies are recorded in order as long as they are new -/
theorem ham_add_freqs {P : Prims R} {H H' : Hamiltonian R} {ct : String} {idx : Int} {freq : R}
    {g? lam? : Option R} {mult : R} (hk : Known ct) (hx : xor g?.isSome lam?.isSome = true)
    (hst : Hamiltonian.strength P H.hopping ct freq g? lam? ≠ .error .runtimeError)
    (h : H.add P ct idx freq g? lam? mult = .ok H') : H'.freqs = insertFreq H.freqs freq := by
  obtain ⟨s, hs⟩ := (known_iff ct).1 hk
  unfold Hamiltonian.add at h
  rw [if_neg (by rw [hx]; simp)] at h
  split at h
  · rename_i e; exact absurd e hst
  · cases h
  · split at h
    · rename_i e
      by_cases hi : 0 ≤ idx
      · rw [getSingleTerms_ok hs _ hi] at e; cases e
      · have hne : s ≠ [] := by
          intro h0
          subst h0
          revert hs
          unfold termShapes
          split
          · simp
          split
          · simp
          split
          · simp
          split <;> simp
        obtain ⟨x, xs, rfl⟩ := List.exists_cons_of_ne_nil hne
        unfold getSingleTerms at e
        simp only [hs, collectM, mkTerm, if_pos (show idx < 0 by omega)] at e
        cases e
    · cases h
    · cases h; rfl

theorem insertFreq_new {fs : List R} {f : R} (h : f ∉ fs) : insertFreq fs f = fs ++ [f] := by
  simp [insertFreq, h]

theorem freqs_add {P : Prims R} {m m' : Model R} {a : AddArgs R} {ms : List (Mode R)}
    (hP : ∀ ct t w l, Known ct → P.couplingMap ct t w l ≠ .error .runtimeError)
    (hk : Known a.ctype) (hf : m.ham.freqs = ms.map (·.freq))
    (hn : ((ms ++ modesAt m.temperature a).map (·.freq)).Nodup)
    (h : m.add P a = .ok m') (hv : Valid m.temperature a) :
    m'.ham.freqs = (ms ++ modesAt m.temperature a).map (·.freq) := by
  have hst : ∀ H : Hamiltonian R, ∀ w,
      Hamiltonian.strength P H.hopping a.ctype w a.g a.lam ≠ .error .runtimeError := by
    intro H w
    rcases hv.strength with ⟨g, h1, h2⟩ | ⟨l, h1, h2⟩
    · simp [Hamiltonian.strength, h1, h2]
    · simp only [Hamiltonian.strength, h1]; exact hP _ _ _ _ hk
  rcases add_cases h with ⟨hn', rfl⟩ | ⟨-, H1, h1, ⟨hT, rfl⟩ | ⟨hT, H2, Mt, Nt, hM, hN, h2, rfl⟩⟩
  · exact absurd hv hn'
  · unfold modesAt at *
    rw [if_neg hT] at *
    have e := ham_add_freqs hk hv.strength.xor (hst _ _) h1
    simp only [List.map_append, List.map_cons, List.map_nil] at hn ⊢
    have : a.freq ∉ m.ham.freqs := by
      rw [hf]
      intro hc
      exact (List.nodup_append.1 hn).2.2 _ hc _ (by simp) rfl
    rw [e, insertFreq_new this, hf]
  · unfold modesAt at *
    rw [if_pos hT] at *
    have e1 := ham_add_freqs hk hv.strength.xor (hst _ _) h1
    have e2 := ham_add_freqs hk hv.strength.xor (hst _ _) h2
    simp only [List.map_append, List.map_cons, List.map_nil] at hn ⊢
    have n1 : a.freq ∉ m.ham.freqs := by
      rw [hf]
      intro hc
      exact (List.nodup_append.1 hn).2.2 _ hc _ (by simp) rfl
    have n2 : -a.freq ∉ H1.freqs := by
      rw [e1, insertFreq_new n1, hf]
      intro hc
      rcases List.mem_append.1 hc with hc | hc
      · exact (List.nodup_append.1 hn).2.2 _ hc (-a.freq) (by simp) rfl
      · have := (List.nodup_append.1 hn).2.1
        simp at hc this
        exact this hc.symm
    rw [e2, insertFreq_new n2, e1, insertFreq_new n1, hf]
    simp

theorem adds_freqs {P : Prims R}
    (hP : ∀ ct t w l, Known ct → P.couplingMap ct t w l ≠ .error .runtimeError) (T : R) :
    ∀ (as : List (AddArgs R)) (m m' : Model R) (ms : List (Mode R)), m.temperature = T →
      (∀ a ∈ as, Valid T a → Known a.ctype) → m.ham.freqs = ms.map (·.freq) →
      ((ms ++ modes T as).map (·.freq)).Nodup → m.adds P as = .ok m' →
      m'.ham.freqs = (ms ++ modes T as).map (·.freq)
  | [], m, m', ms, _, _, h0, _, h => by
    cases h; simpa [modes] using h0
  | a :: as, m, m', ms, hT, hk, h0, hn, h => by
    unfold Model.adds at h
    split at h
    · cases h
    · rename_i m1 h1
      have hT1 : m1.temperature = T := by rw [(add_fixed h1).1, hT]
      by_cases hv : Valid T a
      · rw [modes_cons_valid as hv, ← List.append_assoc] at hn ⊢
        refine adds_freqs hP T as m1 m' _ hT1 (fun b hb => hk b (List.mem_cons_of_mem _ hb)) ?_ hn h
        have := freqs_add (P := P) (ms := ms) hP (hk a (by simp) hv) h0 (by
          rw [hT]
          rw [List.map_append] at hn
          exact (List.nodup_append.1 hn).1) h1 (by rw [hT]; exact hv)
        rwa [hT] at this
      · rw [modes_cons_invalid as hv] at hn ⊢
        have : m1 = m := by
          rw [add_rejected P m a (by rw [hT]; exact hv)] at h1; cases h1; rfl
        subst this
        exact adds_freqs hP T as m1 m' _ hT1 (fun b hb => hk b (List.mem_cons_of_mem _ hb)) h0 hn h

/-! ### Hermitian conjugation -/

/-- conjugation of a term shape -/
def adjShape (s : Num × Num × Dag × Bool) : Num × Num × Dag × Bool :=
  (⟨s.1.flt, -s.1.tw⟩, ⟨s.2.1.flt, s.2.1.tw - s.1.tw⟩,
    (match s.2.2.1 with | .plus => .minus | .minus => .plus), s.2.2.2)

theorem shapes_adj (ct : String) :
    (((termShapes ct).getD []).map adjShape).Perm ((termShapes ct).getD []) := by
  unfold termShapes
  split
  · decide
  split
  · decide
  split
  · decide
  split
  · decide
  · decide

theorem termsOf_adj (ct : String) (g : R) (idx : Nat) (freq : R) :
    ((termsOf ct g idx freq).map adjoint).Perm (termsOf ct g idx freq) := by
  unfold termsOf
  rw [List.map_map]
  have := (shapes_adj ct).map
    (fun s => (⟨ct, s.1, s.2.1, s.2.2.1, if s.2.2.2 then g else -g, idx, freq⟩ : SingleTerm R))
  rw [List.map_map] at this
  exact this

theorem ham_add_adj {P : Prims R} {H H' : Hamiltonian R} {ct : String} {idx : Int} {freq : R}
    {g? lam? : Option R} {mult : R} (h : H.add P ct idx freq g? lam? mult = .ok H')
    (ha : (H.terms.map adjoint).Perm H.terms) : (H'.terms.map adjoint).Perm H'.terms := by
  rcases ham_add_cases P H H' ct idx freq g? lam? mult h with rfl | ⟨-, -, g, -, rfl⟩
  · exact ha
  · simp only [List.map_append]
    exact ha.append (termsOf_adj _ _ _ _)

theorem adds_adj {P : Prims R} : ∀ (as : List (AddArgs R)) {m m' : Model R},
    (m.ham.terms.map adjoint).Perm m.ham.terms → m.adds P as = .ok m' →
    (m'.ham.terms.map adjoint).Perm m'.ham.terms
  | [], m, m', h0, h => by cases h; exact h0
  | a :: as, m, m', h0, h => by
    unfold Model.adds at h
    split at h
    · cases h
    · rename_i m1 h1
      refine adds_adj as ?_ h
      rcases add_cases h1 with ⟨-, rfl⟩ | ⟨-, H1, e1, ⟨-, rfl⟩ | ⟨-, H2, Mt, Nt, -, -, e2, rfl⟩⟩
      · exact h0
      · exact ham_add_adj e1 h0
      · exact ham_add_adj e2 (ham_add_adj e1 h0)

end GGCE
