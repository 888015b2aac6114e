import Verif.Proofs.Assembled
import Mathlib.Algebra.Order.Ring.Rat
import Mathlib.Algebra.Field.Rat
import Mathlib.Tactic.NormNum

/-!
Properties C37–C40, C45, C46, C51: the `Model` and which models can be built.
-/

set_option linter.unusedSectionVars false

namespace GGCE.Props
open Spec Arr Dict

variable {R : Type} [Field R] [LinearOrder R]

/-- Example primitives: every known coupling type takes `g = λ`. -/
def exPrims : Prims ℚ where
  couplingMap := fun ct _ _ l =>
    if ct = "Holstein" ∨ ct = "EdwardsFermionBoson" ∨ ct = "BondPeierls" ∨ ct = "Peierls" then .ok l
    else .error .runtimeError
  tfd := fun _ _ => (1, 1)

theorem exPrims_names : Names exPrims where
  known := by
    intro ct t w l h
    have h' : ct = "Holstein" ∨ ct = "EdwardsFermionBoson" ∨ ct = "BondPeierls" ∨ ct = "Peierls" := h
    simp [exPrims, h']
  unknown := by
    intro ct t w l h
    have h' : ¬ (ct = "Holstein" ∨ ct = "EdwardsFermionBoson" ∨ ct = "BondPeierls" ∨
      ct = "Peierls") := h
    simp only [exPrims, if_neg h']

/-- Example calls: a Holstein mode and a Peierls mode, both with thermofield limits. -/
def exHolstein : AddArgs ℚ :=
  { ctype := "Holstein", freq := 2, M := 2, N := 3, Mtfd := some 1, Ntfd := some 1, g := some 1 }
def exPeierls : AddArgs ℚ :=
  { ctype := "Peierls", freq := 1, M := 3, N := 2, Mtfd := some 1, Ntfd := some 2, lam := some 1 }
def exBond : AddArgs ℚ :=
  { ctype := "BondPeierls", freq := 3, M := 1, N := 1, Mtfd := some 1, Ntfd := some 2, lam := some 1 }

theorem valid_of {T : ℚ} {a : AddArgs ℚ} (h1 : 1 ≤ a.M) (h2 : 1 ≤ a.N) (h3 : a.Mtfd = some 1)
    (h4 : ∃ x, a.Ntfd = some x ∧ 1 ≤ x) (h5 : OneStrength a) (h6 : a.override = none) :
    Valid T a := by
  refine ⟨h1, h2, ?_, ?_, ?_, h5, ?_⟩
  · intro x hx; rw [h3] at hx; cases hx; rfl
  · intro x hx; obtain ⟨y, hy, hy1⟩ := h4; rw [hy] at hx; cases hx; exact hy1
  · intro _; obtain ⟨y, hy, -⟩ := h4; exact ⟨⟨_, h3⟩, ⟨_, hy⟩⟩
  · intro _ i hi; rw [h6] at hi; cases hi

theorem exHolstein_valid (T : ℚ) : Valid T exHolstein :=
  valid_of (by decide) (by decide) rfl ⟨1, rfl, le_rfl⟩ (Or.inl ⟨1, rfl, rfl⟩) rfl
theorem exPeierls_valid (T : ℚ) : Valid T exPeierls :=
  valid_of (by decide) (by decide) rfl ⟨2, rfl, by decide⟩ (Or.inr ⟨1, rfl, rfl⟩) rfl
theorem exBond_valid (T : ℚ) : Valid T exBond :=
  valid_of (by decide) (by decide) rfl ⟨2, rfl, by decide⟩ (Or.inr ⟨1, rfl, rfl⟩) rfl

theorem exDefined (hopping : ℚ) {a : AddArgs ℚ} (hk : Known a.ctype) : Defined exPrims hopping a := by
  intro l _
  have h' : a.ctype = "Holstein" ∨ a.ctype = "EdwardsFermionBoson" ∨ a.ctype = "BondPeierls" ∨
    a.ctype = "Peierls" := hk
  exact ⟨⟨l, by simp only [exPrims, if_pos h']⟩, ⟨l, by simp only [exPrims, if_pos h']⟩⟩

theorem exClean (T : ℚ) : Clean exPrims 1 T [exHolstein, exPeierls] where
  valid := by simp [exHolstein_valid, exPeierls_valid]
  known := by simp [exHolstein, exPeierls, Known]
  noOverride := by simp [exHolstein, exPeierls]
  defined := by
    intro a ha
    apply exDefined
    simp at ha
    rcases ha with rfl | rfl <;> simp [exHolstein, exPeierls, Known]

theorem exMixedClean (T : ℚ) : Clean exPrims 1 T [exHolstein, exBond] where
  valid := by simp [exHolstein_valid, exBond_valid]
  known := by simp [exHolstein, exBond, Known]
  noOverride := by simp [exHolstein, exBond]
  defined := by
    intro a ha
    apply exDefined
    simp at ha
    rcases ha with rfl | rfl <;> simp [exHolstein, exBond, Known]

/-! ### C37 -/

/-- C37, every documented rejection except the unknown coupling type: a call whose parameters are not
acceptable returns without an exception and leaves the model as it was. Missing: the unknown coupling
type, see `C37_unknown_type_changes_model`. -/
theorem C37_rejected_unchanged_partial (P : Prims R) (m : Model R) (a : AddArgs R)
    (h : ¬ Valid m.temperature a) : m.add P a = .ok m :=
  add_rejected P m a h

example : ¬ Valid (1 : ℚ) { exHolstein with Ntfd := none } := by
  intro h
  obtain ⟨-, y, hy⟩ := h.tfd (by norm_num)
  cases hy

/-- C37 is false for unknown coupling types: an otherwise acceptable call with a misspelt coupling
type leaves the Hamiltonian alone but registers its phonon type(s), so the model has changed. -/
theorem C37_unknown_type_changes_model (P : Prims R) (hP : Names P) (m : Model R) (a : AddArgs R)
    (hv : Valid m.temperature a) (hk : ¬ Known a.ctype) :
    ∃ m', m.add P a = .ok m' ∧ m'.ham = m.ham ∧ m.nTypes < m'.nTypes ∧ m' ≠ m := by
  have h1 : ∀ idx f mult, m.ham.add P a.ctype idx f a.g a.lam mult = .ok m.ham := fun idx f mult =>
    ham_add_unknown P m.ham hk idx f hv.strength.xor (fun t w l => hP.unknown _ t w l hk) mult
  have hrej : m.addRejected a = false := (rejected_iff m a).2 hv
  have hlt : ∀ m' : Model R, m.nTypes < m'.nTypes → m' ≠ m := by
    rintro m' h rfl; exact lt_irrefl _ h
  by_cases hT : 0 < m.temperature
  · obtain ⟨⟨Mt, hM⟩, Nt, hN⟩ := hv.tfd hT
    refine ⟨{ m with
        extent := m.extent ++ [a.M] ++ [Mt]
        number := m.number ++ [a.N] ++ [Nt]
        nTypes := m.nTypes + 1 + 1 }, ?_, rfl, by simp only; omega, hlt _ (by simp only; omega)⟩
    simp [Model.add, hrej, h1, hT, hM, hN]
  · refine ⟨{ m with
        extent := m.extent ++ [a.M]
        number := m.number ++ [a.N]
        nTypes := m.nTypes + 1 }, ?_, rfl, by simp only; omega, hlt _ (by simp only; omega)⟩
    simp [Model.add, hrej, h1, hT]

example : Valid (0 : ℚ) { exHolstein with ctype := "holstein" } ∧ ¬ Known "holstein" := by
  refine ⟨⟨by decide, by decide, ?_, ?_, ?_, Or.inl ⟨1, rfl, rfl⟩, ?_⟩, by simp [Known]⟩
  · intro x hx; cases hx; rfl
  · intro x hx; cases hx; rfl
  · intro _; exact ⟨⟨_, rfl⟩, ⟨_, rfl⟩⟩
  · intro _ i hi; cases hi

/-! ### C38 -/

/-- C38: after any history of `add_` calls on a new model, the extents and numbers are those of the
modes registered by the acceptable calls, in order (at finite temperature each call registers a real
and a fictitious mode with opposite frequencies), there are `n_phonon_types` of them, and all are at
least one. -/
theorem C38_bookkeeping (P : Prims R) (hopping lattice T : R) (cap : Option Int) (dim : Nat)
    (as : List (AddArgs R)) (m : Model R)
    (h : (Model.fromParameters hopping lattice T cap dim).adds P as = .ok m) :
    m.extent = (modes T as).map (·.M) ∧ m.number = (modes T as).map (·.N) ∧
      m.nTypes = (modes T as).length ∧ m.extent.length = m.nTypes ∧ m.number.length = m.nTypes ∧
      (∀ x ∈ m.extent, 1 ≤ x) ∧ (∀ x ∈ m.number, 1 ≤ x) := by
  have hr : Records m (modes T as) := by
    simpa [Model.fromParameters] using adds_records (records_new hopping lattice T cap dim) h
  refine ⟨hr.extent, hr.number, hr.nTypes, by rw [hr.extent, hr.nTypes]; simp,
    by rw [hr.number, hr.nTypes]; simp, ?_, ?_⟩
  · rw [hr.extent]; intro x hx
    obtain ⟨d, hd, rfl⟩ := List.mem_map.1 hx
    exact hr.extPos d hd
  · rw [hr.number]; intro x hx
    obtain ⟨d, hd, rfl⟩ := List.mem_map.1 hx
    exact hr.numPos d hd

/-- C38, without overrides every Hamiltonian term acts on a registered mode and carries that mode's
frequency; in particular its index is below `n_phonon_types`. -/
theorem C38_terms_belong (P : Prims R) (hopping lattice T : R) (cap : Option Int) (dim : Nat)
    (as : List (AddArgs R)) (ho : ∀ a ∈ as, a.override = none) (m : Model R)
    (h : (Model.fromParameters hopping lattice T cap dim).adds P as = .ok m) :
    ∀ t ∈ m.ham.terms, t.phononIndex < m.nTypes ∧
      ∃ d, (modes T as)[t.phononIndex]? = some d ∧ t.phononFrequency = d.freq := by
  have hr : Records m (modes T as) := by
    simpa [Model.fromParameters] using adds_records (records_new hopping lattice T cap dim) h
  have hb : TermsBelong m.ham (modes T as) := by
    have := adds_belong (records_new hopping lattice T cap dim)
      (by intro h hh; simp [Model.fromParameters, Hamiltonian.new] at hh) ho h
    simpa [Model.fromParameters] using this
  intro t ht
  obtain ⟨d, h1, h2⟩ := hb t ht
  exact ⟨by rw [hr.nTypes]; exact (List.getElem?_eq_some_iff.1 h1).1, d, h1, h2⟩

/-- C38, at positive temperature the modes come in pairs: the even one with the frequency of the call,
the odd one with the opposite frequency. -/
theorem C38_pairs (T : R) (hT : 0 < T) (as : List (AddArgs R)) (i : Nat) (d : Mode R)
    (hd : (modes T as)[2 * i]? = some d) :
    ∃ d', (modes T as)[2 * i + 1]? = some d' ∧ d'.freq = -d.freq := by
  classical
  unfold modes at hd ⊢
  generalize as.filter (fun a => decide (Valid T a)) = bs at hd ⊢
  induction bs generalizing i with
  | nil => simp at hd
  | cons b bs ih =>
    simp only [List.flatMap_cons, modesAt, if_pos hT] at hd ⊢
    cases i with
    | zero => simp at hd ⊢; rw [← hd]
    | succ i =>
      have e : 2 * (i + 1) = 2 * i + 1 + 1 := by omega
      rw [e] at hd ⊢
      simp only [List.cons_append, List.getElem?_cons_succ, List.nil_append] at hd ⊢
      exact ih i hd

example : ∃ m, (Model.fromParameters (1 : ℚ) 1 1 none 1).adds exPrims [exHolstein, exPeierls] = .ok m
    ∧ m.nTypes = 4 ∧ m.extent = [2, 1, 3, 1] ∧ m.ham.freqs = [2, -2, 1, -1] :=
  ⟨_, rfl, rfl, rfl, by decide⟩

/-! ### C39 -/

/-- C39 for distinct frequencies: after a history of acceptable calls with known coupling types, the
frequency list used for the energies is the list of the modes' frequencies. Missing: modes with equal
frequencies, for which the claim is false (`C39_equal_frequencies_fail`). -/
theorem C39_frequencies_partial (P : Prims R) (hP : Names P) (hopping lattice T : R)
    (cap : Option Int) (dim : Nat) (as : List (AddArgs R))
    (hk : ∀ a ∈ as, Valid T a → Known a.ctype) (hf : ((modes T as).map (·.freq)).Nodup) (m : Model R)
    (h : (Model.fromParameters hopping lattice T cap dim).adds P as = .ok m) :
    m.ham.freqs = (modes T as).map (·.freq) := by
  have := adds_freqs hP.known T as (Model.fromParameters hopping lattice T cap dim) m [] rfl hk rfl
    (by simpa using hf) h
  simpa using this

example : ((modes (0 : ℚ) [exHolstein, exPeierls]).map (·.freq)).Nodup := by
  rw [modes_of_clean (exClean 0)]; decide

/-- C39 is false for equal frequencies: whenever two modes of a history of acceptable calls have equal
frequencies, the frequency list is too short, and building the system raises `IndexError`. -/
theorem C39_equal_frequencies_fail (P : Prims R) (hopping lattice T : R) (cap : Option Int)
    (hcap : ∀ c, cap = some c → 1 ≤ c) (as : List (AddArgs R)) (hc : Clean P hopping T as)
    (hf : ¬ ((modes T as).map (·.freq)).Nodup) :
    ∃ m, (Model.fromParameters hopping lattice T cap 1).adds P as = .ok m ∧
      m.ham.freqs.length < m.nTypes ∧ ∀ σ, buildSystem σ m = .error .indexError := by
  obtain ⟨m, h1, h2⟩ := equal_freqs hopping lattice T cap hcap as hc hf
  refine ⟨m, h1, ?_, h2⟩
  have hr : Records m (modes T as) := by
    simpa [Model.fromParameters] using adds_records (records_new hopping lattice T cap 1) h1
  have := adds_freqsSub (ms := []) (m := Model.fromParameters hopping lattice T cap 1)
    ⟨by simp [Model.fromParameters, Hamiltonian.new],
      by simp [Model.fromParameters, Hamiltonian.new]⟩ h1
  rw [List.nil_append] at this
  rw [hr.nTypes]
  exact freqs_short this hf

example : Clean exPrims 1 0 [exHolstein, { exPeierls with freq := 2 }] ∧
    ¬ ((modes (0 : ℚ) [exHolstein, { exPeierls with freq := 2 }]).map (·.freq)).Nodup := by
  have hc : Clean exPrims 1 0 [exHolstein, { exPeierls with freq := 2 }] := by
    refine ⟨?_, by simp [exHolstein, exPeierls, Known], by simp [exHolstein, exPeierls], ?_⟩
    · intro a ha
      simp only [List.mem_cons, List.not_mem_nil, or_false] at ha
      rcases ha with rfl | rfl
      · exact exHolstein_valid 0
      · exact valid_of (by decide) (by decide) rfl ⟨2, rfl, by decide⟩ (Or.inr ⟨1, rfl, rfl⟩) rfl
    · intro a ha
      apply exDefined
      simp only [List.mem_cons, List.not_mem_nil, or_false] at ha
      rcases ha with rfl | rfl <;> simp [exHolstein, exPeierls, Known]
  refine ⟨hc, ?_⟩
  rw [modes_of_clean hc]; decide

/-! ### C40 -/

/-- C40: after any history of `add_` calls on a new model (any coupling types, overrides, temperatures),
the Hermitian conjugates of the interaction terms are the interaction terms themselves, up to order. -/
theorem C40_hermitian (P : Prims R) (hopping lattice T : R) (cap : Option Int) (dim : Nat)
    (as : List (AddArgs R)) (m : Model R)
    (h : (Model.fromParameters hopping lattice T cap dim).adds P as = .ok m) :
    (m.ham.terms.map adjoint).Perm m.ham.terms :=
  adds_adj as (by simp [Model.fromParameters, Hamiltonian.new]) h

/-- C40: conjugation is an involution, so pairing terms with their conjugates is meaningful. -/
theorem C40_adjoint_involutive (t : SingleTerm R) : adjoint (adjoint t) = t := by
  rcases t with ⟨ct, ⟨a, b⟩, ⟨c, d⟩, dag, g, i, f⟩
  cases dag <;> simp [adjoint]

example : ∃ m, (Model.fromParameters (1 : ℚ) 1 0 none 1).adds exPrims [exHolstein, exPeierls] = .ok m
    ∧ m.ham.terms.length = 10 := ⟨_, rfl, rfl⟩

/-! ### C16, from the user's side -/

/-- C16 for models as users make them: a new one-dimensional model with at least one acceptable call,
known coupling types, distinct frequencies, positive cap, and either only BondPeierls couplings or none:
the system can be built, for every set iteration order. -/
theorem C16_assembled (σ : SetOrder) (P : Prims R) (hP : Names P) (hopping lattice T : R)
    (cap : Option Int) (hcap : ∀ c, cap = some c → 1 ≤ c) (as : List (AddArgs R)) (hne : as ≠ [])
    (hc : Clean P hopping T as) (hf : ((modes T as).map (·.freq)).Nodup)
    (hb : (∀ a ∈ as, a.ctype = "BondPeierls") ∨ (∀ a ∈ as, a.ctype ≠ "BondPeierls")) :
    ∃ m b, (Model.fromParameters hopping lattice T cap 1).adds P as = .ok m ∧
      (∃ ae, WellFormed m ae) ∧ buildSystem σ m = .ok b := by
  obtain ⟨m, ae, h1, h2, -⟩ := assembled hP.known hopping lattice T cap hcap as hne hc hf
  have hw := h2.wellFormed (dtype_of_types h1 hb)
  obtain ⟨b, L, h3, -⟩ := buildSystem_ok σ hw
  exact ⟨m, b, h1, ⟨ae, hw⟩, h3⟩

example : Clean exPrims 1 (1 : ℚ) [exHolstein, exPeierls] ∧
    ((modes (1 : ℚ) [exHolstein, exPeierls]).map (·.freq)).Nodup := by
  refine ⟨exClean 1, ?_⟩
  rw [modes_of_clean (exClean 1)]; decide

/-- C16: a single coupling of any type at zero temperature, or at positive temperature with a non-zero
frequency, can always be built. -/
theorem C16_single_coupling (σ : SetOrder) (P : Prims R) (hP : Names P) (hopping lattice T : R)
    (hneg : ∀ x : R, x = -x → x = 0)
    (cap : Option Int) (hcap : ∀ c, cap = some c → 1 ≤ c) (a : AddArgs R) (hv : Valid T a)
    (hk : Known a.ctype) (ho : a.override = none) (hd : Defined P hopping a)
    (hf : 0 < T → a.freq ≠ 0) :
    ∃ m b, (Model.fromParameters hopping lattice T cap 1).add P a = .ok m ∧
      buildSystem σ m = .ok b := by
  have hc : Clean P hopping T [a] :=
    ⟨by simpa using hv, by simpa using hk, by simpa using ho, by simpa using hd⟩
  obtain ⟨m, b, h1, -, h2⟩ := C16_assembled σ P hP hopping lattice T cap hcap [a] (by simp) hc
    (by
      rw [modes_of_clean hc]
      simp only [List.flatMap_cons, List.flatMap_nil, List.append_nil, modesAt]
      split
      · rename_i hT
        simp only [List.map_cons, List.map_nil, List.nodup_cons, List.mem_singleton,
          List.not_mem_nil, not_false_eq_true, List.nodup_nil, and_true]
        exact fun e => hf hT (hneg _ e)
      · simp)
    (by
      by_cases h : a.ctype = "BondPeierls"
      · exact Or.inl (by simpa using h)
      · exact Or.inr (by simpa using h))
  refine ⟨m, b, ?_, h2⟩
  simp only [Model.adds] at h1
  split at h1
  · cases h1
  · rename_i m' e; rw [e]; exact h1

/-! ### C45 -/

/-- C45 for combinations without BondPeierls, or of BondPeierls couplings only: construction succeeds.
Missing: BondPeierls combined with another type, for which the claim is false
(`C45_bond_peierls_mixture_fails`). -/
theorem C45_combinations_partial (σ : SetOrder) (P : Prims R) (hP : Names P) (hopping lattice T : R)
    (cap : Option Int) (hcap : ∀ c, cap = some c → 1 ≤ c) (as : List (AddArgs R)) (hne : as ≠ [])
    (hc : Clean P hopping T as) (hf : ((modes T as).map (·.freq)).Nodup)
    (hb : (∀ a ∈ as, a.ctype = "BondPeierls") ∨ (∀ a ∈ as, a.ctype ≠ "BondPeierls")) :
    ∃ m b, (Model.fromParameters hopping lattice T cap 1).adds P as = .ok m ∧
      buildSystem σ m = .ok b := by
  obtain ⟨m, b, h1, -, h2⟩ := C16_assembled σ P hP hopping lattice T cap hcap as hne hc hf hb
  exact ⟨m, b, h1, h2⟩

/-- C45 is false for every combination of BondPeierls with another coupling type: the model accepts the
calls, and building the system raises `TypeError` (numpy refuses to add a float shift to an integer
array in place), whatever the limits, strengths and set iteration order. -/
theorem C45_bond_peierls_mixture_fails (P : Prims R) (hP : Names P) (hopping lattice T : R)
    (cap : Option Int) (hcap : ∀ c, cap = some c → 1 ≤ c) (as : List (AddArgs R))
    (hc : Clean P hopping T as) (hf : ((modes T as).map (·.freq)).Nodup)
    (a b : AddArgs R) (ha : a ∈ as) (hb : b ∈ as) (hac : a.ctype = "BondPeierls")
    (hbc : b.ctype ≠ "BondPeierls") :
    ∃ m, (Model.fromParameters hopping lattice T cap 1).adds P as = .ok m ∧
      ∀ σ, buildSystem σ m = .error .typeError :=
  mixed_types hP.known hopping lattice T cap hcap as hc hf ha hb hac hbc

example : Clean exPrims 1 (0 : ℚ) [exHolstein, exBond] ∧
    ((modes (0 : ℚ) [exHolstein, exBond]).map (·.freq)).Nodup := by
  refine ⟨exMixedClean 0, ?_⟩
  rw [modes_of_clean (exMixedClean 0)]; decide

/-! ### C46 -/

/-- C46 is false: for every parameters, building the system of a model without couplings raises
`KeyError` (the Green's function is not on any right-hand side). -/
theorem C46_free_model_fails (σ : SetOrder) (hopping lattice T : R) (cap : Option Int) :
    buildSystem σ (Model.fromParameters hopping lattice T cap 1) = .error .keyError := by
  rfl

/-! ### C51 -/

/-- C51 is false: after any history of acceptable calls, a call that uses `phonon_index_override` to put
a second coupling on an existing mode (same frequency) is accepted, but the system can no longer be
built: `IndexError`. -/
theorem C51_override_fails (P : Prims R) (hopping lattice T : R) (cap : Option Int)
    (hcap : ∀ c, cap = some c → 1 ≤ c)
    (as : List (AddArgs R)) (hc : Clean P hopping T as) (a : AddArgs R) (hv : Valid T a)
    (hk : Known a.ctype) (hd : Defined P hopping a) (i : Int) (ho : a.override = some i)
    (hi : 0 ≤ i) (hi2 : i.toNat + (modesAt T a).length ≤ (modes T as).length)
    (hf : a.freq ∈ (modes T as).map (·.freq)) :
    ∃ m, (Model.fromParameters hopping lattice T cap 1).adds P (as ++ [a]) = .ok m ∧
      ∀ σ, buildSystem σ m = .error .indexError :=
  override_short hopping lattice T cap hcap as hc a hv hk hd i ho hi hi2 hf

/-- C51, the only use of an override that changes nothing: overriding with the index the mode would have
had anyway. Missing: the advertised use, which fails (`C51_override_fails`). -/
theorem C51_trivial_override_partial (P : Prims R) (m : Model R) (a : AddArgs R)
    (ho : a.override = none) (hp : 0 < m.temperature → Even m.nTypes) :
    m.add P { a with override := some (m.nTypes : Int) } = m.add P a := by
  have h1 : m.addRejected { a with override := some (m.nTypes : Int) } = m.addRejected a := by
    rw [Bool.eq_iff_iff]
    rw [← not_iff_not, Bool.not_eq_true, Bool.not_eq_true, rejected_iff, rejected_iff]
    constructor
    · intro h
      exact ⟨h.extent, h.number, h.extentTfd, h.numberTfd, h.tfd, h.strength,
        fun _ i hi => by rw [ho] at hi; cases hi⟩
    · intro h
      refine ⟨h.extent, h.number, h.extentTfd, h.numberTfd, h.tfd, h.strength, fun hT i hi => ?_⟩
      cases hi
      exact_mod_cast hp hT
  have h2 : m.callIndex { a with override := some (m.nTypes : Int) } = m.callIndex a := by
    simp [Model.callIndex, ho]
  unfold Model.add
  rw [h1, h2]

example : (0 : Int).toNat + (modesAt (0 : ℚ) { exPeierls with freq := 2, override := some 0 }).length ≤
      (modes (0 : ℚ) [exHolstein, exPeierls]).length ∧
    (2 : ℚ) ∈ (modes (0 : ℚ) [exHolstein, exPeierls]).map (·.freq) ∧
    Valid (0 : ℚ) { exPeierls with freq := 2, override := some 0 } := by
  rw [modes_of_clean (exClean 0)]
  refine ⟨by decide, by decide, ?_⟩
  refine ⟨by decide, by decide, ?_, ?_, ?_, Or.inr ⟨1, rfl, rfl⟩, ?_⟩
  · intro x hx; cases hx; rfl
  · intro x hx; cases hx; decide
  · intro h; exact absurd h (by norm_num)
  · intro h; exact absurd h (by norm_num)

end GGCE.Props
