import Verif.Proofs.Enum
import Verif.Proofs.History
import Verif.Proofs.Ids

/-!
Properties C01–C10: enumeration of clouds, legality, adding and removing phonons, identifiers.
-/

namespace GGCE.Props
open Spec Arr

/-! ### C01 -/

/-- C01: for length ≥ 1, `config_space_gen` yields exactly the tuples of that length and total, each
once. -/
theorem C01_config_space_gen (length total : Nat) (h : 1 ≤ length) :
    (∀ l : List Nat, l ∈ configSpaceGen length total ↔ l.length = length ∧ l.sum = total) ∧
    (configSpaceGen length total).Nodup :=
  ⟨mem_configSpaceGen length total h, nodup_configSpaceGen length total⟩

example : configSpaceGen 3 2 =
    [[0, 0, 2], [0, 1, 1], [0, 2, 0], [1, 0, 1], [1, 1, 0], [2, 0, 0]] := by decide

/-! ### C02 -/

/-- C02: for a rectangular array with at least one site and limit lists that are long enough,
`config_legal` returns (never raises), and returns `True` exactly for the legal configurations and,
with `allow_green`, for zero total. -/
theorem C02_config_legal (a : Arr) (hwf : a.WF) (hsite : 0 < a.len)
    (cap : Option Int) (extent number : Option (List Int)) (allowGreen : Bool)
    (hM : ∀ M, extent = some M → a.rows.length ≤ M.length)
    (hN : ∀ N, number = some N → a.rows.length ≤ N.length) :
    ∃ b, a.configLegal cap extent number allowGreen = .ok b ∧
      (b = true ↔ (allowGreen = true ∧ phonons a = 0) ∨ Legal cap extent number a) :=
  configLegal_ok hwf hsite cap extent number allowGreen hM hN

/-- C02: with `allow_green` negative occupations that cancel pass as the Green's function. (The engine checks the sign of
the entries first, terms.py:248-262.) -/
theorem C02_cancelling_fails : ∃ a : Arr, a.WF ∧ a.valuesLegal = false ∧
    a.configLegal (some 1) (some [1]) (some [1]) true = .ok true := ⟨⟨[[1, -1]], 2⟩, by decide, by decide, by decide⟩

/-- hypotheses of C02 on a concrete two-type cloud, legal and illegal limits -/
example : (Arr.mk [[1, 0, 2], [0, 1, 0]] 3).WF ∧
    (Arr.mk [[1, 0, 2], [0, 1, 0]] 3).configLegal (some 2) (some [3, 1]) (some [3, 1]) false
      = .ok true ∧
    (Arr.mk [[1, 0, 2], [0, 1, 0]] 3).configLegal (some 2) (some [2, 1]) (some [3, 1]) false
      = .ok false := by decide

/-- C02, remaining case: a limit list that is too short raises `IndexError` for a cloud that passes
the earlier tests. -/
theorem C02_short_extent_raises (a : Arr) (h : Cloud a) (M : List Int) (number : Option (List Int))
    (hM : M.length < a.rows.length) :
    a.configLegal none (some M) number false = .error .indexError := by
  have h1 : ∀ (f : List Int → Int) (lims : List Int) (rows : List (List Int)),
      lims.length < rows.length → anyExceeds f lims rows = .error .indexError := by
    intro f lims
    induction lims with
    | nil => intro rows hl; cases rows with
      | nil => simp at hl
      | cons r rs => rfl
    | cons l ls ih => intro rows hl; cases rows with
      | nil => simp at hl
      | cons r rs => simp [anyExceeds, ih rs (by simpa using hl), bind, Except.bind]
  obtain ⟨e, he1, he2⟩ := edgesLegal_ok h.toProper h.pos
  have : e = true := he2.2 h
  subst this
  simp [configLegal, (valuesLegal_iff a).2 h.nonneg, he1, bind, Except.bind, capExceeded,
    extentExceeded, h1 _ _ _ hM]

/-! ### C03 -/

/-- C03: with budget left and a valid phonon type, `add_phonon_(t, x)` succeeds for every integer
`x`; the returned shift moves the origin left, and relative to the moved origin exactly one phonon
was added. The new array is rectangular and reaches exactly from the leftmost to the rightmost of
the old sites and `x`. -/
theorem C03_add_phonon (c : Config) (hwf : c.arr.WF) (hbudget : c.mods < c.maxMods) (t : Nat)
    (ht : t < c.arr.rows.length) (x : Int) :
    ∃ c' shift, c.addPhonon t x = .ok (c', shift) ∧ c'.arr.WF ∧
      c'.arr.rows.length = c.arr.rows.length ∧
      (∀ t' y, chain c'.arr t' (y + shift) =
        chain c.arr t' y + if t' = t ∧ y = x then 1 else 0) ∧
      shift = max 0 (-x) ∧
      (c'.arr.len : Int) = max (c.arr.len : Int) (x + 1) - min 0 x := by
  obtain ⟨c', s, h1, h2, h3, -, -, h6, h7, h8⟩ := Config.addPhonon_spec hwf hbudget ht x
  exact ⟨c', s, h1, h2, h3, h8, h6, h7⟩

/-- A concrete case: adding left of a two-site cloud pads and reports the shift. -/
example : (Config.mk ⟨[[1, 2], [1, 0]], 2⟩ 1 0).addPhonon 1 (-2) =
    .ok (⟨⟨[[0, 0, 1, 2], [1, 0, 1, 0]], 4⟩, 1, 1⟩, 2) := by decide

/-- C03: a phonon type that does not exist (negative or too large) terminates the program, whatever
the site and the budget. -/
theorem C03_missing_type (c : Config) (t x : Int) (ht : t < 0 ∨ (c.arr.rows.length : Int) ≤ t) :
    c.addPhonon t x = .error .abort := by
  unfold Config.addPhonon
  split
  · rfl
  · rw [if_pos]
    show t < 0 ∨ t > (c.arr.rows.length : Int) - 1
    omega

example : (Config.mk ⟨[[1, 2], [1, 0]], 2⟩ 1 0).addPhonon 2 0 = .error .abort ∧
    (Config.mk ⟨[[1, 2], [1, 0]], 2⟩ 1 0).addPhonon (-1) 0 = .error .abort := by decide

/-! ### C04 -/

/-- C04: removing a phonon from an occupied site of a cloud succeeds; relative to the origin moved
right by the returned shift exactly one phonon is gone, and the result is a cloud again or the
one-site vacuum. -/
theorem C04_remove_phonon (c : Config) (hc : Cloud c.arr) (hbudget : c.mods < c.maxMods)
    (t x : Nat) (hocc : 1 ≤ chain c.arr t x) :
    ∃ c' shift, c.removePhonon t x = .ok (c', shift) ∧ 0 ≤ shift ∧
      c'.arr.rows.length = c.arr.rows.length ∧
      (∀ t' y, chain c'.arr t' (y - shift) =
        chain c.arr t' y - if t' = t ∧ y = x then 1 else 0) ∧
      (Cloud c'.arr ∨ Vacuum c'.arr) := by
  rw [get_eq_chain] at hocc
  obtain ⟨c', s, h1, h2, h3, -, -, h6, h7⟩ := Config.removePhonon_spec hc hbudget hocc
  exact ⟨c', s, h1, h6, h3, h7, h2⟩

/-- A concrete case: emptying the left edge trims it and reports the shift. -/
example : (Config.mk ⟨[[1, 0, 2], [0, 0, 1]], 3⟩ 1 0).removePhonon 0 0 =
    .ok (⟨⟨[[2], [1]], 1⟩, 1, 1⟩, 2) := by decide

/-- the hypothesis `Cloud` of C04 holds for that array -/
example : Cloud ⟨[[1, 0, 2], [0, 0, 1]], 3⟩ :=
  cloud_of_get ⟨by decide, by decide⟩ (by decide) ⟨0, by decide⟩ ⟨0, by decide⟩

/-! ### C05 -/

/-- C05: along any successful history from a cloud (or the one-site vacuum) in which phonons are
never added off-site to the vacuum, the configuration is always a cloud or the one-site vacuum. -/
theorem C05_histories (ops : List Op) : ∀ (c c' : Config), (Cloud c.arr ∨ Vacuum c.arr) →
    runOps ops c = .ok c' →
    (∀ pre op post c₁, ops = pre ++ op :: post → runOps pre c = .ok c₁ → Vacuum c₁.arr →
      ∀ t x, op = .add t x → x = 0) →
    Cloud c'.arr ∨ Vacuum c'.arr := by
  induction ops with
  | nil =>
    intro c c' hc h _
    simp only [runOps, Except.ok.injEq] at h
    exact h ▸ hc
  | cons op ops ih =>
    intro c c' hc h hs
    simp only [runOps] at h
    cases hop : op.run c with
    | error e => rw [hop] at h; cases h
    | ok r =>
      obtain ⟨c₁, s⟩ := r
      rw [hop] at h
      have h1 := op_canonical hc hop (fun hv => hs [] op ops c rfl rfl hv)
      refine ih c₁ c' h1 h ?_
      intro pre op' post c₂ e1 e2
      refine hs (op :: pre) op' post c₂ (by rw [e1]; rfl) ?_
      simp only [runOps, hop]; exact e2

/-- C05, corollary: a history that never visits the vacuum keeps the configuration a cloud. -/
theorem C05_no_vacuum (ops : List Op) (c c' : Config) (hc : Cloud c.arr)
    (h : runOps ops c = .ok c')
    (hnv : ∀ pre post c₁, ops = pre ++ post → runOps pre c = .ok c₁ → ¬ Vacuum c₁.arr) :
    Cloud c'.arr := by
  have := C05_histories ops c c' (Or.inl hc) h
    (fun pre op post c₁ e1 e2 hv => absurd hv (hnv pre (op :: post) c₁ e1 e2))
  rcases this with h1 | h1
  · exact h1
  · exact absurd h1 (hnv ops [] c' (by simp) h)

/-- C05, the exception: adding outside the one-site vacuum leaves an unoccupied edge. -/
theorem C05_vacuum_exception :
    ∃ c c' s, Vacuum c.arr ∧ Config.addPhonon c 0 2 = .ok (c', s) ∧ ¬ Cloud c'.arr ∧
      ¬ Vacuum c'.arr := by
  refine ⟨⟨⟨[[0]], 1⟩, 1, 0⟩, ⟨⟨[[0, 0, 1]], 3⟩, 1, 1⟩, 0, ⟨by decide, rfl, ?_⟩, by decide, ?_, ?_⟩
  · intro t x
    rw [chain_eq]
    split
    · have h1 : ∀ t x, (Arr.mk [[0]] 1).get t x = 0 := by
        intro t x
        cases t with
        | zero => cases x <;> simp [Arr.get]
        | succ t => simp [Arr.get]
      exact h1 _ _
    · rfl
  · intro h
    obtain ⟨t, ht⟩ := Cloud.left' h
    cases t with
    | zero => exact ht rfl
    | succ t => exact ht (by simp [Arr.get])
  · intro h; exact absurd h.len (by decide)

/-- a history as in C05: grow to the left, then remove twice -/
example : runOps [.add 0 (-1), .remove 0 0, .remove 0 0] ⟨⟨[[1]], 1⟩, 3, 0⟩ =
    .ok ⟨⟨[[0]], 1⟩, 3, 3⟩ := by decide

/-! ### C06 -/

/-- C06: adding anywhere and removing at the same chain site restores the cloud, with equal
shifts. -/
theorem C06_add_remove (c : Config) (hc : Cloud c.arr) (hbudget : c.mods + 1 < c.maxMods) (t : Nat)
    (ht : t < c.arr.rows.length) (x : Int) :
    ∃ c₁ c₂ s, c.addPhonon t x = .ok (c₁, s) ∧ c₁.removePhonon t (x + s) = .ok (c₂, s) ∧
      c₂.arr = c.arr := by
  obtain ⟨c₁, s₁, a1, a2, a3, a4, a5, a6, a7, a8⟩ :=
    Config.addPhonon_spec hc.wf (by omega : c.mods < c.maxMods) ht x
  have hc1 : Cloud c₁.arr := add_cloud (Or.inl hc) ht a1
  have hnn : 0 ≤ x + s₁ := by omega
  obtain ⟨x', hx'⟩ := Int.eq_ofNat_of_zero_le hnn
  have hocc : 1 ≤ c₁.arr.get t x' := by
    rw [get_of_chain, ← hx', a8]
    have : 0 ≤ chain c.arr t x := by
      rw [chain_eq]; split
      · exact Proper.get_nonneg hc.toProper _ _
      · exact le_refl _
    simp; omega
  obtain ⟨c₂, s₂, b1, b2, b3, -, -, b6, b7⟩ :=
    Config.removePhonon_spec hc1 (by omega : c₁.mods < c₁.maxMods) hocc
  have hch : ∀ t' y, chain c₂.arr t' (y + (s₁ - s₂)) = chain c.arr t' y := by
    intro t' y
    have h1 := b7 t' (y + s₁)
    rw [a8, ← hx'] at h1
    rw [show y + (s₁ - s₂) = y + s₁ - s₂ by omega, h1]
    have : (y + s₁ = x + s₁) = (y = x) := by apply propext; omega
    simp only [this]; omega
  have hc2 : Cloud c₂.arr := by
    rcases b2 with h | h
    · exact h
    · exfalso
      obtain ⟨t', h'⟩ := hc.left
      exact h' (by rw [← hch, h.empty])
  obtain ⟨e1, e2⟩ := cloud_unique hc hc2 (by rw [← a3, ← b3]) hch
  refine ⟨c₁, c₂, s₁, a1, ?_, e2.symm⟩
  rw [hx', b1]
  have : s₂ = s₁ := by omega
  rw [this]

/-- C06 on a concrete cloud: add two sites to the left, remove there -/
example : (Config.mk ⟨[[1, 2]], 2⟩ 2 0).addPhonon 0 (-2) =
      .ok (⟨⟨[[1, 0, 1, 2]], 4⟩, 2, 1⟩, 2) ∧
    (Config.mk ⟨[[1, 0, 1, 2]], 4⟩ 2 1).removePhonon 0 (-2 + 2) =
      .ok (⟨⟨[[1, 2]], 2⟩, 2, 2⟩, 2) := by decide

/-! ### C07 -/

/-- C07: a successful history of `n` calls raises the counter by exactly `n` and never beyond the
budget. -/
theorem C07_budget (ops : List Op) : ∀ (c c' : Config), runOps ops c = .ok c' →
    c.mods ≤ c.maxMods →
    c'.mods = c.mods + ops.length ∧ c'.maxMods = c.maxMods ∧ c.mods + ops.length ≤ c.maxMods := by
  induction ops with
  | nil =>
    intro c c' h hle
    simp only [runOps, Except.ok.injEq] at h
    subst h; simpa using hle
  | cons op ops ih =>
    intro c c' h hle
    simp only [runOps] at h
    cases hop : op.run c with
    | error e => rw [hop] at h; cases h
    | ok r =>
      obtain ⟨c₁, s⟩ := r
      rw [hop] at h
      obtain ⟨h1, h2, h3⟩ := op_mods hop
      obtain ⟨h4, h5, h6⟩ := ih c₁ c' h (by omega)
      simp only [List.length_cons]
      omega

/-- C07: once the budget is used up, any further call terminates the program. -/
theorem C07_exhausted (op : Op) (c : Config) (h : c.maxMods ≤ c.mods) :
    op.run c = .error .abort := by
  cases op with
  | add t x => simp [Op.run, Config.addPhonon, h]
  | remove t x => simp [Op.run, Config.removePhonon, h]

example : runOps [.add 0 0, .remove 0 0] ⟨⟨[[1]], 1⟩, 2, 0⟩ = .ok ⟨⟨[[1]], 1⟩, 2, 2⟩ ∧
    runOps [.add 0 0, .remove 0 0, .add 0 0] ⟨⟨[[1]], 1⟩, 2, 0⟩ = .error .abort := by decide

/-! ### C08 -/

/-- C08 (partial): for non-negative indices the documented behaviour holds: a removal at a site
outside the array, of a non-existing type, or without a phonon of that type aborts. Missing for the
full statement: negative indices, see `C08_negative_index_accepted`. -/
theorem C08_bad_removal_partial (c : Config) (hwf : c.arr.WF) (t x : Nat)
    (h : c.arr.rows.length ≤ t ∨ c.arr.len ≤ x ∨ chain c.arr t x ≤ 0) :
    c.removePhonon t x = .error .abort := by
  unfold Config.removePhonon
  split
  · rfl
  · split
    · rename_i t' x' ht hx
      have e1 := npIndex_some ht
      have e2 := npIndex_some hx
      have ht' : t' = t := by unfold npIndex at ht; split at ht <;> simp_all; omega
      have hx' : x' = x := by unfold npIndex at hx; split at hx <;> simp_all; omega
      subst ht' hx'
      simp only
      rw [if_pos]
      rw [get_bump hwf e1.1 e2.1]
      simp only [and_self, if_true]
      rw [get_eq_chain] at h
      simp only [nTypes] at e1
      omega
    · rfl

/-- C08, what the code does with indices in the numpy range: a negative index addresses the site
counted from the right end. -/
theorem C08_negative_wraps (c : Config) (t x : Int) (ht : -(c.arr.nTypes : Int) ≤ t ∧ t < 0)
    (hx : -(c.arr.len : Int) ≤ x ∧ x < 0) :
    c.removePhonon t x = c.removePhonon (t + c.arr.nTypes) (x + c.arr.len) := by
  have e1 : npIndex c.arr.nTypes t = some (t + c.arr.nTypes).toNat := by
    unfold npIndex; rw [if_neg (by omega), if_pos ht]
  have e2 : npIndex c.arr.len x = some (x + c.arr.len).toNat := by
    unfold npIndex; rw [if_neg (by omega), if_pos hx]
  rw [removePhonon_npIndex e1 e2]
  congr 1 <;> omega

/-- C08, violation of the documented behaviour ("These indexes must fall within the existing config,
else the program will abort", terms.py:361-363): removing at site -1 of a two-site cloud
succeeds and removes a phonon from the last site. -/
theorem C08_negative_index_accepted :
    ∃ c c' s, Cloud c.arr ∧ Config.removePhonon c 0 (-1) = .ok (c', s) ∧
      c'.arr = ⟨[[1, 1]], 2⟩ := by
  refine ⟨⟨⟨[[1, 2]], 2⟩, 1, 0⟩, ⟨⟨[[1, 1]], 2⟩, 1, 1⟩, 0, ?_, by decide, rfl⟩
  exact cloud_of_get ⟨by decide, by decide⟩ (by decide) ⟨0, by decide⟩ ⟨0, by decide⟩

/-! ### C09 -/

/-- C09: two term identifiers agree exactly when the arguments have the same value (both absent, or
equal) and the clouds are both vacuum or equal as arrays. -/
theorem C09_identifiers (a b : Arr) (ha : Proper a) (hb : Proper b) (f g : Option Num) :
    termId a f = termId b g ↔
      f.map Num.tw = g.map Num.tw ∧
      (((∀ t x, chain a t x = 0) ∧ ∀ t x, chain b t x = 0) ∨ a = b) := by
  have key : ∀ {a : Arr}, Proper a → (a.total = 0 ↔ ∀ t x, chain a t x = 0) := by
    intro a h
    rw [Proper.total_eq_zero_iff h]
    constructor
    · intro h t x; rw [chain_eq]; split
      · exact h _ _
      · rfl
    · intro h t x; rw [get_of_chain]; exact h _ _
  rw [termId_eq_iff ha.wf hb.wf, key ha, key hb]
  exact and_comm

/-- identifiers as printed by the code -/
example : String.ofList (termId ⟨[[1, 0, 2], [0, 1, 0]], 3⟩ (some (.int (-1)))) =
    "{[1, 0, 2, 0, 1, 0](2, 3)}[-1.0]" := by
  simp +decide [termId, configId, listStr, commaJoin, intStr, pairStr, fArgId, halfStr,
    Num.int, natStr]

/-! ### C10 -/

/-- C10: for a one-dimensional model with at least one phonon type, the generated dictionary has the
keys 1, ..., ΣN in order; under key `n` it lists exactly the clouds of the truncated space with `n`
phonons, each once; and every cloud of the truncated space is listed. -/
theorem C10_generate_all {R : Type} (m : Model R) (hl : ListsOk m) (hn : 1 ≤ m.nTypes)
    (hd : m.ham.dimension ≤ 1) (ae : Int) (hae : m.absExtent = some ae) :
    ∃ d, generateAll m = .ok d ∧
      d.map Prod.fst = (List.range m.number.sum.toNat).map (· + 1) ∧
      (∀ n cs, (n, cs) ∈ d → cs.Nodup ∧ ∀ a, a ∈ cs ↔ InSpace m ae n a) ∧
      (∀ a, InTruncation m ae a → ∃ n cs, (n, cs) ∈ d ∧ a ∈ cs) := by
  obtain ⟨f, h1, h2⟩ := generateAll_ok hl hn hd hae
  refine ⟨_, h1, ?_, ?_, ?_⟩
  · simp [Function.comp_def]
  · intro n cs hm
    simp only [List.mem_map, List.mem_range, Prod.mk.injEq] at hm
    obtain ⟨i, -, rfl, rfl⟩ := hm
    exact h2 _
  · intro a ha
    obtain ⟨b1, b2⟩ := phonons_bounds hl ha
    refine ⟨(phonons a).toNat, f (phonons a).toNat, ?_, ?_⟩
    · simp only [List.mem_map, List.mem_range, Prod.mk.injEq]
      refine ⟨(phonons a).toNat - 1, by omega, by omega, by congr 1; omega⟩
    · exact ((h2 _).2 a).2 ⟨ha, by omega⟩

end GGCE.Props
