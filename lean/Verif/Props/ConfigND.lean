import Verif.Proofs.ConfigNDMore
import Mathlib.Data.Fin.VecNotation

/-!
Property C62: phonon clouds in any number of spatial dimensions.
-/

namespace GGCE.Props
open Spec

variable {d : Nat}

/-! ### examples: the repository's own two-dimensional tests -/

/-- `np.array(rows)` with three axes -/
def arr2 (rows : List (List (List Int))) (n m : Nat) : NArr 2 :=
  ⟨rows.length, ![n, m], fun t i => ((rows.getD t []).getD (i 0) []).getD (i 1) 0⟩

/-- entries, spatial shape and returned shift of a call -/
def shown (r : Py (NConfig d × Option (Fin d → Int))) :
    Py (List Int × List Nat × Option (List Int)) :=
  r.map (fun p => (p.1.arr.flatten, List.ofFn p.1.arr.shape, p.2.map List.ofFn))

/-- `test_remove_phonon_shift_2d_0` (_tests/test_engine_terms.py) -/
example : shown (NConfig.removePhonon
      ⟨arr2 [[[1, 2, 3, 0, 0, 0, 1], [4, 5, 6, 0, 0, 0, 0]]] 2 7, 1, 0⟩ [0, 0, 6]) =
    .ok ([1, 2, 3, 4, 5, 6], [2, 3], some [0, 0]) := by decide +kernel

/-- `test_remove_phonon_shift_2d_1` -/
example : shown (NConfig.removePhonon ⟨arr2 [[[0, 2, 3], [1, 0, 0]]] 2 3, 1, 0⟩ [0, 1, 0]) =
    .ok ([2, 3], [1, 2], some [0, 1]) := by decide +kernel

/-- adding diagonally outside pads both axes -/
example : shown (NConfig.addPhonon ⟨arr2 [[[1, 2]], [[0, 1]]] 1 2, 1, 0⟩ [1, -1, 2]) =
    .ok ([0, 0, 0, 1, 2, 0, 0, 0, 1, 0, 1, 0], [2, 3], some [1, 0]) := by decide +kernel

/-- `test_add_remove_dimension_mismatch` -/
example : shown (NConfig.addPhonon ⟨arr2 [[[1]]] 1 1, 1, 0⟩ [0, 0]) = .error .abort := by
  decide +kernel

/-- an empty edge along the second axis is rejected, the vacuum is accepted -/
example : (NConfig.new (arr2 [[[0, 1], [0, 1]]] 2 2)).map (fun c => c.mods) = .error .abort ∧
    (NConfig.new (arr2 [[[0, 0]]] 1 2)).map (fun c => c.mods) = .ok 0 ∧
    (NConfig.new (arr2 [[[0, 1], [1, 0]]] 2 2)).map (fun c => c.mods) = .ok 0 := by decide +kernel

/-- the hypothesis `CloudND` holds for a two-dimensional cloud with empty corners -/
example : CloudND (arr2 [[[0, 1], [1, 0]]] 2 2) := by
  have h1 : lattice (arr2 [[[0, 1], [1, 0]]] 2 2) 0 ![0, 1] ≠ 0 := by decide +kernel
  have h2 : lattice (arr2 [[[0, 1], [1, 0]]] 2 2) 0 ![1, 0] ≠ 0 := by decide +kernel
  refine ⟨(nonneg_iff _).2 (by decide +kernel), fun j => ?_, fun j => ?_⟩
  · match j with
    | 0 => exact ⟨0, _, h1, rfl⟩
    | 1 => exact ⟨0, _, h2, rfl⟩
  · match j with
    | 0 => exact ⟨0, _, h2, rfl⟩
    | 1 => exact ⟨0, _, h1, rfl⟩

/-- the identifier as printed -/
example : String.ofList (arr2 [[[0, 1], [1, 0]]] 2 2).str = "[0, 1, 1, 0](1, 2, 2)" := by
  have h : (arr2 [[[0, 1], [1, 0]]] 2 2).total ≠ 0 := by decide +kernel
  have h2 : (arr2 [[[0, 1], [1, 0]]] 2 2).flatten = [0, 1, 1, 0] := by decide +kernel
  have h3 : (List.finRange 2).map (fun j => natStr ((arr2 [[[0, 1], [1, 0]]] 2 2).shape j)) =
      [natStr 2, natStr 2] := rfl
  rw [NArr.str, if_neg h, h2, NArr.shapeStr, h3]
  simp +decide [listStr, commaJoin, intStr, natStr, arr2]

/-! ### construction -/

/-- C62, construction: for an array with at least one spatial axis and no empty axis, `Config(...)`
succeeds exactly for clouds and for arrays without phonons, and otherwise terminates the program. -/
theorem C62_construct (hd : 1 ≤ d) (a : NArr d) (hs : ∀ j, 0 < a.shape j) (m n : Nat) :
    ((CloudND a ∨ ∀ t x, lattice a t x = 0) → NConfig.new a m n = .ok ⟨a, m, n⟩) ∧
    (¬ (CloudND a ∨ ∀ t x, lattice a t x = 0) → NConfig.new a m n = .error .abort) := by
  obtain ⟨h1, h2⟩ := nValidate_spec hd a hs
  constructor
  · intro h; unfold NConfig.new; rw [h1 h]; rfl
  · intro h; unfold NConfig.new; rw [h2 h]; rfl

/-- C62, construction: an array without a spatial axis is always rejected. -/
theorem C62_no_axis (a : NArr 0) (m n : Nat) : NConfig.new a m n = .error .abort := rfl

/-! ### adding -/

/-- C62, adding: with budget left and a valid phonon type, `add_phonon_(t, *x)` succeeds for every
integer lattice site `x`; the returned shift moves the origin, and relative to the moved origin
exactly one phonon was added. Along every axis the new array reaches exactly from the leftmost to
the rightmost of the old sites and `x`. -/
theorem C62_add (c : NConfig d) (hbudget : c.mods < c.maxMods) (t : Nat) (ht : t < c.arr.types)
    (x : Fin d → Int) :
    ∃ c' s, c.addPhonon ((t : Int) :: List.ofFn x) = .ok (c', some s) ∧
      c'.arr.types = c.arr.types ∧
      (∀ t' y, lattice c'.arr t' (fun j => y j + s j) =
        lattice c.arr t' y + if t' = t ∧ y = x then 1 else 0) ∧
      (∀ j, s j = max 0 (-x j)) ∧
      (∀ j, (c'.arr.shape j : Int) = max (c.arr.shape j : Int) (x j + 1) - min 0 (x j)) ∧
      (CloudND c.arr → CloudND c'.arr) := by
  obtain ⟨c', s, h1, h2, -, -, h5, h6, h7⟩ := nAddPhonon_spec hbudget ht x
  exact ⟨c', s, h1, h2, h7, h5, h6, fun hc => nAdd_cloud hc h6 h5 h7⟩

/-! ### removing -/

/-- C62, removing: removing a phonon from an occupied site of a cloud succeeds; relative to the
origin moved by the returned shift exactly one phonon is gone, and the result is a cloud again or
the one-site vacuum (in which case the returned shift is the scalar 0, here `none`). -/
theorem C62_remove (c : NConfig d) (hc : CloudND c.arr) (hbudget : c.mods < c.maxMods) (t : Nat)
    (x : Fin d → Int) (hocc : lattice c.arr t x ≠ 0) :
    ∃ c' r, c.removePhonon ((t : Int) :: List.ofFn x) = .ok (c', r) ∧
      c'.arr.types = c.arr.types ∧
      (∀ t' y, lattice c'.arr t' (fun j => y j - r.getD (fun _ => 0) j) =
        lattice c.arr t' y - if t' = t ∧ y = x then 1 else 0) ∧
      (∀ j, 0 ≤ r.getD (fun _ => 0) j) ∧
      ((CloudND c'.arr ∧ r.isSome) ∨ (VacuumND c'.arr ∧ r = none)) := by
  obtain ⟨c', r, h1, h2, -, -, h5, h6, h7⟩ := nRemovePhonon_spec hc hbudget hocc
  exact ⟨c', r, h1, h2, h6, h5, h7⟩

/-- C62, removing: a removal where there is no phonon, at a site outside the array, or of a type that
does not exist terminates the program (non-negative indices; negative ones wrap around, see C08). -/
theorem C62_bad_removal (c : NConfig d) (t : Nat) (x : Fin d → Nat)
    (h : lattice c.arr t (fun j => (x j : Int)) ≤ 0) :
    c.removePhonon ((t : Int) :: List.ofFn (fun j => (x j : Int))) = .error .abort := by
  unfold NConfig.removePhonon
  split
  · rfl
  · rw [if_neg (by rw [length_idx]; simp), head_idx, spatial_idx]
    by_cases ht : t < c.arr.types
    · by_cases hx : x ∈ NArr.sites c.arr.shape
      · rw [npIndex_nat ht, npIndexAll_nat hx]
        simp only
        rw [if_pos]
        rw [lattice_nat _ ht hx] at h
        simp only [NArr.bump, and_self, if_true]; omega
      · have : NConfig.npIndexAll c.arr.shape (fun j => (x j : Int)) = none := by
          unfold NConfig.npIndexAll
          rw [if_neg]
          intro hall
          refine hx (mem_sites.2 (fun j => ?_))
          obtain ⟨v, hv⟩ := Option.isSome_iff_exists.1 (hall j)
          have hv' : Arr.npIndex (c.arr.shape j) (x j : Int) = some v := hv
          have := npIndex_some hv'
          omega
        rw [this]
        split
        · rename_i h1; cases h1
        · rfl
    · have : Arr.npIndex c.arr.types (t : Int) = none := by
        unfold Arr.npIndex; rw [if_neg (by omega), if_neg (by omega)]
      rw [this]

/-- C62, adding: a phonon type that does not exist terminates the program. -/
theorem C62_missing_type (c : NConfig d) (t : Int) (x : Fin d → Int)
    (ht : t < 0 ∨ (c.arr.types : Int) ≤ t) :
    c.addPhonon (t :: List.ofFn x) = .error .abort := by
  unfold NConfig.addPhonon
  split
  · rfl
  · rw [if_neg (by rw [length_idx]; simp), head_idx]
    simp only
    rw [if_pos (by omega)]

/-- C62, index tuples of the wrong length always terminate the program. -/
theorem C62_dimension_mismatch (c : NConfig d) (idx : List Int) (h : idx.length ≠ d + 1) :
    c.addPhonon idx = .error .abort ∧ c.removePhonon idx = .error .abort := by
  unfold NConfig.addPhonon NConfig.removePhonon
  constructor <;> · split
                    · rfl
                    · rfl

/-! ### round trips and histories -/

/-- C62, round trip: adding anywhere and removing at the same lattice site restores the cloud, with
equal shifts. -/
theorem C62_add_remove (c : NConfig d) (hd : 1 ≤ d) (hc : CloudND c.arr)
    (hbudget : c.mods + 1 < c.maxMods) (t : Nat) (ht : t < c.arr.types) (x : Fin d → Int) :
    ∃ c₁ c₂ s, c.addPhonon ((t : Int) :: List.ofFn x) = .ok (c₁, some s) ∧
      c₁.removePhonon ((t : Int) :: List.ofFn (fun j => x j + s j)) = .ok (c₂, some s) ∧
      SameND c₂.arr c.arr := by
  obtain ⟨c₁, s, a1, a2, a3, a4, a5, a6, a7⟩ :=
    nAddPhonon_spec (by omega : c.mods < c.maxMods) ht x
  have hc1 := nAdd_cloud hc a6 a5 a7
  have hocc : lattice c₁.arr t (fun j => x j + s j) ≠ 0 := by
    rw [a7, if_pos ⟨rfl, rfl⟩]
    have := hc.nonneg t x; omega
  obtain ⟨c₂, r, b1, b2, b3, b4, b5, b6, b7⟩ :=
    nRemovePhonon_spec hc1 (by omega : c₁.mods < c₁.maxMods) hocc
  have hlat : ∀ t' y, lattice c₂.arr t' (fun j => y j + (s j - r.getD (fun _ => 0) j)) =
      lattice c.arr t' y := by
    intro t' y
    have h1 := b6 t' (fun j => y j + s j)
    rw [a7] at h1
    have e1 : (fun j => y j + (s j - r.getD (fun _ => 0) j)) =
        (fun j => y j + s j - r.getD (fun _ => 0) j) := by funext j; omega
    have e2 : ((fun j => y j + s j) = fun j => x j + s j) ↔ y = x := by
      refine ⟨fun h => ?_, fun h => by rw [h]⟩
      funext j; have := congrFun h j; omega
    rw [e1, h1]
    simp only [e2]
    omega
  rcases b7 with ⟨hc2, hr⟩ | ⟨hv, -⟩
  · obtain ⟨s', rfl⟩ := Option.isSome_iff_exists.1 hr
    simp only [Option.getD_some] at hlat
    obtain ⟨u1, u2⟩ := cloudND_unique hc hc2 hlat
    have hss : s' = s := by funext j; have := u1 j; omega
    subst hss
    refine ⟨c₁, c₂, s', a1, b1, ⟨by rw [b2, a2], fun j => (u2 j).symm, fun t' y => ?_⟩⟩
    rw [← hlat]; congr 1; funext j; omega
  · exfalso
    obtain ⟨t', y, hy, -⟩ := hc.first ⟨0, hd⟩
    rw [← hlat, hv.empty] at hy
    exact hy rfl

theorem opND_counts {c c' : NConfig d} {op : OpND} {r} (h : op.run c = .ok (c', r)) :
    c.mods < c.maxMods ∧ c'.mods = c.mods + 1 ∧ c'.maxMods = c.maxMods := by
  cases op with
  | add idx =>
    simp only [OpND.run, NConfig.addPhonon] at h
    split at h
    · simp at h
    · split at h
      · simp at h
      · split at h
        · simp at h
        · split at h
          all_goals
            injection h with h; injection h with h _; subst h
            exact ⟨by omega, rfl, rfl⟩
  | remove idx =>
    simp only [OpND.run, NConfig.removePhonon] at h
    split at h
    · simp at h
    · split at h
      · simp at h
      · split at h
        · split at h
          · simp at h
          · revert h
            cases (c.arr.bump _ _ (-1)).reduce with
            | error e => intro h; simp [bind, Except.bind] at h
            | ok q =>
              intro h
              simp only [bind, Except.bind, pure, Except.pure] at h
              injection h with h; injection h with h _; subst h
              exact ⟨by omega, rfl, rfl⟩
        · simp at h

/-- C62, budget: once the budget is used up, every further call terminates the program. -/
theorem C62_exhausted (op : OpND) (c : NConfig d) (h : c.maxMods ≤ c.mods) : op.run c = .error .abort := by
  cases op with
  | add idx => simp [OpND.run, NConfig.addPhonon, h]
  | remove idx => simp [OpND.run, NConfig.removePhonon, h]

/-- C62, budget: every successful call uses up one modification, so a successful history is never longer than
the budget. -/
theorem C62_budget (ops : List OpND) : ∀ (c c' : NConfig d), runOpsND ops c = .ok c' →
    c'.mods = c.mods + ops.length ∧ c'.maxMods = c.maxMods ∧ (c.mods ≤ c.maxMods → c'.mods ≤ c'.maxMods) := by
  induction ops with
  | nil => intro c c' h; injection h with h; subst h; exact ⟨rfl, rfl, id⟩
  | cons op ops ih =>
    intro c c' h
    unfold runOpsND at h
    split at h
    · rename_i c₁ r h1
      obtain ⟨a1, a2, a3⟩ := opND_counts h1
      obtain ⟨b1, b2, b3⟩ := ih _ _ h
      refine ⟨by simp only [List.length_cons]; omega, by omega, fun _ => b3 (by omega)⟩
    · simp at h

/-- C62, budget: a configuration constructed with the default arguments may be modified exactly once: a phonon
of an existing type can be added anywhere, and after one successful modification every further one terminates the
program. -/
theorem C62_default_budget (hd : 1 ≤ d) (a : NArr d) (hs : ∀ j, 0 < a.shape j)
    (ha : CloudND a ∨ ∀ t x, lattice a t x = 0) :
    ∃ c, NConfig.new a = .ok c ∧ c.arr = a ∧
      (∀ t < a.types, ∀ x : Fin d → Int, ∃ c' s, c.addPhonon ((t : Int) :: List.ofFn x) = .ok (c', s)) ∧
      (∀ (op : OpND) c' r, op.run c = .ok (c', r) → ∀ op' : OpND, op'.run c' = .error .abort) := by
  refine ⟨_, (C62_construct hd a hs 1 0).1 ha, rfl, fun t ht x => ?_, fun op c' r h op' => ?_⟩
  · obtain ⟨c', s, h, -⟩ := C62_add ⟨a, 1, 0⟩ (Nat.zero_lt_one) t ht x
    exact ⟨c', some s, h⟩
  · obtain ⟨-, h2, h3⟩ := opND_counts h
    exact C62_exhausted op' c' (by rw [h2, h3])

/-- C62, histories: along any successful history (any index tuples) from a cloud or the one-site
vacuum in which phonons are never added off-site to the vacuum, the configuration is always a cloud
or the one-site vacuum. -/
theorem C62_histories (ops : List OpND) : ∀ (c c' : NConfig d),
    (CloudND c.arr ∨ VacuumND c.arr) → runOpsND ops c = .ok c' →
    (∀ pre op post c₁, ops = pre ++ op :: post → runOpsND pre c = .ok c₁ → VacuumND c₁.arr →
      ∀ idx, op = .add idx → ∀ j < d, idx[j + 1]? = some 0) →
    CloudND c'.arr ∨ VacuumND c'.arr := by
  induction ops with
  | nil =>
    intro c c' hc h _
    simp only [runOpsND, Except.ok.injEq] at h
    exact h ▸ hc
  | cons op ops ih =>
    intro c c' hc h hs
    simp only [runOpsND] at h
    cases hop : op.run c with
    | error e => rw [hop] at h; cases h
    | ok r =>
      obtain ⟨c₁, s⟩ := r
      rw [hop] at h
      have h1 := opND_canonical hc hop (fun hv idx e j => by
        have := hs [] op ops c rfl rfl hv idx e j j.2
        simp [NConfig.spatial, List.getD_eq_getElem?_getD, this])
      refine ih c₁ c' h1 h ?_
      intro pre op' post c₂ e1 e2
      refine hs (op :: pre) op' post c₂ (by rw [e1]; rfl) ?_
      simp only [runOpsND, hop]; exact e2

/-! ### identifiers -/

/-- C62, identifiers: two configurations with the same number of axes have the same identifier
exactly when neither holds a phonon or they are the same array. -/
theorem C62_identifiers (a b : NArr d) (ha : ∀ t x, 0 ≤ lattice a t x)
    (hb : ∀ t x, 0 ≤ lattice b t x) :
    a.str = b.str ↔
      ((∀ t x, lattice a t x = 0) ∧ ∀ t x, lattice b t x = 0) ∨ SameND a b := by
  rw [← nTotal_zero_iff ha, ← nTotal_zero_iff hb]
  constructor
  · intro h
    rcases nStr_eq h with h | ⟨-, -, h3, h4, h5⟩
    · exact Or.inl h
    · have hs : a.shape = b.shape := List.ofFn_injective h5
      exact Or.inr (sameND_iff.2 ⟨h4, hs, (nFlatten_inj h4 hs).1 h3⟩)
  · rintro (⟨h1, h2⟩ | h)
    · unfold NArr.str; rw [if_pos h1, if_pos h2]
    · exact nStr_same h

/-- C62, identifiers: configurations with different numbers of axes never share an identifier unless
neither holds a phonon. -/
theorem C62_identifiers_axes {d d' : Nat} (a : NArr d) (b : NArr d')
    (ha : ∀ t x, 0 ≤ lattice a t x) (hocc : ∃ t x, lattice a t x ≠ 0) (h : a.str = b.str) :
    d = d' := by
  rcases nStr_eq h with ⟨h1, -⟩ | ⟨-, -, -, -, h5⟩
  · obtain ⟨t, x, hx⟩ := hocc
    exact absurd ((nTotal_zero_iff ha).1 h1 t x) hx
  · simpa using congrArg List.length h5

/-! ### agreement with the one-dimensional model -/

/-- C62, one dimension: on the arrays used by the equation generator the general model and the
one-dimensional model make the same changes and return the same shifts. -/
theorem C62_one_dimension (c : Config) (hc : Cloud c.arr) (hbudget : c.mods < c.maxMods) (t : Nat)
    (ht : t < c.arr.rows.length) :
    (∀ x : Int, ∃ c' n s, c.addPhonon t x = .ok (c', s) ∧
      c.toND.addPhonon [(t : Int), x] = .ok (n, some (fun _ => s)) ∧
      SameND n.arr c'.arr.toND) ∧
    (∀ x : Nat, chain c.arr t x ≠ 0 → ∃ c' n r s, c.removePhonon t x = .ok (c', s) ∧
      c.toND.removePhonon [(t : Int), (x : Int)] = .ok (n, r) ∧ r.getD (fun _ => 0) 0 = s ∧
      SameND n.arr c'.arr.toND) := by
  have hl : ∀ {a : Arr}, a.WF → ∀ t (x : Fin 1 → Int), lattice a.toND t x = chain a t (x 0) :=
    fun h => lattice_toND h
  constructor
  · intro x
    obtain ⟨c', s, h1, h2, h3, -, -, h6, h7, h8⟩ := Config.addPhonon_spec hc.wf hbudget ht x
    obtain ⟨n, s', g1, g2, -, -, g5, g6, g7⟩ :=
      nAddPhonon_spec (c := c.toND) hbudget (t := t) ht (fun _ => x)
    have hs : s' = fun _ => s := by funext j; rw [g5, h6]
    subst hs
    refine ⟨c', n, s, h1, g1, ⟨by rw [g2]; exact h3.symm, fun j => ?_, fun t' y => ?_⟩⟩
    · have := g6 j
      simp only [Config.toND, Arr.toND] at this ⊢
      omega
    · have e := g7 t' (fun j => y j - s)
      simp only [sub_add_cancel] at e
      rw [e, hl h2]
      have h9 := h8 t' (y 0 - s)
      rw [sub_add_cancel] at h9
      rw [h9]
      have e2 : lattice c.toND.arr t' (fun j => y j - s) = chain c.arr t' (y 0 - s) :=
        hl hc.wf t' _
      rw [e2]
      have e3 : ((fun j => y j - s) = fun _ : Fin 1 => x) ↔ y 0 - s = x := by
        rw [fin1_iff]
      simp only [e3]
  · intro x hocc
    have hpos : 1 ≤ c.arr.get t x := by
      have := Arr.Proper.get_nonneg hc.toProper t x
      rw [Arr.get_eq_chain] at hocc
      omega
    obtain ⟨c', s, h1, h2, h3, -, -, h6, h7⟩ := Config.removePhonon_spec hc hbudget hpos
    have hcN : CloudND c.toND.arr := cloud_toND hc
    obtain ⟨n, r, g1, g2, -, -, g5, g6, g7⟩ :=
      nRemovePhonon_spec (c := c.toND) hcN hbudget (t := t) (x := fun _ => (x : Int))
        (by rw [show c.toND.arr = c.arr.toND from rfl, hl hc.wf]; exact hocc)
    have hwf' : c'.arr.WF := by rcases h2 with h | h; exacts [h.wf, h.wf]
    -- both results are translates of the same occupations
    have hlat : ∀ t' (y : Fin 1 → Int),
        lattice n.arr t' (fun j => y j + (s - r.getD (fun _ => 0) j)) =
          lattice c'.arr.toND t' y := by
      intro t' y
      have e1 := g6 t' (fun j => y j + s)
      have e2 := h7 t' (y 0 + s)
      rw [add_sub_cancel_right] at e2
      rw [hl hwf', e2]
      have e3 : (fun j => y j + (s - r.getD (fun _ => 0) j)) =
          (fun j => y j + s - r.getD (fun _ => 0) j) := by funext j; omega
      rw [e3, e1]
      have e4 : lattice c.toND.arr t' (fun j => y j + s) = chain c.arr t' (y 0 + s) :=
        hl hc.wf t' _
      have e5 : ((fun j => y j + s) = fun _ : Fin 1 => (x : Int)) ↔ y 0 + s = x := by
        rw [fin1_iff]
      rw [e4]
      simp only [e5]
    refine ⟨c', n, r, s, h1, g1, ?_⟩
    rcases h2 with hcl | hv
    · rcases g7 with ⟨hcn, -⟩ | ⟨hvn, -⟩
      · obtain ⟨u1, u2⟩ := cloudND_unique (cloud_toND hcl) hcn hlat
        refine ⟨by have := u1 0; omega, ⟨by rw [g2]; exact h3.symm, fun j => (u2 j).symm,
          fun t' y => ?_⟩⟩
        rw [← hlat]; congr 1; funext j; have := u1 j; omega
      · exfalso
        obtain ⟨t', h'⟩ := hcl.left
        have e : lattice c'.arr.toND t' (fun _ => 0) = chain c'.arr t' 0 := hl hwf' t' _
        rw [← hlat, hvn.empty] at e
        exact h' e.symm
    · have hz : ∀ t' (y : Fin 1 → Int), lattice n.arr t' y = 0 := by
        intro t' y
        have := hlat t' (fun j => y j - (s - r.getD (fun _ => 0) j))
        simp only [sub_add_cancel] at this
        rw [this, hl hwf', hv.empty]
      rcases g7 with ⟨hcn, -⟩ | ⟨hvn, hrn⟩
      · obtain ⟨t', y, hy, -⟩ := hcn.first 0
        exact absurd (hz t' y) hy
      · subst hrn
        have hs0 : s = 0 := by
          -- the scalar shift: the one-dimensional code returns 0 for the vacuum
          have hz1 : ∀ t' y, chain c.arr t' y = if t' = t ∧ y = x then 1 else 0 := by
            intro t' y
            have := h7 t' y
            rw [hv.empty] at this; omega
          have htot : (c.arr.bump t x (-1)).total = 0 := by
            have hp := hc.toProper
            have hb : ∀ t' y, (c.arr.bump t x (-1)).get t' y = 0 := by
              intro t' y
              have hxl : x < c.arr.len := by
                by_contra h; rw [hc.wf.get_oob _ (by omega)] at hpos; omega
              rw [Arr.get_bump hc.wf ht hxl, ← Arr.get_eq_chain, hz1]
              have : ((y : Int) = x) ↔ y = x := by omega
              simp only [this]
              split_ifs <;> omega
            refine (Arr.Proper.total_eq_zero_iff ⟨hc.wf.bump _ _ _, ?_⟩).2 hb
            exact (Arr.nonneg_iff_get _).2 (fun t' y => (hb t' y).ge)
          have hx' := h1
          unfold Config.removePhonon at hx'
          have hxl : x < c.arr.len := by
            by_contra h; rw [hc.wf.get_oob _ (by omega)] at hpos; omega
          rw [if_neg (by omega), npIndex_nat ht, npIndex_nat hxl] at hx'
          simp only at hx'
          split at hx'
          · cases hx'
          · unfold Arr.reduce at hx'
            rw [if_pos htot] at hx'
            simp only [bind, Except.bind, pure, Except.pure, Except.ok.injEq,
              Prod.mk.injEq] at hx'
            exact hx'.2.symm
        refine ⟨by simp [hs0], ⟨by rw [g2]; exact h3.symm, fun j => ?_, fun t' y => ?_⟩⟩
        · rw [hvn.shape]; simp only [Arr.toND]; exact hv.len.symm
        · rw [hz, hl hwf', hv.empty]

end GGCE.Props
