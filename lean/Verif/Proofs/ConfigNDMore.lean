import Verif.Proofs.ConfigND
import Verif.Proofs.History
import Verif.Proofs.Ids

/-! Clouds in `d` dimensions: histories, identifiers, and agreement with the one-dimensional
model. -/

namespace GGCE
open Spec NArr
open Arr (chain_eq)
variable {d : Nat}

/-! ### calls with arbitrary index tuples -/

theorem idx_eq {idx : List Int} (h : idx.length = d + 1) :
    idx = idx.headD 0 :: List.ofFn (NConfig.spatial (d := d) idx) := by
  cases idx with
  | nil => simp at h
  | cons t xs =>
    simp only [List.headD_cons, List.cons.injEq, true_and]
    have hl : xs.length = d := by simpa using h
    apply List.ext_getElem
    · simp [hl]
    · intro n h1 h2
      simp [NConfig.spatial, List.getD_eq_getElem?_getD, h1]

/-- what a successful `add_phonon_` says about its arguments -/
theorem nAdd_args {c c' : NConfig d} {idx : List Int} {r}
    (h : c.addPhonon idx = .ok (c', r)) :
    c.mods < c.maxMods ∧ ∃ (t : Nat) (x : Fin d → Int), t < c.arr.types ∧
      idx = (t : Int) :: List.ofFn x := by
  unfold NConfig.addPhonon at h
  split at h
  · cases h
  rename_i h1
  split at h
  · cases h
  rename_i h2
  simp only at h
  split at h
  · cases h
  rename_i h3
  refine ⟨by omega, (idx.headD 0).toNat, NConfig.spatial idx, by omega, ?_⟩
  rw [Int.toNat_of_nonneg (by omega)]
  exact idx_eq (by omega)

/-- a successful `remove_phonon_` removes at some site of the array where there is a phonon -/
theorem nRemove_args {c c' : NConfig d} {idx : List Int} {r}
    (h : c.removePhonon idx = .ok (c', r)) :
    c.mods < c.maxMods ∧ ∃ (t : Nat) (i : Fin d → Nat), t < c.arr.types ∧ i ∈ sites c.arr.shape ∧
      1 ≤ lattice c.arr t (fun j => (i j : Int)) ∧
      c.removePhonon ((t : Int) :: List.ofFn (fun j => (i j : Int))) = .ok (c', r) := by
  have h0 := h
  unfold NConfig.removePhonon at h
  split at h
  · cases h
  rename_i h1
  split at h
  · cases h
  rename_i h2
  split at h
  · rename_i t' x' ht hx
    simp only at h
    split at h
    · cases h
    rename_i h3
    have e1 := (npIndex_some ht).1
    have hxs : ∀ j, Arr.npIndex (c.arr.shape j) (NConfig.spatial idx j) = some (x' j) := by
      unfold NConfig.npIndexAll at hx
      split at hx
      · rename_i hall
        simp only [Option.some.injEq] at hx
        subst hx
        intro j
        obtain ⟨v, hv⟩ := Option.isSome_iff_exists.1 (hall j)
        simp [hv]
      · cases hx
    have hsite : x' ∈ sites c.arr.shape :=
      mem_sites.2 (fun j => (npIndex_some (hxs j)).1)
    refine ⟨by omega, t', x', e1, hsite, ?_, ?_⟩
    · have := h3
      simp only [NArr.bump, and_self, if_true] at this
      rw [lattice_nat _ e1 hsite]; omega
    · rw [← h0]
      unfold NConfig.removePhonon
      rw [if_neg h1, if_neg h1, if_neg (by rw [length_idx]; simp), if_neg h2, head_idx, spatial_idx,
        npIndex_nat e1, npIndexAll_nat hsite, ht, hx]
  · cases h

/-- a call on a `Config` in `d` dimensions -/
inductive OpND where
  | add (idx : List Int)
  | remove (idx : List Int)
  deriving DecidableEq, Repr

/-- one call -/
def OpND.run : OpND → NConfig d → Py (NConfig d × Option (Fin d → Int))
  | .add idx, c => c.addPhonon idx
  | .remove idx, c => c.removePhonon idx

/-- a sequence of calls on the same object, stopping at the first failure -/
def runOpsND : List OpND → NConfig d → Py (NConfig d)
  | [], c => .ok c
  | op :: ops, c =>
    match op.run c with
    | .ok (c', _) => runOpsND ops c'
    | .error e => .error e

theorem vacuumND_remove {c c' : NConfig d} {idx : List Int} {r} (hv : VacuumND c.arr)
    (h : c.removePhonon idx = .ok (c', r)) : False := by
  obtain ⟨-, t, i, -, -, h1, -⟩ := nRemove_args h
  rw [hv.empty] at h1; omega

theorem opND_canonical {c c' : NConfig d} {op : OpND} {r}
    (hc : CloudND c.arr ∨ VacuumND c.arr) (h : op.run c = .ok (c', r))
    (hs : VacuumND c.arr → ∀ idx, op = .add idx → ∀ j : Fin d, NConfig.spatial idx j = 0) :
    CloudND c'.arr ∨ VacuumND c'.arr := by
  cases op with
  | remove idx =>
    rcases hc with hc | hv
    · obtain ⟨hb, t, i, ht, hi, hocc, he⟩ := nRemove_args h
      obtain ⟨c₁, r₁, e, -, -, -, -, -, hcv⟩ :=
        nRemovePhonon_spec hc hb (t := t) (x := fun j => (i j : Int)) (by omega)
      rw [he] at e
      simp only [Except.ok.injEq, Prod.mk.injEq] at e
      obtain ⟨rfl, rfl⟩ := e
      exact hcv.imp (·.1) (·.1)
    · exact absurd h (fun h => vacuumND_remove hv h)
  | add idx =>
    obtain ⟨hb, t, x, ht, rfl⟩ := nAdd_args h
    obtain ⟨c₁, s, e, e1, -, -, e4, e5, e6⟩ := nAddPhonon_spec hb ht x
    have h' : c.addPhonon ((t : Int) :: List.ofFn x) = .ok (c', r) := h
    rw [h'] at e
    simp only [Except.ok.injEq, Prod.mk.injEq] at e
    obtain ⟨rfl, rfl⟩ := e
    left
    rcases hc with hc | hv
    · exact nAdd_cloud hc e5 e4 e6
    · have hx : ∀ j, x j = 0 := by
        have := hs hv _ rfl; rwa [spatial_idx] at this
      have hx' : x = fun _ => 0 := funext hx
      have hs0 : s = fun _ => 0 := by funext j; rw [e4, hx]; rfl
      have hlat : ∀ t' y, lattice c'.arr t' y = if t' = t ∧ y = x then 1 else 0 := by
        intro t' y
        have := e6 t' y
        rw [hs0, hv.empty] at this
        simpa using this
      have hne : lattice c'.arr t x ≠ 0 := by rw [hlat]; simp
      refine ⟨fun t' y => by rw [hlat]; split_ifs <;> omega, fun j => ⟨t, x, hne, hx j⟩,
        fun j => ⟨t, x, hne, ?_⟩⟩
      have := e5 j
      rw [hx, hv.shape] at this
      rw [hx, this]; rfl

/-! ### identifiers -/

theorem length_flattenFn : ∀ {d : Nat} (s : Fin d → Nat) (f g : (Fin d → Nat) → Int),
    (flattenFn s f).length = (flattenFn s g).length
  | 0, _, _, _ => rfl
  | d + 1, s, f, g => by
    simp only [flattenFn, List.length_flatMap]
    congr 1
    exact List.map_congr_left (fun p _ => length_flattenFn _ _ _)

theorem flatMap_inj {n : Nat} {F G : Nat → List Int} (hl : ∀ p, (F p).length = (G p).length)
    (h : (List.range n).flatMap F = (List.range n).flatMap G) : ∀ p < n, F p = G p := by
  induction n with
  | zero => intro p hp; omega
  | succ n ih =>
    simp only [List.range_succ, List.flatMap_append, List.flatMap_cons, List.flatMap_nil,
      List.append_nil] at h
    have hlen : ((List.range n).flatMap F).length = ((List.range n).flatMap G).length := by
      simp only [List.length_flatMap]
      congr 1; exact List.map_congr_left (fun p _ => hl p)
    obtain ⟨h1, h2⟩ := List.append_inj h hlen
    intro p hp
    by_cases hpn : p = n
    · subst hpn; exact h2
    · exact ih h1 p (by omega)

theorem flatMap_congr_range {n : Nat} {F G : Nat → List Int} (h : ∀ p < n, F p = G p) :
    (List.range n).flatMap F = (List.range n).flatMap G := by
  rw [List.flatMap_def, List.flatMap_def,
    List.map_congr_left (fun p hp => h p (List.mem_range.1 hp))]

theorem flattenFn_inj : ∀ {d : Nat} {s : Fin d → Nat} {f g : (Fin d → Nat) → Int},
    flattenFn s f = flattenFn s g ↔ ∀ i ∈ sites s, f i = g i
  | 0, s, f, g => by
    simp only [flattenFn, List.cons.injEq, and_true]
    constructor
    · intro h i _
      have : i = fun j => j.elim0 := funext (fun j => j.elim0)
      rw [this]; exact h
    · intro h; exact h _ (mem_sites.2 (fun j => j.elim0))
  | d + 1, s, f, g => by
    simp only [flattenFn]
    constructor
    · intro h i hi
      have h1 := flatMap_inj (fun p => length_flattenFn _ _ _) h (i 0) (mem_sites.1 hi 0)
      have h2 := flattenFn_inj.1 h1 (fun j => i j.succ)
        (mem_sites.2 (fun j => mem_sites.1 hi j.succ))
      have hi' : Fin.cons (i 0) (fun j => i (Fin.succ j)) = i := Fin.cons_self_tail i
      rwa [hi'] at h2
    · intro h
      refine flatMap_congr_range (fun p hp => flattenFn_inj.2 (fun i hi => h _ ?_))
      refine mem_sites.2 (fun j => ?_)
      refine Fin.cases ?_ (fun j => ?_) j
      · simpa using hp
      · simpa using mem_sites.1 hi j

theorem natStr_eq_intStr (n : Nat) : natStr n = intStr (n : Int) := by
  unfold intStr; rw [if_neg (by omega)]; simp

theorem commaJoin_nat_inj {xs ys : List Nat}
    (h : commaJoin (xs.map natStr) = commaJoin (ys.map natStr)) : xs = ys := by
  have e : ∀ l : List Nat, l.map natStr = (l.map Int.ofNat).map intStr := by
    intro l; simp [List.map_map, Function.comp_def, natStr_eq_intStr]
  have h1 : listStr ((xs.map Int.ofNat).map intStr) ++ [] =
      listStr ((ys.map Int.ofNat).map intStr) ++ [] := by
    rw [← e, ← e, listStr, listStr, h]
  have := (listStr_inj h1).1
  exact (List.map_injective_iff.2 Int.ofNat_injective) this

/-- `str(shape)` determines the shape, and with it the number of axes -/
theorem shapeStr_inj {d d' : Nat} {a : NArr d} {b : NArr d'} (h : a.shapeStr = b.shapeStr) :
    a.types = b.types ∧ List.ofFn a.shape = List.ofFn b.shape := by
  unfold NArr.shapeStr at h
  simp only [List.cons.injEq, true_and] at h
  have h1 := List.append_cancel_right h
  have e : ∀ {d : Nat} (a : NArr d), natStr a.types ::
      (List.finRange d).map (fun j => natStr (a.shape j)) =
        (a.types :: List.ofFn a.shape).map natStr := by
    intro d a
    simp [List.ofFn_eq_map, List.map_map, Function.comp_def]
  rw [e, e] at h1
  have := commaJoin_nat_inj h1
  simpa using this

theorem sameND_iff {a b : NArr d} : SameND a b ↔ a.types = b.types ∧ a.shape = b.shape ∧
    ∀ t < a.types, ∀ i ∈ sites a.shape, a.val t i = b.val t i := by
  constructor
  · rintro ⟨h1, h2, h3⟩
    have h2' : a.shape = b.shape := funext h2
    refine ⟨h1, h2', fun t ht i hi => ?_⟩
    rw [← lattice_nat a ht hi, h3, lattice_nat b (h1 ▸ ht) (h2' ▸ hi)]
  · rintro ⟨h1, h2, h3⟩
    refine ⟨h1, fun j => by rw [h2], fun t x => ?_⟩
    by_cases hin : t < a.types ∧ ∀ j, 0 ≤ x j ∧ x j < a.shape j
    · rw [lattice_in hin, lattice_in (a := b) (by rw [← h1, ← h2]; exact hin)]
      refine h3 t hin.1 _ (mem_sites.2 (fun j => ?_))
      have := hin.2 j; omega
    · rw [lattice_out hin, lattice_out (a := b) (by rw [← h1, ← h2]; exact hin)]

theorem nFlatten_inj {a b : NArr d} (ht : a.types = b.types) (hs : a.shape = b.shape) :
    a.flatten = b.flatten ↔ ∀ t < a.types, ∀ i ∈ sites a.shape, a.val t i = b.val t i := by
  unfold NArr.flatten
  rw [← ht, ← hs]
  constructor
  · intro h t htt
    exact flattenFn_inj.1 (flatMap_inj (fun p => length_flattenFn _ _ _) h t htt)
  · intro h
    exact flatMap_congr_range (fun t ht => flattenFn_inj.2 (h t ht))

theorem nStr_eq {d d' : Nat} {a : NArr d} {b : NArr d'} (h : a.str = b.str) :
    (a.total = 0 ∧ b.total = 0) ∨
      (a.total ≠ 0 ∧ b.total ≠ 0 ∧ a.flatten = b.flatten ∧ a.types = b.types ∧
        List.ofFn a.shape = List.ofFn b.shape) := by
  unfold NArr.str at h
  by_cases h1 : a.total = 0 <;> by_cases h2 : b.total = 0 <;>
    simp only [h1, h2, if_true, if_false] at h
  · exact Or.inl ⟨h1, h2⟩
  · exfalso
    simp only [listStr, List.cons_append, List.cons.injEq] at h
    exact absurd h.1 (by decide)
  · exfalso
    simp only [listStr, List.cons_append, List.cons.injEq] at h
    exact absurd h.1 (by decide)
  · obtain ⟨h3, h4⟩ := listStr_inj h
    exact Or.inr ⟨h1, h2, h3, shapeStr_inj h4⟩

theorem same_total {a b : NArr d} (h : SameND a b) : a.total = b.total := by
  obtain ⟨h1, h2, h3⟩ := sameND_iff.1 h
  unfold NArr.total
  rw [← h1, ← h2]
  exact Finset.sum_congr rfl (fun t ht =>
    Finset.sum_congr rfl (fun i hi => h3 t (Finset.mem_range.1 ht) i hi))

theorem nStr_same {a b : NArr d} (h : SameND a b) : a.str = b.str := by
  obtain ⟨h1, h2, h3⟩ := sameND_iff.1 h
  unfold NArr.str NArr.shapeStr
  rw [same_total h, (nFlatten_inj h1 h2).2 h3, h1, h2]

/-! ### the one-dimensional model is the case `d = 1` -/

/-- the array of the one-dimensional model as a `d = 1` array -/
def Arr.toND (a : Arr) : NArr 1 := ⟨a.rows.length, fun _ => a.len, fun t i => a.get t (i 0)⟩

def Config.toND (c : Config) : NConfig 1 := ⟨c.arr.toND, c.maxMods, c.mods⟩

theorem lattice_toND {a : Arr} (h : a.WF) (t : Nat) (x : Fin 1 → Int) :
    lattice a.toND t x = chain a t (x 0) := by
  rw [chain_eq]
  by_cases hin : t < a.toND.types ∧ ∀ j, 0 ≤ x j ∧ x j < a.toND.shape j
  · rw [lattice_in hin, if_pos (hin.2 0).1]; rfl
  · rw [lattice_out hin]
    split_ifs with h0
    · by_cases ht : t < a.nTypes
      · refine (h.get_oob _ ?_).symm
        by_contra hc
        refine hin ⟨ht, fun j => ?_⟩
        obtain rfl : j = 0 := Subsingleton.elim _ _
        refine ⟨h0, ?_⟩
        simp only [Arr.toND]; omega
      · exact (Arr.get_type_oob (by omega) _).symm
    · rfl

theorem cloud_toND {a : Arr} (h : Cloud a) : CloudND a.toND := by
  refine ⟨fun t x => ?_, fun j => ?_, fun j => ?_⟩
  · rw [lattice_toND h.wf, chain_eq]
    split_ifs
    · exact Arr.Proper.get_nonneg h.toProper _ _
    · exact le_rfl
  · obtain ⟨t, ht⟩ := h.left
    exact ⟨t, fun _ => 0, by rw [lattice_toND h.wf]; exact ht, rfl⟩
  · obtain ⟨t, ht⟩ := h.right
    exact ⟨t, fun _ => a.len - 1, by rw [lattice_toND h.wf]; exact ht, rfl⟩

theorem fin1_eq (x : Fin 1 → Int) : x = fun _ => x 0 := by
  funext j; rw [Subsingleton.elim j 0]

theorem fin1_iff (y : Fin 1 → Int) (x : Int) : (y = fun _ => x) ↔ y 0 = x :=
  ⟨fun h => by rw [h], fun h => by rw [fin1_eq y, h]⟩

end GGCE
