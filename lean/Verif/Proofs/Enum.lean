import Verif.Model.Engine
import Verif.Proofs.Legal
import Verif.Spec.Space
import Mathlib.Data.List.Nodup
import Mathlib.Data.List.Flatten

/-! The enumeration of occupation tuples and of the clouds of a model. -/

namespace GGCE
open Spec

theorem mem_configSpaceGen : ∀ (n s : Nat) (_ : 1 ≤ n) (l : List Nat),
    l ∈ configSpaceGen n s ↔ l.length = n ∧ l.sum = s
  | 0, _, h, _ => by omega
  | 1, s, _, l => by
    simp only [configSpaceGen, List.mem_singleton]
    constructor
    · rintro rfl; simp
    · rintro ⟨h1, h2⟩
      obtain ⟨v, rfl⟩ := List.length_eq_one_iff.1 h1
      simpa using h2
  | n + 2, s, _, l => by
    simp only [configSpaceGen, List.mem_flatMap, List.mem_range, List.mem_map]
    constructor
    · rintro ⟨v, hv, p, hp, rfl⟩
      obtain ⟨h1, h2⟩ := (mem_configSpaceGen (n + 1) _ (by omega) p).1 hp
      simp only [List.length_cons, List.sum_cons]
      omega
    · rintro ⟨h1, h2⟩
      cases l with
      | nil => simp at h1
      | cons v p =>
        simp only [List.length_cons, List.sum_cons] at h1 h2
        exact ⟨v, by omega, p, (mem_configSpaceGen (n + 1) _ (by omega) p).2 (by omega), rfl⟩

theorem nodup_configSpaceGen : ∀ (n s : Nat), (configSpaceGen n s).Nodup
  | 0, _ => by simp [configSpaceGen]
  | 1, s => by simp [configSpaceGen]
  | n + 2, s => by
    simp only [configSpaceGen]
    rw [List.nodup_flatMap]
    constructor
    · intro v _
      exact (nodup_configSpaceGen (n + 1) _).map (fun a b h => by simpa using h)
    · refine (List.nodup_range).imp ?_
      intro v w hne
      rw [Function.onFun, List.disjoint_left]
      intro l h1 h2
      simp only [List.mem_map] at h1 h2
      obtain ⟨p, -, rfl⟩ := h1
      obtain ⟨q, -, h⟩ := h2
      simp only [List.cons.injEq] at h
      exact hne h.1.symm

/-! #### reshape -/

theorem length_reshape (n z : Nat) (l : List Nat) : (reshape n z l).length = n := by
  induction n generalizing l with
  | zero => rfl
  | succ n ih => simp [reshape, ih]

theorem reshape_rows {n z : Nat} {l : List Nat} (hl : l.length = z * n) :
    ∀ r ∈ reshape n z l, r.length = z := by
  induction n generalizing l with
  | zero => simp [reshape]
  | succ n ih =>
    rw [Nat.mul_succ] at hl
    intro r hr
    simp only [reshape, List.mem_cons] at hr
    rcases hr with rfl | hr
    · simp; omega
    · exact ih (l := l.drop z) (by simp; omega) r hr

theorem flatten_reshape {n z : Nat} {l : List Nat} (hl : l.length = z * n) :
    (reshape n z l).flatten = l.map Int.ofNat := by
  induction n generalizing l with
  | zero => simp at hl; simp [reshape, hl]
  | succ n ih =>
    rw [Nat.mul_succ] at hl
    simp only [reshape, List.flatten_cons]
    rw [ih (by simp; omega), ← List.map_append, List.take_append_drop]

theorem reshape_flatten {n z : Nat} {rows : List (List Int)} (hn : rows.length = n)
    (hr : ∀ r ∈ rows, r.length = z) (hv : ∀ r ∈ rows, ∀ v ∈ r, 0 ≤ v) :
    reshape n z (rows.flatten.map Int.toNat) = rows := by
  induction n generalizing rows with
  | zero => simp at hn; simp [reshape, hn]
  | succ n ih =>
    cases rows with
    | nil => simp at hn
    | cons r rs =>
      have hrz := hr r (by simp)
      simp only [reshape, List.flatten_cons, List.map_append]
      rw [List.take_left' (by simp [hrz]), List.drop_left' (by simp [hrz]),
        ih (by simpa using hn) (fun r' h => hr r' (by simp [h])) (fun r' h => hv r' (by simp [h]))]
      congr 1
      rw [List.map_map]
      conv_rhs => rw [← List.map_id r]
      apply List.map_congr_left
      intro v hvr
      have := hv r (by simp) v hvr
      simp only [Function.comp, id]
      exact Int.toNat_of_nonneg this

theorem sum_map_ofNat (l : List Nat) : (l.map Int.ofNat).sum = (l.sum : Int) := by
  induction l with
  | nil => rfl
  | cons a l ih => simp only [List.map_cons, List.sum_cons, ih]; simp

theorem flatten_length_const {z : Nat} {rows : List (List Int)} (hr : ∀ r ∈ rows, r.length = z) :
    rows.flatten.length = z * rows.length := by
  induction rows with
  | nil => simp
  | cons r rs ih =>
    simp only [List.flatten_cons, List.length_append, List.length_cons]
    rw [ih (fun r' h => hr r' (by simp [h])), hr r (by simp), Nat.mul_succ]; omega

theorem sum_flatten_int (rows : List (List Int)) : rows.flatten.sum = (rows.map List.sum).sum := by
  induction rows with
  | nil => rfl
  | cons r rs ih => simp [ih]

theorem toNat_sum {l : List Int} (h : ∀ v ∈ l, 0 ≤ v) : ((l.map Int.toNat).sum : Int) = l.sum := by
  induction l with
  | nil => rfl
  | cons v l ih =>
    have := h v (by simp)
    have := ih (fun w hw => h w (by simp [hw]))
    simp only [List.map_cons, List.sum_cons]
    omega

theorem nodup_filterMap_of {α β : Type _} {f : α → Option β} {l : List α} (hl : l.Nodup)
    (h : ∀ x ∈ l, ∀ y ∈ l, ∀ b, f x = some b → f y = some b → x = y) :
    (l.filterMap f).Nodup := by
  unfold List.Nodup
  rw [List.pairwise_filterMap]
  refine List.Pairwise.imp_of_mem ?_ hl
  intro x y hx hy hne b hb b' hb'
  rintro rfl
  exact hne (h x hx y hy b hb hb')

/-! #### configurations of a model -/

variable {R : Type}

theorem configsOfLength_ok {m : Model R} (hm : ListsOk m) (hn : 1 ≤ m.nTypes) (nb : Nat) {z : Nat}
    (hz : 1 ≤ z) :
    ∃ cs, configsOfLength m nb z = .ok cs ∧ cs.Nodup ∧
      ∀ a, a ∈ cs ↔ a.len = z ∧ a.rows.length = m.nTypes ∧ phonons a = nb ∧
        Legal m.maxPerSite (some m.extent) (some m.number) a := by
  have hlen : 1 ≤ z * m.nTypes := Nat.one_le_iff_ne_zero.2 (by
    intro h; rcases Nat.mul_eq_zero.1 h with h | h <;> omega)
  let mk : List Nat → Arr := fun c => ⟨reshape m.nTypes z c, z⟩
  have hwf : ∀ c ∈ configSpaceGen (z * m.nTypes) nb, (mk c).WF := by
    intro c hc
    exact reshape_rows ((mem_configSpaceGen _ _ hlen c).1 hc).1
  have hex : ∀ c ∈ configSpaceGen (z * m.nTypes) nb, ∃ b,
      (mk c).configLegal m.maxPerSite (some m.extent) (some m.number) false = .ok b ∧
      (b = true ↔ Legal m.maxPerSite (some m.extent) (some m.number) (mk c)) := by
    intro c hc
    obtain ⟨b, h1, h2⟩ := Arr.configLegal_ok (hwf c hc) (by simp [mk]; omega) m.maxPerSite
      (some m.extent) (some m.number) false
      (by rintro M ⟨⟩; simp [mk, length_reshape, hm.ext])
      (by rintro M ⟨⟩; simp [mk, length_reshape, hm.num])
    exact ⟨b, h1, by simpa using h2⟩
  classical
  refine ⟨(configSpaceGen (z * m.nTypes) nb).filterMap (fun c =>
    if Legal m.maxPerSite (some m.extent) (some m.number) (mk c) then some (mk c) else none),
    ?_, ?_, ?_⟩
  · unfold configsOfLength
    apply collectM_ok
    intro c hc
    obtain ⟨b, h1, h2⟩ := hex c hc
    simp only [mk] at h1 h2
    simp only [h1, bind, Except.bind]
    cases b with
    | true =>
      have hl := h2.1 rfl
      simp only [if_true, mk, hl, Arr.validate_cloud hl.toCloud]; rfl
    | false =>
      have hl : ¬ Legal m.maxPerSite (some m.extent) (some m.number) (mk c) := fun h => by
        have := h2.2 h; simp at this
      simp only [mk] at hl
      simp only [Bool.false_eq_true, if_false, mk, hl]; rfl
  · apply nodup_filterMap_of (nodup_configSpaceGen _ _)
    intro c hc c' hc' b h h'
    split at h
    · split at h'
      · simp only [Option.some.injEq] at h h'
        rw [← h'] at h
        have h1 := ((mem_configSpaceGen _ _ hlen c).1 hc).1
        have h2 := ((mem_configSpaceGen _ _ hlen c').1 hc').1
        have e := congrArg (fun a : Arr => a.rows.flatten) h
        simp only [mk] at e
        rw [flatten_reshape h1, flatten_reshape h2] at e
        exact List.map_injective_iff.2 (fun a b h => by simpa using h) e
      · simp at h'
    · simp at h
  · intro a
    simp only [List.mem_filterMap]
    constructor
    · rintro ⟨c, hc, h⟩
      obtain ⟨hc1, hc2⟩ := (mem_configSpaceGen _ _ hlen c).1 hc
      split at h
      · rename_i hl
        simp only [Option.some.injEq] at h
        subst h
        refine ⟨rfl, length_reshape _ _ _, ?_, hl⟩
        unfold phonons
        rw [← sum_flatten_int]
        simp only [mk]
        rw [flatten_reshape hc1, sum_map_ofNat, hc2]
      · simp at h
    · rintro ⟨h1, h2, h3, h4⟩
      refine ⟨a.rows.flatten.map Int.toNat, ?_, ?_⟩
      · rw [mem_configSpaceGen _ _ hlen]
        constructor
        · rw [List.length_map, flatten_length_const h4.wf, h1, h2]
        · have := toNat_sum (l := a.rows.flatten) (by
            intro v hv
            obtain ⟨r, hr, hv⟩ := List.mem_flatten.1 hv
            exact h4.nonneg r hr v hv)
          rw [sum_flatten_int] at this
          have h3' : (a.rows.map List.sum).sum = (nb : Int) := h3
          omega
      · have : mk (a.rows.flatten.map Int.toNat) = a := by
          simp only [mk]
          have hwf4 : ∀ r ∈ a.rows, r.length = z := fun r hr => by rw [h4.wf r hr, h1]
          rw [reshape_flatten h2 hwf4 h4.nonneg, ← h1]
        rw [this, if_pos h4]

theorem configsOfNumber_ok {m : Model R} (hm : ListsOk m) (hn : 1 ≤ m.nTypes) (nb : Nat) {ae : Int}
    (hae : m.absExtent = some ae) :
    ∃ cs, configsOfNumber m nb = .ok cs ∧ cs.Nodup ∧ ∀ a, a ∈ cs ↔ InSpace m ae nb a := by
  classical
  choose f hf using fun z : Nat => configsOfLength_ok hm hn nb (z := z + 1) (by omega)
  refine ⟨((List.range ae.toNat).map f).flatten, ?_, ?_, ?_⟩
  · unfold configsOfNumber
    rw [hae]
    simp only
    rw [collectM_some_ok (g := f)]
    · rfl
    · intro z _
      rw [(hf z).1]; rfl
  · rw [List.nodup_flatten]
    constructor
    · intro l hl
      obtain ⟨z, -, rfl⟩ := List.mem_map.1 hl
      exact (hf z).2.1
    · rw [List.pairwise_map]
      refine List.nodup_range.imp ?_
      intro z z' hne
      rw [List.disjoint_left]
      intro a h1 h2
      have e1 := (((hf z).2.2 a).1 h1).1
      have e2 := (((hf z').2.2 a).1 h2).1
      omega
  · intro a
    simp only [List.mem_flatten, List.mem_map, List.mem_range, InSpace, InTruncation]
    constructor
    · rintro ⟨l, ⟨z, hz, rfl⟩, ha⟩
      obtain ⟨h1, h2⟩ := ((hf z).2.2 a).1 ha
      exact ⟨⟨by omega, h2.1, h2.2.2⟩, h2.2.1⟩
    · rintro ⟨⟨h1, h2, h3⟩, h4⟩
      have hp := h3.pos
      refine ⟨_, ⟨a.len - 1, by omega, rfl⟩, ((hf _).2.2 a).2 ⟨by omega, h2, h4, h3⟩⟩

theorem generateAll_ok {m : Model R} (hm : ListsOk m) (hn : 1 ≤ m.nTypes)
    (hd : m.ham.dimension ≤ 1) {ae : Int} (hae : m.absExtent = some ae) :
    ∃ f : Nat → List Arr, generateAll m =
        .ok ((List.range m.number.sum.toNat).map (fun i => (i + 1, f (i + 1)))) ∧
      ∀ nb, (f nb).Nodup ∧ ∀ a, a ∈ f nb ↔ InSpace m ae nb a := by
  choose f hf using fun nb : Nat => configsOfNumber_ok hm hn nb hae
  refine ⟨f, ?_, fun nb => (hf nb).2⟩
  unfold generateAll
  rw [if_neg (by omega)]
  apply collectM_some_ok
  intro i _
  simp only [(hf (i + 1)).1]; rfl

open Arr in
/-- every cloud of the truncated space has between 1 and `Σ N` phonons -/
theorem phonons_bounds {R : Type} {m : Model R} (hl : ListsOk m) {ae : Int} {a : Arr}
    (ha : InTruncation m ae a) : 1 ≤ phonons a ∧ phonons a ≤ m.number.sum := by
  obtain ⟨-, h2, h3⟩ := ha
  constructor
  · have h1 := (total_nonneg_iff (a := a) (Proper.get_nonneg h3.toProper)).1
    have h2 := total_ne_zero_of_cloud h3.toCloud
    have : phonons a = a.total := rfl
    omega
  · have key : ∀ (rows : List (List Int)) (N : List Int), rows.length = N.length →
        (∀ t, t < rows.length → ∃ n, N[t]? = some n ∧ (rows.getD t []).sum ≤ n) →
        (rows.map List.sum).sum ≤ N.sum := by
      intro rows
      induction rows with
      | nil => intro N hN _; cases N with
        | nil => simp
        | cons n N => simp at hN
      | cons r rs ih => intro N hN h; cases N with
        | nil => simp at hN
        | cons n N =>
          have h0 := h 0 (by simp)
          simp only [List.getElem?_cons_zero, Option.some.injEq, List.getD_cons_zero,
            exists_eq_left'] at h0
          have := ih N (by simpa using hN) (fun t ht => by simpa using h (t + 1) (by simpa using ht))
          simp only [List.map_cons, List.sum_cons]; omega
    exact key a.rows m.number (by rw [h2, hl.num]) (h3.numberOk _ rfl)

end GGCE
