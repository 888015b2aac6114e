import Mathlib.Tactic.Linarith
import Mathlib.Tactic.Positivity
import Verif.Spec.Padding
import Verif.Props.Cache
import Verif.Props.Crew

/-!
Property C116: the tutorial's account of padded grids.
-/

set_option linter.unusedSectionVars false

namespace GGCE.Props
open Crew Spec

variable {R V : Type} [Field R] [LinearOrder R] [IsStrictOrderedRing R]

/-- both directions at once -/
theorem extend_pairwise {x y : List R} {n : Nat} {s gap : R} (hgap : 0 ≤ gap) (h : extendGrid x n = .ok y)
    (hx : x.Pairwise (fun u v => gap < s * (v - u))) :
    ∃ p, y = x ++ p ∧ y.Pairwise (fun u v => gap < s * (v - u)) := by
  unfold extendGrid at h
  rcases hr : x.reverse with _ | ⟨a, _ | ⟨b, l⟩⟩ <;> rw [hr] at h
  · cases h
  · cases h
  · simp only [Except.ok.injEq] at h
    refine ⟨_, h.symm, ?_⟩
    have hxe : x = l.reverse ++ [b, a] := by
      have := congrArg List.reverse hr
      simpa using this
    have hx' := hx
    rw [hxe, List.pairwise_append] at hx'
    obtain ⟨-, hba, hcr⟩ := hx'
    have hstep : gap < s * (a - b) := by simpa using hba
    have hle : ∀ u ∈ x, 0 ≤ s * (a - u) := by
      intro u hu
      rw [hxe] at hu
      simp only [List.mem_append, List.mem_cons, List.not_mem_nil, or_false] at hu
      rcases hu with hu | rfl | rfl
      · exact le_of_lt (lt_of_le_of_lt hgap (hcr u hu a (by simp)))
      · exact le_of_lt (lt_of_le_of_lt hgap hstep)
      · simp
    have hmul : ∀ i : Nat, s * (a - b) ≤ ((i + 1 : Nat) : R) * (s * (a - b)) := by
      intro i
      have h0 : 0 ≤ s * (a - b) := le_of_lt (lt_of_le_of_lt hgap hstep)
      have h1 : (0 : R) ≤ (i : R) * (s * (a - b)) := mul_nonneg (Nat.cast_nonneg i) h0
      push_cast
      linarith
    rw [← h, List.pairwise_append]
    refine ⟨hx, ?_, ?_⟩
    · rw [List.pairwise_map]
      refine List.Pairwise.imp ?_ List.pairwise_lt_range
      intro i j hij
      obtain ⟨d, rfl⟩ : ∃ d, j = i + d + 1 := ⟨j - i - 1, by omega⟩
      have := hmul d
      have e : s * (a + ((i + d + 1 + 1 : Nat) : R) * (a - b) - (a + ((i + 1 : Nat) : R) * (a - b))) =
          ((d + 1 : Nat) : R) * (s * (a - b)) := by
        push_cast
        ring
      rw [e]
      linarith
    · intro u hu v hv
      obtain ⟨i, -, rfl⟩ := List.mem_map.1 hv
      have := hmul i
      have := hle u hu
      have e : s * (a + ((i + 1 : Nat) : R) * (a - b) - u) = s * (a - u) + ((i + 1 : Nat) : R) * (s * (a - b)) := by ring
      rw [e]
      linarith

theorem extend_ordered {x y : List R} {n : Nat} {gap : R} (hgap : 0 ≤ gap) (h : extendGrid x n = .ok y)
    (hx : Ordered gap x) : ∃ p, y = x ++ p ∧ (∀ v ∈ p, Outside x v) ∧ Ordered gap y := by
  rcases hx with hx | hx
  · obtain ⟨p, rfl, hy⟩ := extend_pairwise (s := 1) hgap h (hx.imp fun {u v} huv => by linarith)
    refine ⟨p, rfl, fun v hv => Or.inl fun u hu => ?_, Or.inl (hy.imp fun {u v} huv => by linarith)⟩
    have := (List.pairwise_append.1 hy).2.2 u hu v hv
    linarith
  · obtain ⟨p, rfl, hy⟩ := extend_pairwise (s := -1) hgap h (hx.imp fun {u v} huv => by linarith)
    refine ⟨p, rfl, fun v hv => Or.inr fun u hu => ?_, Or.inr (hy.imp fun {u v} huv => by linarith)⟩
    have := (List.pairwise_append.1 hy).2.2 u hu v hv
    linarith

/-- **C116**, the part that holds: if both axes rise or fall, then the requested points come first, what is added
(to one axis only) lies outside the requested range, and the new axis rises or falls like the old one, with points at
least as far apart. -/
theorem C116_outside_partial (b : Brigades) (ks ws k' w' : List R) (hg : massGrid b ks ws = .ok (k', w')) (gap : R)
    (hgap : 0 ≤ gap) (hk : Ordered gap ks) (hw : Ordered gap ws) :
    ∃ p q, k' = ks ++ p ∧ w' = ws ++ q ∧ (p = [] ∨ q = []) ∧ (∀ v ∈ p, Outside ks v) ∧ (∀ v ∈ q, Outside ws v) ∧
      Ordered gap k' ∧ Ordered gap w' := by
  unfold massGrid at hg
  split at hg
  · simp only [Except.ok.injEq, Prod.mk.injEq] at hg
    obtain ⟨rfl, rfl⟩ := hg
    exact ⟨[], [], by simp, by simp, Or.inl rfl, by simp, by simp, hk, hw⟩
  · unfold paddedKw at hg
    split at hg
    · cases h1 : numPads ks.length ws.length b.count 1000 with
      | error e => simp [h1, bind, Except.bind] at hg
      | ok n =>
        cases h2 : extendGrid ws n with
        | error e => simp [h1, h2, bind, Except.bind] at hg
        | ok y =>
          simp only [h1, h2, bind, Except.bind, pure, Except.pure, Except.ok.injEq, Prod.mk.injEq] at hg
          obtain ⟨rfl, rfl⟩ := hg
          obtain ⟨q, rfl, h3, h4⟩ := extend_ordered hgap h2 hw
          exact ⟨[], q, by simp, rfl, Or.inl rfl, by simp, h3, hk, h4⟩
    · cases h1 : numPads ws.length ks.length b.count 1000 with
      | error e => simp [h1, bind, Except.bind] at hg
      | ok n =>
        cases h2 : extendGrid ks n with
        | error e => simp [h1, h2, bind, Except.bind] at hg
        | ok y =>
          simp only [h1, h2, bind, Except.bind, pure, Except.pure, Except.ok.injEq, Prod.mk.injEq] at hg
          obtain ⟨rfl, rfl⟩ := hg
          obtain ⟨q, rfl, h3, h4⟩ := extend_ordered hgap h2 hk
          exact ⟨q, [], rfl, by simp, Or.inr rfl, h3, by simp, h4, hw⟩

/-- C116 is false for an axis that neither rises nor falls: the added point can lie in the requested range, and even be
one of the requested points. -/
theorem C116_unsorted_fails : massGrid ⟨2, some 1⟩ [0] [(1 : ℚ), 3, 2] = .ok ([0], [1, 3, 2, 1]) ∧
    ¬ Outside [(1 : ℚ), 3, 2] 1 := by
  refine ⟨by decide +kernel, ?_⟩
  rintro (h | h)
  · exact absurd (h 1 (by simp)) (by norm_num)
  · exact absurd (h 1 (by simp)) (by norm_num)

theorem massGrid_prefix {R : Type} [Field R] {b : Brigades} {ks ws k' w' : List R} (hg : massGrid b ks ws = .ok (k', w')) :
    ∃ p q, k' = ks ++ p ∧ w' = ws ++ q := by
  have hex : ∀ {x y : List R} {n : Nat}, extendGrid x n = .ok y → ∃ p, y = x ++ p := by
    intro x y n h
    unfold extendGrid at h
    split at h
    · simp only [Except.ok.injEq] at h
      exact ⟨_, h.symm⟩
    · cases h
  unfold massGrid at hg
  split at hg
  · simp only [Except.ok.injEq, Prod.mk.injEq] at hg
    obtain ⟨rfl, rfl⟩ := hg
    exact ⟨[], [], by simp, by simp⟩
  · unfold paddedKw at hg
    split at hg
    · cases h1 : numPads ks.length ws.length b.count 1000 with
      | error e => simp [h1, bind, Except.bind] at hg
      | ok n =>
        cases h2 : extendGrid ws n with
        | error e => simp [h1, h2, bind, Except.bind] at hg
        | ok y =>
          simp only [h1, h2, bind, Except.bind, pure, Except.pure, Except.ok.injEq, Prod.mk.injEq] at hg
          obtain ⟨rfl, rfl⟩ := hg
          obtain ⟨q, rfl⟩ := hex h2
          exact ⟨[], q, by simp, rfl⟩
    · cases h1 : numPads ws.length ks.length b.count 1000 with
      | error e => simp [h1, bind, Except.bind] at hg
      | ok n =>
        cases h2 : extendGrid ks n with
        | error e => simp [h1, h2, bind, Except.bind] at hg
        | ok y =>
          simp only [h1, h2, bind, Except.bind, pure, Except.pure, Except.ok.injEq, Prod.mk.injEq] at hg
          obtain ⟨rfl, rfl⟩ := hg
          obtain ⟨q, rfl⟩ := hex h2
          exact ⟨q, [], rfl, by simp⟩

theorem isGrid_unique {R : Type} [Field R] {solve : R → R → Py V} {k w : List R} {M N : List (List V)}
    (hM : IsGridOf solve k w M) (hN : IsGridOf solve k w N) : M = N := by
  refine List.ext_getElem (by rw [hM.1, hN.1]) fun i h1 h2 => ?_
  rw [hM.1] at h1
  obtain ⟨r, r1, r2, r3⟩ := hM.2 i h1
  obtain ⟨t, t1, t2, t3⟩ := hN.2 i h1
  rw [List.getElem?_eq_some_iff] at r1 t1
  obtain ⟨_, rfl⟩ := r1
  obtain ⟨_, rfl⟩ := t1
  refine List.ext_getElem (by rw [r2, t2]) fun j g1 g2 => ?_
  rw [r2] at g1
  obtain ⟨v, v1, v2⟩ := r3 j g1
  obtain ⟨u, u1, u2⟩ := t3 j g1
  rw [v2] at u2
  cases u2
  rw [List.getElem?_eq_some_iff] at v1 u1
  rw [v1.2, u1.2]

theorem slice_isGrid {R : Type} [Field R] {solve : R → R → Py V} {k w p q : List R} {M : List (List V)}
    (hM : IsGridOf solve (k ++ p) (w ++ q) M) : IsGridOf solve k w (slice k.length w.length M) := by
  obtain ⟨h1, h2⟩ := hM
  rw [List.length_append] at h1
  refine ⟨by simp [slice, h1], fun i hi => ?_⟩
  obtain ⟨row, r1, r2, r3⟩ := h2 i (by rw [List.length_append]; omega)
  rw [List.length_append] at r2
  refine ⟨row.take w.length, by simp [slice, List.getElem?_map, List.getElem?_take, hi, r1], by simp [r2], fun j hj => ?_⟩
  obtain ⟨v, v1, v2⟩ := r3 j (by rw [List.length_append]; omega)
  refine ⟨v, by simp [List.getElem?_take, hj, v1], ?_⟩
  rw [List.getElem_append_left hi, List.getElem_append_left hj] at v2
  exact v2

/-- **C116**, the slice of the tutorial: whenever `greens_function` of the brigades returns (and no value is NaN),
`result[:len(k), :len(w)]` is what the serial solver returns on the requested grid. -/
theorem C116_slice {R V : Type} [Field R] (solve : R → R → Py V) (isNaN : V → Bool) (b : Brigades) (k w : GridArg R)
    (ks ws : List R) (hk : gridPoints k = some ks) (hkw : gridPoints w = some ws) (hw : 1 ≤ b.world)
    (hnan : ∀ x y v, solve x y = .ok v → isNaN v = false)
    (M : List (List V)) (h : massGreens solve isNaN b k w = .ok M) :
    greensSerial solve k w = .ok (slice ks.length ws.length M) := by
  have hk' : massGreens solve isNaN b k w = massGreens solve isNaN b (.seq ks) (.seq ws) ∧
      greensSerial solve k w = greensSerial solve (.seq ks) (.seq ws) := by
    cases k <;> cases w <;> simp only [gridPoints, Option.some.injEq, reduceCtorEq] at hk hkw <;> subst hk <;> subst hkw <;>
      exact ⟨rfl, rfl⟩
  rw [hk'.1] at h
  rw [hk'.2]
  have hc : b.check = .ok () := by
    unfold massGreens at h
    cases hb : b.check with
    | ok u => rfl
    | error e => simp [hb, bind, Except.bind] at h
  rw [C28_serial solve isNaN b ks ws hw hc hnan] at h
  cases hg : massGrid b ks ws with
  | error e => simp [hg, Except.bind] at h
  | ok g =>
    obtain ⟨k', w'⟩ := g
    simp only [hg, Except.bind] at h
    obtain ⟨p, q, rfl, rfl⟩ := massGrid_prefix hg
    obtain ⟨_, _, e1, e2, hM⟩ := C26_entries solve _ _ M h
    simp only [gridPoints, Option.some.injEq] at e1 e2
    subst e1 e2
    have hS := slice_isGrid hM
    obtain ⟨N, hN⟩ := C26_total solve (.seq ks) (.seq ws) ks ws rfl rfl (by
      intro x hx y hy
      obtain ⟨i, hi, rfl⟩ := List.mem_iff_getElem.1 hx
      obtain ⟨j, hj, rfl⟩ := List.mem_iff_getElem.1 hy
      obtain ⟨row, -, -, r3⟩ := hS.2 i hi
      obtain ⟨v, -, v2⟩ := r3 j hj
      exact ⟨v, v2⟩)
    obtain ⟨_, _, e1, e2, hN'⟩ := C26_entries solve _ _ N hN
    simp only [gridPoints, Option.some.injEq] at e1 e2
    subst e1 e2
    rw [hN, isGrid_unique hN' hS]

variable [FloorRing R]

theorem ordered_keys {k w : List R} (hk : Ordered (1 / 10 ^ 10) k) (hw : Ordered (1 / 10 ^ 10) w) (eta : R) :
    ((jobList k w).map (fun x => cacheKey (⟨x.1, x.2, eta⟩ : Point R))).Nodup := by
  have key : ∀ {l : List R}, Ordered (1 / 10 ^ 10) l → l.Pairwise (fun u v => ¬ |u - v| ≤ 1 / 10 ^ 10) := by
    intro l hl
    rcases hl with hl | hl
    · refine hl.imp fun {u v} huv hle => ?_
      have := (abs_le.1 hle).1
      linarith
    · refine hl.imp fun {u v} huv hle => ?_
      have := (abs_le.1 hle).2
      linarith
  rw [List.Nodup, List.pairwise_map, jobList, List.pairwise_flatMap]
  constructor
  · intro x _
    rw [List.pairwise_map]
    refine (key hw).imp fun {u v} huv he => huv (C31_key_near _ _ he).2.1
  · refine (key hk).imp fun {u v} huv => ?_
    intro p hp q hq he
    obtain ⟨y, -, rfl⟩ := List.mem_map.1 hp
    obtain ⟨z, -, rfl⟩ := List.mem_map.1 hq
    exact huv (C31_key_near _ _ he).1

/-- **C116**, all brigades together, with or without a results directory: if both axes rise or fall in steps of more
than `1e-10`, then also on the padded grid in every interleaving no rank fails, something can move until all have
finished, the work is bounded, and what rank 0 then puts together is a result whose slice `[:len(k), :len(w)]` has the
right value at every requested point. -/
theorem C116_brigades_partial {b : Brigades} (hw : 1 ≤ b.world) (hb : b.check = .ok ()) (ks ws k' w' : List R)
    (hg : massGrid b ks ws = .ok (k', w')) (hks : Ordered (1 / 10 ^ 10) ks) (hws : Ordered (1 / 10 ^ 10) ws) (eta : R)
    (solve : List (Point R) → Py V) (f : Point R → V) (isNaN : V → Bool) (hnan : ∀ p, isNaN (f p) = false)
    (hres : ∀ x ∈ k', ∀ y ∈ w', solve (List.replicate b.size ⟨x, y, eta⟩) = .ok (f ⟨x, y, eta⟩))
    (files : Option (Dict PyStr (Option V)))
    (hstored : ∀ x ∈ k', ∀ y ∈ w', ∀ v, (Crew.World.start files).look (⟨x, y, eta⟩ : Point R) = some v →
      v = some (f ⟨x, y, eta⟩))
    (c : Crew.World V) (hc : Steps (Plan.of b k' w' eta solve) (Crew.World.start files) c) :
    (∀ j < b.count, ∀ r < b.size, (c.ranks j r).failed = false) ∧
    (¬ Final (Plan.of b k' w' eta solve) c → ∃ d, Crew.Step (Plan.of b k' w' eta solve) c d) ∧
    (∀ d, Crew.Step (Plan.of b k' w' eta solve) c d →
      work (Plan.of b k' w' eta solve) d < work (Plan.of b k' w' eta solve) c) ∧
    (Final (Plan.of b k' w' eta solve) c → ∃ M,
      (do
        let picked ← pickCommanders b
          ((List.range b.world).map (fun rank => (c.ranks (rank / b.size) (rank % b.size)).done))
        reshapeGrid (picked.flatten.filter (fun v => !isNaN v)) k'.length w'.length) = .ok M ∧
      slice ks.length ws.length M = ks.map (fun x => ws.map (fun y => f ⟨x, y, eta⟩))) := by
  obtain ⟨p, q, hp, hq, -, -, -, hok, how⟩ := C116_outside_partial b ks ws k' w' hg (1 / 10 ^ 10) (by positivity) hks hws
  have hmem : ∀ x ∈ jobList k' w', x.1 ∈ k' ∧ x.2 ∈ w' := by
    intro x hx
    obtain ⟨u, hu, hx⟩ := List.mem_flatMap.1 hx
    obtain ⟨v, hv, rfl⟩ := List.mem_map.1 hx
    exact ⟨hu, hv⟩
  have S : Sound (Plan.of b k' w' eta solve) f files := C86_sound hw hb k' w' eta solve f files
    (fun x hx => hres _ (hmem x hx).1 _ (hmem x hx).2) (fun _ => ordered_keys hok how eta)
    (fun x hx => hstored _ (hmem x hx).1 _ (hmem x hx).2)
  obtain ⟨h1, -, h2, h3, -⟩ := C86_brigades_partial _ f files S c hc
  refine ⟨fun j hj r hr => (h1 j hj r hr).1, h2, h3, fun hfin => ?_⟩
  have hgath := C86_gathered_partial hw hb (.seq ks) (.seq ws) ks ws k' w' rfl rfl hg eta solve f files S c hc hfin isNaN
  have hsol : ∀ x y v, (.ok (f ⟨x, y, eta⟩) : Py V) = .ok v → isNaN v = false := by
    intro x y v h
    cases h
    exact hnan _
  have hmass : ∃ M, massGreens (fun x y => .ok (f ⟨x, y, eta⟩)) isNaN b (.seq ks) (.seq ws) = .ok M := by
    rw [C28_serial _ isNaN b ks ws hw hb hsol, hg]
    exact C26_total (fun x y => .ok (f ⟨x, y, eta⟩)) (.seq k') (.seq w') k' w' rfl rfl (fun x _ y _ => ⟨_, rfl⟩)
  obtain ⟨M, hM⟩ := hmass
  refine ⟨M, hgath ▸ hM, ?_⟩
  have hs := C116_slice _ isNaN b (.seq ks) (.seq ws) ks ws rfl rfl hw hsol M hM
  obtain ⟨_, _, e1, e2, hN⟩ := C26_entries _ _ _ _ hs
  simp only [gridPoints, Option.some.injEq] at e1 e2
  subst e1 e2
  refine isGrid_unique hN ⟨by simp, fun i hi => ⟨_, by rw [List.getElem?_map, List.getElem?_eq_getElem hi]; rfl, by simp, fun j hj =>
    ⟨_, by rw [List.getElem?_map, List.getElem?_eq_getElem hj]; rfl, rfl⟩⟩⟩

/-! ### an axis that neither rises nor falls, with a results directory -/

/-- two brigades of one rank -/
def duetWorld (files : Option (Dict PyStr (Option V))) (a b : Rank V) : Crew.World V :=
  ⟨files, fun j r => if j = 0 ∧ r = 0 then a else if j = 1 ∧ r = 0 then b else ⟨0, .idle, [], false⟩⟩

theorem duet_set0 (fs fs' : Option (Dict PyStr (Option V))) (a b q : Rank V) :
    Crew.World.setRank { duetWorld fs a b with files := fs' } 0 0 q = duetWorld fs' q b := by
  unfold Crew.World.setRank duetWorld
  congr 1
  funext j r
  by_cases h1 : j = 0 ∧ r = 0 <;> simp [h1]

theorem duet_set1 (fs fs' : Option (Dict PyStr (Option V))) (a b q : Rank V) :
    Crew.World.setRank { duetWorld fs a b with files := fs' } 1 0 q = duetWorld fs' a q := by
  unfold Crew.World.setRank duetWorld
  congr 1
  funext j r
  by_cases h1 : j = 1 ∧ r = 0
  · obtain ⟨rfl, rfl⟩ := h1; simp
  · simp [h1]

theorem duet_meet0 (P : Plan R V) (hn : P.brigades = 2) (hs : P.size = 1) {c : Crew.World V} {fs : Option (Dict PyStr (Option V))}
    {a b : Rank V} {p : Point R} {G : V} (h : Steps P c (duetWorld fs a b)) (hf : a.failed = false) (hp : a.phase = .joined)
    (ht : (P.jobs 0)[a.pos]? = some p) (hG : P.solve [p] = .ok G) :
    Steps P c (duetWorld fs { a with phase := .computed G } b) := by
  have := Steps.tail h (.meet _ 0 [p] G (by omega) ?_ (by simp [hs]) ?_ hG)
  · refine cast (congrArg _ ?_) this
    unfold Crew.World.setBrigade duetWorld
    congr 1
    funext j r
    by_cases hj : j = 0
    · subst hj
      match r with
      | 0 => simp [hs]
      | r + 1 => simp [hs]
    · simp [hj]
  · intro r hr
    obtain rfl : r = 0 := by omega
    exact ⟨hf, hp⟩
  · intro r hr
    obtain rfl : r = 0 := by omega
    exact ht

theorem duet_meet1 (P : Plan R V) (hn : P.brigades = 2) (hs : P.size = 1) {c : Crew.World V} {fs : Option (Dict PyStr (Option V))}
    {a b : Rank V} {p : Point R} {G : V} (h : Steps P c (duetWorld fs a b)) (hf : b.failed = false) (hp : b.phase = .joined)
    (ht : (P.jobs 1)[b.pos]? = some p) (hG : P.solve [p] = .ok G) :
    Steps P c (duetWorld fs a { b with phase := .computed G }) := by
  have := Steps.tail h (.meet _ 1 [p] G (by omega) ?_ (by simp [hs]) ?_ hG)
  · refine cast (congrArg _ ?_) this
    unfold Crew.World.setBrigade duetWorld
    congr 1
    funext j r
    by_cases hj : j = 1
    · subst hj
      match r with
      | 0 => simp [hs]
      | r + 1 => simp [hs]
    · by_cases hj0 : j = 0
      · subst hj0; simp
      · simp [hj, hj0]
  · intro r hr
    obtain rfl : r = 0 := by omega
    exact ⟨hf, hp⟩
  · intro r hr
    obtain rfl : r = 0 := by omega
    exact ht

/-- C116 is false for an axis that neither rises nor falls: the frequencies 1, 3, 2 on two brigades are padded with 1.
Brigade 1 comes to that point while the rank of brigade 0 has its result file open, and stops with `EOFError`, although
no point was requested twice. -/
theorem C116_race_fails (eta : ℚ) (solve : List (Point ℚ) → Py V) (f : Point ℚ → V) (hs : ∀ p, solve [p] = .ok (f p)) :
    ∃ c, Steps (Plan.of ⟨2, some 1⟩ [0] [1, 3, 2, 1] eta solve) (Crew.World.start (some [])) c ∧
      (c.ranks 1 0).failed = true := by
  generalize hP : Plan.of ⟨2, some 1⟩ [(0 : ℚ)] [1, 3, 2, 1] eta solve = P
  have hn : P.brigades = 2 := by rw [← hP]; rfl
  have hz : P.size = 1 := by rw [← hP]; rfl
  have hso : P.solve = solve := by rw [← hP]; rfl
  have hj0 : P.jobs 0 = [⟨0, 1, eta⟩, ⟨0, 3, eta⟩] := by
    rw [← hP]
    have : Brigades.jobs ⟨2, some 1⟩ (jobList [(0 : ℚ)] [1, 3, 2, 1]) 0 = .ok [(0, 1), (0, 3)] := by decide +kernel
    simp only [Plan.of, Nat.zero_mul, this, List.map_cons, List.map_nil]
  have hj1 : P.jobs 1 = [⟨0, 2, eta⟩, ⟨0, 1, eta⟩] := by
    rw [← hP]
    have : Brigades.jobs ⟨2, some 1⟩ (jobList [(0 : ℚ)] [1, 3, 2, 1]) (1 * Brigades.size ⟨2, some 1⟩) = .ok [(0, 2), (0, 1)] := by
      decide +kernel
    simp only [Plan.of, this, List.map_cons, List.map_nil]
  have s0 : Steps P (Crew.World.start (some [])) (duetWorld (V := V) (some []) ⟨0, .idle, [], false⟩ ⟨0, .idle, [], false⟩) := by
    refine cast (congrArg _ ?_) (Steps.refl (P := P) (Crew.World.start (some [])))
    unfold Crew.World.start duetWorld
    congr 1
    funext j r
    split_ifs <;> rfl
  -- both ranks find no file
  have s1 := Steps.tail s0 (.enter _ 0 0 ⟨0, 1, eta⟩ (by omega) (by omega) rfl rfl (by rw [hj0]; rfl) rfl)
  rw [show (duetWorld (V := V) (some []) _ _).setRank 0 0 _ = _ from duet_set0 (some []) (some []) _ _ _] at s1
  have s2 := Steps.tail s1 (.enter _ 1 0 ⟨0, 2, eta⟩ (by omega) (by omega) rfl rfl (by rw [hj1]; rfl) rfl)
  rw [show (duetWorld (V := V) (some []) _ _).setRank 1 0 _ = _ from duet_set1 (some []) (some []) _ _ _] at s2
  -- brigade 1 finishes its first point
  have s3 := duet_meet1 P hn hz s2 rfl rfl (by rw [hj1]; rfl) (by rw [hso]; exact hs _)
  have s4 := Steps.tail s3 (.open _ 1 0 ⟨0, 2, eta⟩ _ _ (by omega) (by omega) rfl rfl (by rw [hj1]; rfl) rfl)
  rw [duet_set1] at s4
  have s5 := Steps.tail s4 (.write _ 1 0 ⟨0, 2, eta⟩ _ _ (by omega) (by omega) rfl rfl (by rw [hj1]; rfl) rfl)
  rw [duet_set1] at s5
  -- brigade 0 has computed its first point and opens the file
  have s6 := duet_meet0 P hn hz s5 rfl rfl (by rw [hj0]; rfl) (by rw [hso]; exact hs _)
  have s7 := Steps.tail s6 (.open _ 0 0 ⟨0, 1, eta⟩ _ _ (by omega) (by omega) rfl rfl (by rw [hj0]; rfl) rfl)
  rw [duet_set0] at s7
  -- brigade 1 reads it
  refine ⟨_, Steps.tail s7 (.eof _ 1 0 ⟨0, 1, eta⟩ (by omega) (by omega) rfl rfl (by rw [hj1]; rfl) ?_), ?_⟩
  · simp [Crew.World.look, duetWorld, Dict.get?_set]
  · simp [Crew.World.setRank]

/-! ### the hypotheses are met -/

/-- a falling axis of three frequencies on two brigades of two ranks: one point is added below -/
example : massGrid ⟨4, some 2⟩ [0] [(1 : ℚ), 0, -2] = .ok ([0], [1, 0, -2, -4]) ∧ Ordered (1 / 10 ^ 10) [(1 : ℚ), 0, -2] ∧
    Ordered (1 / 10 ^ 10) [(0 : ℚ)] := by
  refine ⟨by decide +kernel, Or.inr ?_, Or.inl (by simp)⟩
  simp
  norm_num

/-- its padded result and the slice -/
example : massGreens (fun k w => .ok (10 * k + w)) (fun _ => false) ⟨4, some 2⟩ (.seq [1, 2, 3]) (.seq [(1 : ℚ), 0, -2]) =
      .ok [[11, 10, 8, 6], [21, 20, 18, 16], [31, 30, 28, 26]] ∧
    slice 3 3 [[(11 : ℚ), 10, 8, 6], [21, 20, 18, 16], [31, 30, 28, 26]] = [[11, 10, 8], [21, 20, 18], [31, 30, 28]] := by
  decide +kernel

/-- the premises of `C116_brigades_partial` for an empty results directory -/
example (c : Crew.World ℚ)
    (hc : Steps (Plan.of ⟨4, some 2⟩ [0] [(1 : ℚ), 0, -2, -4] (1 / 10) (fun ps => .ok ((ps.map (fun p => p.k + p.w)).sum / 2)))
      (Crew.World.start (some [])) c) : (c.ranks 1 1).failed = false := by
  refine (C116_brigades_partial (b := ⟨4, some 2⟩) (by decide) rfl [0] [(1 : ℚ), 0, -2] [0] [1, 0, -2, -4] (by decide +kernel)
    (Or.inl (by simp)) (Or.inr (by simp; norm_num)) (1 / 10) _ (fun p => p.k + p.w) (fun _ => false) (fun _ => rfl) ?_ (some []) ?_
    c hc).1 1 (by decide) 1 (by decide)
  · decide +kernel
  · intro x _ y _ v hv
    simp [Crew.World.look, Crew.World.start, Dict.get?] at hv

end GGCE.Props
