import Verif.Spec.RhsND
import Verif.Proofs.ConfigNDMore
import Verif.Proofs.Rhs

/-! `config_legal` in `d` dimensions against the specification of legality. -/

namespace GGCE
open Spec NArr
variable {d : Nat}

theorem mem_indices : ∀ {d : Nat} {s : Fin d → Nat} {i : Fin d → Nat},
    i ∈ indices s ↔ ∀ j, i j < s j
  | 0, s, i => by
    simp only [indices, List.mem_singleton, IsEmpty.forall_iff, iff_true]
    funext j; exact j.elim0
  | d + 1, s, i => by
    simp only [indices, List.mem_flatMap, List.mem_range, List.mem_map]
    constructor
    · rintro ⟨p, hp, i', hi', rfl⟩ j
      refine Fin.cases ?_ (fun j => ?_) j
      · simpa using hp
      · simpa using mem_indices.1 hi' j
    · intro h
      refine ⟨i 0, h 0, fun j => i j.succ, mem_indices.2 (fun j => h j.succ), ?_⟩
      funext j
      refine Fin.cases rfl (fun j => rfl) j

theorem nodup_indices : ∀ {d : Nat} (s : Fin d → Nat), (indices s).Nodup
  | 0, s => by simp [indices]
  | d + 1, s => by
    rw [indices, List.nodup_flatMap]
    refine ⟨fun p _ => ?_, ?_⟩
    · refine List.Nodup.map ?_ (nodup_indices _)
      intro i i' h
      exact (Fin.cons_injective2 h).2
    · refine List.Pairwise.imp ?_ List.nodup_range
      intro p q hpq
      simp only [Function.onFun, List.disjoint_left, List.mem_map]
      rintro x ⟨i, -, rfl⟩ ⟨i', -, h⟩
      exact hpq (Fin.cons_injective2 h).1.symm

theorem spread_le (w : List Nat) (m : Int) :
    (if w.length < 2 then (w.length : Int)
      else ((w.max?.getD 0 : Nat) : Int) - ((w.min?.getD 0 : Nat) : Int) + 1) ≤ m ↔
    0 ≤ m ∧ ∀ x ∈ w, ∀ y ∈ w, (y : Int) - x + 1 ≤ m := by
  match w with
  | [] => simp
  | [i] =>
    simp only [List.length_singleton, Nat.one_lt_ofNat, if_true, List.mem_singleton, forall_eq]
    push_cast
    omega
  | i :: j :: l =>
    rw [if_neg (by simp)]
    cases hmin : (i :: j :: l).min? with
    | none => simp at hmin
    | some lo =>
    cases hmax : (i :: j :: l).max? with
    | none => simp at hmax
    | some hi =>
    obtain ⟨l1, l2⟩ := List.min?_eq_some_iff.1 hmin
    obtain ⟨r1, r2⟩ := List.max?_eq_some_iff.1 hmax
    simp only [Option.getD_some]
    have := l2 _ r1
    constructor
    · intro h
      refine ⟨by omega, ?_⟩
      intro x hx y hy
      have := l2 _ hx
      have := r2 _ hy
      omega
    · rintro ⟨-, h⟩
      exact h lo l1 hi r1

theorem spanOkND_iff (hd : 0 < d) (a : NArr d) {t : Nat} (ht : t < a.types) (m : Int) :
    SpanOkND a ⟨0, hd⟩ t m ↔ a.extentOf t ≤ m := by
  unfold NArr.extentOf
  simp only
  rw [spread_le]
  unfold SpanOkND
  apply and_congr Iff.rfl
  have hmem : ∀ p, p ∈ a.whereNonzero0 t ↔ ∃ x, lattice a t x ≠ 0 ∧ x ⟨0, hd⟩ = (p : Int) := by
    intro p
    simp only [whereNonzero0, List.mem_map, List.mem_filter, decide_eq_true_eq, mem_indices]
    constructor
    · rintro ⟨i, ⟨hi, hv⟩, rfl⟩
      refine ⟨fun j => (i j : Int), ?_, by simp [axis0, hd]⟩
      rw [lattice_nat a ht (mem_sites.2 hi)]; exact hv
    · rintro ⟨x, hx, e⟩
      obtain ⟨i, hi, -, rfl, ev⟩ := lattice_site hx
      refine ⟨i, ⟨mem_sites.1 hi, by rw [← ev]; exact hx⟩, ?_⟩
      simp only [axis0, hd, dif_pos]
      simpa using e
  constructor
  · intro h p hp q hq
    obtain ⟨x, hx, ex⟩ := (hmem p).1 hp
    obtain ⟨y, hy, ey⟩ := (hmem q).1 hq
    rw [← ex, ← ey]; exact h x y hx hy
  · intro h x y hx hy
    have hx0 := (lattice_ne hx).2 ⟨0, hd⟩
    have hy0 := (lattice_ne hy).2 ⟨0, hd⟩
    have := h (x ⟨0, hd⟩).toNat ((hmem _).2 ⟨x, hx, by omega⟩) (y ⟨0, hd⟩).toNat
      ((hmem _).2 ⟨y, hy, by omega⟩)
    omega

theorem nAnyExceeds_ok (f : Nat → Int) (lims : List Int) : ∀ ts : List Nat,
    (∀ t ∈ ts, t < lims.length) → ∃ b, NArr.anyExceeds f lims ts = .ok b ∧
      (b = false ↔ ∀ t ∈ ts, ∃ m, lims[t]? = some m ∧ f t ≤ m)
  | [], _ => ⟨false, rfl, by simp⟩
  | t :: ts, h => by
    obtain ⟨b, h1, h2⟩ := nAnyExceeds_ok f lims ts (fun t ht => h t (List.mem_cons_of_mem _ ht))
    have ht := h t List.mem_cons_self
    refine ⟨decide (lims[t] < f t) || b, ?_, ?_⟩
    · simp [NArr.anyExceeds, List.getElem?_eq_getElem ht, h1, bind, Except.bind, pure, Except.pure]
    · rw [Bool.or_eq_false_iff, decide_eq_false_iff_not, h2]
      simp [List.getElem?_eq_getElem ht]

theorem typeTotalND_eq (a : NArr d) {t : Nat} (ht : t < a.types) :
    typeTotalND a t = ∑ i ∈ sites a.shape, a.val t i :=
  Finset.sum_congr rfl (fun _ hi => lattice_nat a ht hi)

theorem cloudND_site {a : NArr d} (hd : 0 < d) (h : CloudND a) :
    ∃ t x, lattice a t x ≠ 0 := by
  obtain ⟨t, x, hx, -⟩ := h.first ⟨0, hd⟩
  exact ⟨t, x, hx⟩

theorem cloudND_pos {a : NArr d} (h : CloudND a) (j : Fin d) : 0 < a.shape j := by
  obtain ⟨t, x, hx, -⟩ := h.first j
  have := (lattice_ne hx).2 j
  omega

theorem capOkND_iff {a : NArr d} (hd : 0 < d) (h : CloudND a) (c : Int) :
    CapOkND c a ↔ ∀ t ∈ Finset.range a.types, ∀ i ∈ sites a.shape, a.val t i ≤ c := by
  constructor
  · intro hc t ht i hi
    rw [← lattice_nat a (Finset.mem_range.1 ht) hi]; exact hc _ _
  · intro hc
    have key : ∀ t x, lattice a t x ≠ 0 → lattice a t x ≤ c := by
      intro t x hx
      obtain ⟨i, hi, ht, -, e⟩ := lattice_site hx
      rw [e]; exact hc t (Finset.mem_range.2 ht) i hi
    intro t x
    by_cases hx : lattice a t x = 0
    · obtain ⟨t0, x0, h0⟩ := cloudND_site hd h
      have := h.nonneg t0 x0
      have := key _ _ h0
      omega
    · exact key _ _ hx

theorem forall_firstAxis (hd : 0 < d) (P : Fin d → Prop) :
    (∀ j, firstAxis j → P j) ↔ P ⟨0, hd⟩ := by
  constructor
  · exact fun h => h _ rfl
  · intro h j hj
    have : j = ⟨0, hd⟩ := Fin.ext hj
    rw [this]; exact h

theorem nConfigLegal_ok (hd : 0 < d) {a : NArr d} (hs : ∀ j, 0 < a.shape j) (cap : Option Int)
    (extent number : Option (List Int)) (allowGreen : Bool)
    (hM : ∀ M, extent = some M → a.types ≤ M.length)
    (hN : ∀ N, number = some N → a.types ≤ N.length) :
    ∃ b, a.configLegal cap extent number allowGreen = .ok b ∧
      (b = true ↔ (allowGreen = true ∧ a.total = 0) ∨
        LegalND firstAxis cap extent number a) := by
  unfold NArr.configLegal
  by_cases hg : (allowGreen && decide (a.total = 0)) = true
  · rw [if_pos hg]
    refine ⟨true, rfl, ?_⟩
    simp only [Bool.and_eq_true, decide_eq_true_eq] at hg
    simp only [true_iff]
    exact Or.inl hg
  · rw [if_neg hg]
    have hg' : ¬ (allowGreen = true ∧ a.total = 0) := by
      simp only [Bool.and_eq_true, decide_eq_true_eq] at hg; exact hg
    rw [if_neg (by omega : ¬ d + 1 < 2)]
    by_cases hv : a.valuesLegal = true
    · simp only [hv, Bool.not_true, Bool.false_eq_true, if_false]
      have hn := (nValuesLegal_iff a).1 hv
      obtain ⟨e, he1, he2⟩ := edgesLoop_spec hn hs (List.finRange d)
      have he2' : e = true ↔ CloudND a := by
        rw [he2, cloudND_iff]; simp [hn]
      rw [show a.edgesLegal = .ok e from he1]
      cases e with
      | false =>
        refine ⟨false, rfl, ?_⟩
        simp only [Bool.false_eq_true, false_iff, not_or]
        refine ⟨hg', fun hl => ?_⟩
        exact absurd (he2'.2 hl.toCloudND) (by simp)
      | true =>
        have hcl : CloudND a := he2'.1 rfl
        simp only [bind, Except.bind, Bool.not_true, Bool.false_eq_true, if_false]
        obtain ⟨cb, hcb1, hcb2⟩ : ∃ cb : Bool, NArr.capExceeded cap a = cb ∧
            (cb = false ↔ ∀ c, cap = some c → CapOkND c a) := by
          refine ⟨_, rfl, ?_⟩
          cases cap with
          | none => simp [NArr.capExceeded]
          | some c =>
            simp only [NArr.capExceeded, Bool.not_eq_false', decide_eq_true_eq,
              Option.some.injEq, forall_eq']
            exact (capOkND_iff hd hcl c).symm
        rw [hcb1]
        cases cb with
        | true =>
          refine ⟨false, rfl, ?_⟩
          simp only [Bool.false_eq_true, false_iff, not_or]
          refine ⟨hg', fun hl => ?_⟩
          exact absurd (hcb2.2 hl.capOk) (by simp)
        | false =>
          simp only [Bool.false_eq_true, if_false]
          obtain ⟨eb, heb1, heb2⟩ : ∃ eb, NArr.extentExceeded extent a = .ok eb ∧
              (eb = false ↔ ∀ M, extent = some M → ∀ t, t < a.types →
                ∃ m, M[t]? = some m ∧ ∀ j, firstAxis j → SpanOkND a j t m) := by
            cases extent with
            | none => exact ⟨false, rfl, by simp⟩
            | some M =>
              obtain ⟨b, hb1, hb2⟩ := nAnyExceeds_ok a.extentOf M (List.range a.types)
                (fun t ht => lt_of_lt_of_le (List.mem_range.1 ht) (hM M rfl))
              refine ⟨b, hb1, hb2.trans ?_⟩
              simp only [Option.some.injEq, forall_eq', List.mem_range]
              refine forall_congr' fun t => forall_congr' fun ht => exists_congr fun m => ?_
              rw [forall_firstAxis hd, spanOkND_iff hd a ht]
          rw [heb1]
          cases eb with
          | true =>
            refine ⟨false, rfl, ?_⟩
            simp only [Bool.false_eq_true, false_iff, not_or]
            refine ⟨hg', fun hl => ?_⟩
            exact absurd (heb2.2 hl.extentOk) (by simp)
          | false =>
            simp only [Bool.false_eq_true, if_false]
            obtain ⟨nb, hnb1, hnb2⟩ : ∃ nb, NArr.numberExceeded number a = .ok nb ∧
                (nb = false ↔ ∀ N, number = some N → ∀ t, t < a.types →
                  ∃ n, N[t]? = some n ∧ typeTotalND a t ≤ n) := by
              cases number with
              | none => exact ⟨false, rfl, by simp⟩
              | some N =>
                obtain ⟨b, hb1, hb2⟩ := nAnyExceeds_ok
                  (fun t => ∑ i ∈ sites a.shape, a.val t i) N (List.range a.types)
                  (fun t ht => lt_of_lt_of_le (List.mem_range.1 ht) (hN N rfl))
                refine ⟨b, hb1, hb2.trans ?_⟩
                simp only [Option.some.injEq, forall_eq', List.mem_range]
                refine forall_congr' fun t => forall_congr' fun ht => exists_congr fun m => ?_
                rw [typeTotalND_eq a ht]
            rw [hnb1]
            cases nb with
            | true =>
              refine ⟨false, rfl, ?_⟩
              simp only [Bool.false_eq_true, false_iff, not_or]
              refine ⟨hg', fun hl => ?_⟩
              exact absurd (hnb2.2 hl.numberOk) (by simp)
            | false =>
              refine ⟨true, rfl, ?_⟩
              simp only [true_iff]
              exact Or.inr ⟨hcl, hcb2.1 rfl, heb2.1 rfl, hnb2.1 rfl⟩
    · have hv' : a.valuesLegal = false := by simpa using hv
      simp only [hv', Bool.not_false, if_true]
      refine ⟨false, rfl, ?_⟩
      simp only [Bool.false_eq_true, false_iff, not_or]
      exact ⟨hg', fun hl => hv ((nValuesLegal_iff a).2 hl.nonneg)⟩

end GGCE
