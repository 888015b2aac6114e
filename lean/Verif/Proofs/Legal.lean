import Verif.Spec.Legal
import Verif.Proofs.AddRemove

/-! `config_legal` and `validate` against the specification of legality. -/

namespace GGCE
open Spec

namespace Arr

theorem mem_whereNonzero (r : List Int) (i : Nat) : i ∈ whereNonzero r ↔ r.getD i 0 ≠ 0 := by
  simp only [whereNonzero, List.mem_filter, List.mem_range, decide_eq_true_eq]
  constructor
  · exact fun h => h.2
  · intro h
    refine ⟨?_, h⟩
    by_contra hc
    apply h
    rw [List.getD_eq_getElem?_getD, List.getElem?_eq_none (by omega)]; rfl

theorem extentOf1d_le (r : List Int) (m : Int) :
    extentOf1d r ≤ m ↔ 0 ≤ m ∧ ∀ x y : Nat, r.getD x 0 ≠ 0 → r.getD y 0 ≠ 0 →
      (y : Int) - x + 1 ≤ m := by
  simp only [← mem_whereNonzero]
  unfold extentOf1d
  cases hw : whereNonzero r with
  | nil => simp
  | cons i w =>
    cases w with
    | nil =>
      simp only [List.length_singleton, Nat.one_lt_ofNat, if_true, List.mem_singleton]
      constructor
      · intro h
        refine ⟨by simp at h; omega, ?_⟩
        rintro x y rfl rfl
        simp at h; omega
      · rintro ⟨-, h⟩
        have := h i i rfl rfl
        simp; omega
    | cons j w =>
      rw [← hw]
      have hlen : ¬ (whereNonzero r).length < 2 := by rw [hw]; simp
      rw [if_neg hlen]
      have hne : whereNonzero r ≠ [] := by rw [hw]; simp
      cases hmin : (whereNonzero r).min? with
      | none => rw [List.min?_eq_none_iff] at hmin; exact absurd hmin hne
      | some lo =>
      cases hmax : (whereNonzero r).max? with
      | none => rw [List.max?_eq_none_iff] at hmax; exact absurd hmax hne
      | some hi =>
      obtain ⟨l1, l2⟩ := List.min?_eq_some_iff.1 hmin
      obtain ⟨r1, r2⟩ := List.max?_eq_some_iff.1 hmax
      simp only [Option.getD_some]
      have := l2 _ r1
      constructor
      · intro h
        refine ⟨by omega, ?_⟩
        intro x y hx hy
        have := l2 _ hx
        have := r2 _ hy
        omega
      · rintro ⟨-, h⟩
        exact h lo hi l1 r1

theorem spanOk_iff (a : Arr) {t : Nat} (m : Int) :
    SpanOk a t m ↔ extentOf1d (a.rows.getD t []) ≤ m := by
  rw [extentOf1d_le]
  unfold SpanOk
  apply and_congr Iff.rfl
  constructor
  · intro h x y hx hy
    exact h x y (by rw [get_eq_chain]; exact hx) (by rw [get_eq_chain]; exact hy)
  · intro h x y hx hy
    rw [chain_eq] at hx hy
    split at hx
    · split at hy
      · have := h x.toNat y.toNat hx hy
        omega
      · exact absurd rfl hy
    · exact absurd rfl hx

theorem anyExceeds_ok (f : List Int → Int) : ∀ (lims : List Int) (rows : List (List Int)),
    rows.length ≤ lims.length → ∃ b, anyExceeds f lims rows = .ok b ∧
      (b = false ↔ ∀ t, t < rows.length → ∃ m, lims[t]? = some m ∧ f (rows.getD t []) ≤ m)
  | lims, [], _ => ⟨false, by cases lims <;> rfl, by simp⟩
  | [], r :: rs, h => by simp at h
  | l :: ls, r :: rs, h => by
    obtain ⟨b, h1, h2⟩ := anyExceeds_ok f ls rs (by simpa using h)
    refine ⟨decide (l < f r) || b, by simp [anyExceeds, h1, bind, Except.bind, pure, Except.pure], ?_⟩
    rw [Bool.or_eq_false_iff, decide_eq_false_iff_not, h2]
    constructor
    · rintro ⟨h3, h4⟩ t ht
      cases t with
      | zero => exact ⟨l, by simp, by simpa using h3⟩
      | succ t => simpa using h4 t (by simpa using ht)
    · intro h3
      constructor
      · obtain ⟨m, h5, h6⟩ := h3 0 (by simp)
        simp only [List.getElem?_cons_zero, Option.some.injEq] at h5
        simp only [List.getD_cons_zero] at h6
        omega
      · intro t ht
        simpa using h3 (t + 1) (by simpa using ht)

theorem edgesLegal_ok {a : Arr} (h : Proper a) (hp : 0 < a.len) :
    ∃ b, a.edgesLegal = .ok b ∧ (b = true ↔ Cloud a) := by
  refine ⟨_, by unfold edgesLegal; rw [if_neg (by omega)], ?_⟩
  have c0 := Proper.colSum_pos_iff h 0
  have c1 := Proper.colSum_pos_iff h (a.len - 1)
  have n0 := (colSum_nonneg_iff (a := a) (Proper.get_nonneg h) 0).1
  have n1 := (colSum_nonneg_iff (a := a) (Proper.get_nonneg h) (a.len - 1)).1
  simp only [Bool.not_eq_true', Bool.or_eq_false_iff, decide_eq_false_iff_not]
  constructor
  · rintro ⟨h1, h2⟩
    exact cloud_of_get h hp (c0.1 (by omega)) (c1.1 (by omega))
  · intro hc
    have := c0.2 (Cloud.left' hc)
    have := c1.2 (Cloud.right' hc)
    constructor <;> omega

theorem capOk_iff {a : Arr} (h : Cloud a) (c : Int) :
    CapOk c a ↔ ∀ r ∈ a.rows, ∀ v ∈ r, v ≤ c := by
  constructor
  · intro hc r hr v hv
    obtain ⟨t, ht, rfl⟩ := List.getElem_of_mem hr
    obtain ⟨x, hx, rfl⟩ := List.getElem_of_mem hv
    have := hc t (x : Int)
    rw [get_eq_chain, get_row _ _ _ ht] at this
    simpa [List.getD_eq_getElem?_getD, List.getElem?_eq_getElem hx] using this
  · intro hc
    have key : ∀ t x, a.get t x = 0 ∨ a.get t x ≤ c := by
      intro t x
      by_cases ht : t < a.nTypes
      · rw [get_row _ _ _ ht, List.getD_eq_getElem?_getD]
        by_cases hx : x < (a.rows[t]'ht).length
        · rw [List.getElem?_eq_getElem hx]
          exact Or.inr (hc _ (List.getElem_mem ht) _ (List.getElem_mem hx))
        · rw [List.getElem?_eq_none (by omega)]; simp
      · rw [get_type_oob (by omega)]; simp
    obtain ⟨t0, h0⟩ := Cloud.left' h
    have hc0 : 0 ≤ c := by
      have h1 := Proper.get_nonneg h.toProper t0 0
      rcases key t0 0 with h2 | h2
      · exact absurd h2 h0
      · omega
    intro t x
    rw [chain_eq]
    split
    · rcases key t x.toNat with h2 | h2 <;> omega
    · exact hc0

theorem configLegal_ok {a : Arr} (hwf : a.WF) (hp : 0 < a.len) (cap : Option Int)
    (extent number : Option (List Int)) (allowGreen : Bool)
    (hM : ∀ M, extent = some M → a.rows.length ≤ M.length)
    (hN : ∀ N, number = some N → a.rows.length ≤ N.length) :
    ∃ b, a.configLegal cap extent number allowGreen = .ok b ∧
      (b = true ↔ (allowGreen = true ∧ phonons a = 0) ∨ Legal cap extent number a) := by
  unfold configLegal
  by_cases hg : (allowGreen && decide (a.total = 0)) = true
  · rw [if_pos hg]
    refine ⟨true, rfl, ?_⟩
    simp only [Bool.and_eq_true, decide_eq_true_eq] at hg
    simp only [true_iff]
    exact Or.inl hg
  · rw [if_neg hg]
    have hg' : ¬ (allowGreen = true ∧ phonons a = 0) := by
      simp only [Bool.and_eq_true, decide_eq_true_eq] at hg; exact hg
    by_cases hv : a.valuesLegal = true
    · simp only [hv, Bool.not_true, Bool.false_eq_true, if_false]
      have hprop : Proper a := ⟨hwf, (valuesLegal_iff a).1 hv⟩
      obtain ⟨e, he1, he2⟩ := edgesLegal_ok hprop hp
      rw [he1]
      cases e with
      | false =>
        refine ⟨false, rfl, ?_⟩
        simp only [Bool.false_eq_true, false_iff, not_or]
        refine ⟨hg', fun hl => ?_⟩
        exact absurd (he2.2 hl.toCloud) (by simp)
      | true =>
        have hcl : Cloud a := he2.1 rfl
        simp only [bind, Except.bind, Bool.not_true, Bool.false_eq_true, if_false]
        -- cap
        have hcapb : ∃ cb : Bool, capExceeded cap a = cb ∧ (cb = false ↔ ∀ c, cap = some c → CapOk c a) := by
          refine ⟨_, rfl, ?_⟩
          cases cap with
          | none => simp [capExceeded]
          | some c =>
            simp only [capExceeded, Bool.not_eq_false', List.all_eq_true, decide_eq_true_eq, Option.some.injEq,
              forall_eq']
            exact (capOk_iff hcl c).symm
        obtain ⟨cb, hcb1, hcb2⟩ := hcapb
        rw [hcb1]
        cases cb with
        | true =>
          refine ⟨false, rfl, ?_⟩
          simp only [Bool.false_eq_true, false_iff, not_or]
          refine ⟨hg', fun hl => ?_⟩
          exact absurd (hcb2.2 hl.capOk) (by simp)
        | false =>
          simp only [Bool.false_eq_true, if_false]
          have hext : ∃ eb, extentExceeded extent a = .ok eb ∧ (eb = false ↔ ∀ M, extent = some M →
                ∀ t, t < a.rows.length → ∃ m, M[t]? = some m ∧ SpanOk a t m) := by
            cases extent with
            | none => exact ⟨false, rfl, by simp⟩
            | some M =>
              obtain ⟨b, hb1, hb2⟩ := anyExceeds_ok extentOf1d M a.rows (hM M rfl)
              refine ⟨b, hb1, ?_⟩
              simpa only [Option.some.injEq, forall_eq', spanOk_iff] using hb2
          obtain ⟨eb, heb1, heb2⟩ := hext
          rw [heb1]
          cases eb with
          | true =>
            refine ⟨false, rfl, ?_⟩
            simp only [Bool.false_eq_true, false_iff, not_or]
            refine ⟨hg', fun hl => ?_⟩
            exact absurd (heb2.2 hl.extentOk) (by simp)
          | false =>
            simp only [Bool.false_eq_true, if_false]
            have hnum : ∃ nb, numberExceeded number a = .ok nb ∧ (nb = false ↔ ∀ N, number = some N →
                  ∀ t, t < a.rows.length → ∃ n, N[t]? = some n ∧ typeTotal a t ≤ n) := by
              cases number with
              | none => exact ⟨false, rfl, by simp⟩
              | some N =>
                obtain ⟨b, hb1, hb2⟩ := anyExceeds_ok List.sum N a.rows (hN N rfl)
                refine ⟨b, hb1, ?_⟩
                simpa only [Option.some.injEq, forall_eq', typeTotal] using hb2
            obtain ⟨nb, hnb1, hnb2⟩ := hnum
            rw [hnb1]
            cases nb with
            | true =>
              refine ⟨false, rfl, ?_⟩
              simp only [Bool.false_eq_true, false_iff, not_or]
              refine ⟨hg', fun hl => ?_⟩
              exact absurd (hnb2.2 hl.numberOk) (by simp)
            | false =>
              refine ⟨true, rfl, ?_⟩
              simp only [true_iff]
              exact Or.inr ⟨hcl, hcb2.1 rfl, heb2.1 rfl, hnb2.1 rfl⟩
    · simp only [hv, Bool.not_false, if_true]
      refine ⟨false, rfl, ?_⟩
      simp only [Bool.false_eq_true, false_iff, not_or]
      refine ⟨hg', fun hl => hv ((valuesLegal_iff a).2 hl.nonneg)⟩

/-- `validate` accepts exactly the vacuum-like arrays and the clouds -/
theorem validate_ok_iff {a : Arr} (hwf : a.WF) (hp : 0 < a.len) :
    a.validate = .ok () ↔ (Proper a ∧ phonons a = 0) ∨ Cloud a := by
  unfold validate
  by_cases hv : a.valuesLegal = true
  · have hprop : Proper a := ⟨hwf, (valuesLegal_iff a).1 hv⟩
    simp only [hv, Bool.not_true, Bool.false_eq_true, if_false]
    by_cases ht : a.total = 0
    · simp only [ht, if_true, true_iff]
      exact Or.inl ⟨hprop, ht⟩
    · obtain ⟨e, he1, he2⟩ := edgesLegal_ok hprop hp
      rw [if_neg ht, he1]
      cases e with
      | true =>
        simp only [bind, Except.bind, if_true, pure, Except.pure, true_iff]
        exact Or.inr (he2.1 rfl)
      | false =>
        simp only [bind, Except.bind, Bool.false_eq_true, if_false, reduceCtorEq, false_iff, not_or,
          not_and]
        exact ⟨fun _ h => ht h, fun h => absurd (he2.2 h) (by simp)⟩
  · simp only [hv, Bool.not_false, if_true, reduceCtorEq, false_iff, not_or, not_and]
    have hn : ¬ Proper a := fun h => hv ((valuesLegal_iff a).2 h.nonneg)
    exact ⟨fun h => absurd h hn, fun h => hn h.toProper⟩

theorem validate_cloud {a : Arr} (h : Cloud a) : a.validate = .ok () :=
  (validate_ok_iff h.wf h.pos).2 (Or.inr h)

end Arr
end GGCE
