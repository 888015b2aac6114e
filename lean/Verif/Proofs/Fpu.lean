import Verif.Spec.Fpu
import Verif.Proofs.Rounding
import Verif.Proofs.Ready
import Verif.Proofs.VecNorm
import Mathlib.Data.List.Forall2

/-! The assembly in floating-point arithmetic follows the one in exact arithmetic: same positions, close values. -/

namespace GGCE
open Spec

/-! ### exact operations -/

section
variable {R K : Type} [Field R] [LinearOrder R] [Field K]

theorem rowLoopF_exact (basis : Dict PyStr ℕ) : ∀ (l : List (PyStr × Py K)) (d : Dict ℕ K),
    rowLoopF ⟨(· * ·), (· + ·)⟩ basis l d = rowLoop basis l d
  | [], _ => rfl
  | (id, c) :: l, d => by
    unfold rowLoopF rowLoop
    cases basis.get? id with
    | none => rfl
    | some j =>
      cases c with
      | error e => rfl
      | ok v => exact rowLoopF_exact basis l _

theorem sparseRowF_exact (F : Phys R K) (m : Model R) (p : Point R) (basis : Dict PyStr ℕ) (e : Equation R) :
    sparseRowF ⟨(· * ·), (· + ·)⟩ F m p basis e = sparseRow F m p basis e := by
  have h : rowTermsF ⟨(· * ·), (· + ·)⟩ F m p e = rowTerms F m p e := rfl
  unfold sparseRowF sparseRow
  rw [h]
  cases basis.get? e.id with
  | none => rfl
  | some i => simp only [rowLoopF_exact]

theorem sparseTriplesF_exact (F : Phys R K) (m : Model R) (p : Point R) (basis : Dict PyStr ℕ)
    (eqs : Dict ℕ (List (Equation R))) :
    sparseTriplesF ⟨(· * ·), (· + ·)⟩ F m p basis eqs = sparseTriples F m p basis eqs := by
  unfold sparseTriplesF sparseTriples
  simp only [sparseRowF_exact]
  congr 2

end

/-! ### sums -/

theorem sumError_mono {u c γ : ℝ} (hu : 0 ≤ u) (hc : 0 ≤ c) (hγ : 0 ≤ γ) {s s' : ℕ} (h : s ≤ s') :
    sumError u c γ s ≤ sumError u c γ s' := by
  unfold sumError
  have h1 : (s : ℝ) ≤ s' := by exact_mod_cast h
  have h2 : (s : ℝ) * c ≤ s' * c := mul_le_mul_of_nonneg_right h1 hc
  have h3 := mul_le_mul_of_nonneg_left h2 hu
  refine mul_le_mul (mul_le_mul h1 (by linarith) (by positivity) (by positivity)) ?_ (by positivity) (by positivity)
  exact pow_le_pow_right₀ (by linarith) h

theorem sumError_nonneg {u c γ : ℝ} (hu : 0 ≤ u) (hc : 0 ≤ c) (hγ : 0 ≤ γ) (s : ℕ) : 0 ≤ sumError u c γ s := by
  unfold sumError
  positivity

theorem sumError_step {u c γ : ℝ} (hu : 0 ≤ u) (hc : 0 ≤ c) (hγ : 0 ≤ γ) (s : ℕ) :
    sumError u c γ s + γ + u * ((s + 1) * c + sumError u c γ s + γ) ≤ sumError u c γ (s + 1) := by
  unfold sumError
  push_cast
  have h1 : (1 : ℝ) ≤ (1 + u) ^ s := one_le_pow₀ (by linarith)
  have h2 : (1 : ℝ) ≤ (1 + u) ^ (s + 1) := one_le_pow₀ (by linarith)
  rw [pow_succ] at *
  generalize (1 + u) ^ s = q at *
  have e1 : 0 ≤ (q - 1) * γ := mul_nonneg (by linarith) hγ
  have e2 : 0 ≤ (q * (1 + u) - 1) * (u * ((s + 1) * c)) := mul_nonneg (by linarith) (by positivity)
  have e3 : 0 ≤ s * (u * c) * (q * (1 + u)) := by positivity
  have e4 : 0 ≤ (q - 1) * γ * u := mul_nonneg e1 hu
  nlinarith

/-- one addition -/
theorem add_close {u : ℝ} {M : Fpu ℂ} (hM : FpuTo u M) (hu : 0 ≤ u) {a a' v v' : ℂ} {E γ A : ℝ} (h1 : ‖a' - a‖ ≤ E)
    (h2 : ‖v' - v‖ ≤ γ) (h3 : ‖a + v‖ ≤ A) : ‖M.add a' v' - (a + v)‖ ≤ E + γ + u * (A + E + γ) := by
  have e1 := hM.add a' v'
  have e2 : ‖(a' + v') - (a + v)‖ ≤ E + γ := by
    rw [add_sub_add_comm]
    exact (norm_add_le _ _).trans (add_le_add h1 h2)
  have e3 : ‖a' + v'‖ ≤ A + E + γ := by
    have := norm_le_norm_add_norm_sub' (a' + v') (a + v)
    linarith
  have e4 := norm_add_le (M.add a' v' - (a' + v')) ((a' + v') - (a + v))
  rw [sub_add_sub_cancel] at e4
  have := mul_le_mul_of_nonneg_left e3 hu
  linarith

/-- two products -/
theorem mul_close {u : ℝ} {M : Fpu ℂ} (hM : FpuTo u M) (hu : 0 ≤ u) (a b c : ℂ) :
    ‖M.mul (M.mul a b) c - a * b * c‖ ≤ (2 * u + u ^ 2) * ‖a * b * c‖ := by
  have e1 := hM.mul a b
  have e2 := hM.mul (M.mul a b) c
  have e3 : ‖M.mul a b * c - a * b * c‖ ≤ u * ‖a * b * c‖ := by
    rw [← sub_mul, norm_mul, norm_mul (a * b), ← mul_assoc]
    exact mul_le_mul_of_nonneg_right e1 (norm_nonneg _)
  have e4 : ‖M.mul a b * c‖ ≤ (1 + u) * ‖a * b * c‖ := by
    have := norm_le_norm_add_norm_sub' (M.mul a b * c) (a * b * c)
    linarith
  have e5 := norm_add_le (M.mul (M.mul a b) c - M.mul a b * c) (M.mul a b * c - a * b * c)
  rw [sub_add_sub_cancel] at e5
  have e6 := mul_le_mul_of_nonneg_left e4 hu
  nlinarith

/-! ### rows -/

/-- a value and its approximation under the same key -/
def Mate (A E : ℝ) (x y : ℕ × ℂ) : Prop := x.1 = y.1 ∧ ‖x.2‖ ≤ A ∧ ‖y.2 - x.2‖ ≤ E

theorem mate_get {A E : ℝ} {d d' : Dict ℕ ℂ} (h : List.Forall₂ (Mate A E) d d') (j : ℕ) :
    (d.get? j = none ∧ d'.get? j = none) ∨
      ∃ a a', d.get? j = some a ∧ d'.get? j = some a' ∧ ‖a‖ ≤ A ∧ ‖a' - a‖ ≤ E := by
  induction h with
  | nil => left; exact ⟨rfl, rfl⟩
  | @cons x y d d' hxy _ ih =>
    obtain ⟨k, a⟩ := x
    obtain ⟨k', a'⟩ := y
    obtain ⟨h1, h2, h3⟩ := hxy
    simp only at h1 h2 h3
    subst h1
    by_cases hk : k = j
    · right
      exact ⟨a, a', by simp [Dict.get?, hk], by simp [Dict.get?, hk], h2, h3⟩
    · simpa [Dict.get?, hk] using ih

theorem mate_set {A E : ℝ} {d d' : Dict ℕ ℂ} (h : List.Forall₂ (Mate A E) d d') (j : ℕ) {a a' : ℂ} (ha : ‖a‖ ≤ A)
    (haa : ‖a' - a‖ ≤ E) : List.Forall₂ (Mate A E) (d.set j a) (d'.set j a') := by
  induction h with
  | nil => exact List.Forall₂.cons ⟨rfl, ha, haa⟩ List.Forall₂.nil
  | @cons x y d d' hxy hd ih =>
    obtain ⟨k, b⟩ := x
    obtain ⟨k', b'⟩ := y
    have h1 : k = k' := hxy.1
    subst h1
    simp only [Dict.set]
    split
    · exact List.Forall₂.cons ⟨rfl, ha, haa⟩ hd
    · exact List.Forall₂.cons hxy ih

theorem Mate.mono {A E A' E' : ℝ} (h1 : A ≤ A') (h2 : E ≤ E') {x y : ℕ × ℂ} (h : Mate A E x y) : Mate A' E' x y :=
  ⟨h.1, h.2.1.trans h1, h.2.2.trans h2⟩

/-- what is to be added to a row, and its approximation -/
def MateTerm (c γ : ℝ) (x y : PyStr × Py ℂ) : Prop :=
  x.1 = y.1 ∧ ∃ v v', x.2 = .ok v ∧ y.2 = .ok v' ∧ ‖v‖ ≤ c ∧ ‖v' - v‖ ≤ γ

theorem rowLoop_close {u c γ : ℝ} {M : Fpu ℂ} (hM : FpuTo u M) (hu : 0 ≤ u) (hc : 0 ≤ c) (hγ : 0 ≤ γ)
    (basis : Dict PyStr ℕ) {l l' : List (PyStr × Py ℂ)} (h : List.Forall₂ (MateTerm c γ) l l') :
    ∀ (s : ℕ) (d d' r : Dict ℕ ℂ), List.Forall₂ (Mate (s * c) (sumError u c γ s)) d d' → rowLoop basis l d = .ok r →
      ∃ r', rowLoopF M basis l' d' = .ok r' ∧
        List.Forall₂ (Mate ((s + l.length : ℕ) * c) (sumError u c γ (s + l.length))) r r' := by
  induction h with
  | nil =>
    intro s d d' r hd hr
    cases hr
    exact ⟨d', rfl, by simpa using hd⟩
  | @cons x y l l' hxy _ ih =>
    intro s d d' r hd hr
    obtain ⟨id, q⟩ := x
    obtain ⟨id', q'⟩ := y
    obtain ⟨h1, v, v', h2, h3, h4, h5⟩ := hxy
    simp only at h1 h2 h3
    subst h1 h2 h3
    unfold rowLoop at hr
    unfold rowLoopF
    cases hb : basis.get? id with
    | none => rw [hb] at hr; cases hr
    | some j =>
      rw [hb] at hr
      simp only [bind, Except.bind] at hr ⊢
      have hstep := sumError_step hu hc hγ s
      have hE := sumError_nonneg hu hc hγ s
      have hmono := sumError_mono hu hc hγ (Nat.le_succ s)
      have hA : (s : ℝ) * c ≤ ((s + 1 : ℕ) : ℝ) * c := mul_le_mul_of_nonneg_right (by push_cast; linarith) hc
      have hd2 : List.Forall₂ (Mate ((s + 1 : ℕ) * c) (sumError u c γ (s + 1))) (addTo d j v) (addToF M d' j v') := by
        have hd1 : List.Forall₂ (Mate ((s + 1 : ℕ) * c) (sumError u c γ (s + 1))) d d' :=
          hd.imp (fun _ _ hz => hz.mono hA hmono)
        unfold addTo addToF
        have hsc : (0 : ℝ) ≤ s * c := by positivity
        rcases mate_get hd j with ⟨e1, e2⟩ | ⟨a, a', e1, e2, e3, e4⟩
        · rw [e1, e2]
          refine mate_set hd1 j ?_ ?_
          · push_cast; linarith
          · have : 0 ≤ u * ((s + 1) * c + sumError u c γ s + γ) := by positivity
            linarith
        · rw [e1, e2]
          have hav : ‖a + v‖ ≤ (s + 1) * c := by
            have := norm_add_le a v
            linarith
          refine mate_set hd1 j (by push_cast; exact hav) ?_
          exact (add_close hM hu e4 h5 hav).trans hstep
      obtain ⟨r', k1, k2⟩ := ih (s + 1) _ _ r hd2 hr
      refine ⟨r', k1, ?_⟩
      rw [List.length_cons, show s + (l.length + 1) = s + 1 + l.length by omega]
      exact k2

/-- entries of the matrix at the same position -/
def MateEntry (E : ℝ) (x y : ℕ × ℕ × ℂ) : Prop := x.1 = y.1 ∧ x.2.1 = y.2.1 ∧ ‖y.2.2 - x.2.2‖ ≤ E

theorem collectM_mate {α β β' : Type} {P : List β → List β' → Prop} {f : α → Py (Option (List β))}
    {f' : α → Py (Option (List β'))} : ∀ (xs : List α) (ys : List (List β)),
    (∀ x ∈ xs, ∀ o, f x = .ok o → ∃ y y', o = some y ∧ f' x = .ok (some y') ∧ P y y') → collectM f xs = .ok ys →
    ∃ ys', collectM f' xs = .ok ys' ∧ List.Forall₂ P ys ys'
  | [], ys, _, h => by cases h; exact ⟨[], rfl, List.Forall₂.nil⟩
  | x :: xs, ys, hg, h => by
    unfold collectM at h
    cases hx : f x with
    | error e => rw [hx] at h; cases h
    | ok o =>
      rw [hx] at h
      obtain ⟨y, y', rfl, e1, e2⟩ := hg x List.mem_cons_self o hx
      cases hr : collectM f xs with
      | error e => simp only [bind, Except.bind, hr] at h; cases h
      | ok zs =>
        obtain ⟨zs', k1, k2⟩ := collectM_mate xs zs (fun x hx => hg x (List.mem_cons_of_mem _ hx)) hr
        simp only [bind, Except.bind, hr] at h
        cases h
        refine ⟨y' :: zs', ?_, List.Forall₂.cons e2 k2⟩
        unfold collectM
        rw [e1, k1]
        rfl

theorem mate_flatten {α β : Type} {P : α → β → Prop} {ls : List (List α)} {ls' : List (List β)}
    (h : List.Forall₂ (List.Forall₂ P) ls ls') : List.Forall₂ P ls.flatten ls'.flatten := by
  induction h with
  | nil => exact List.Forall₂.nil
  | cons h1 _ ih =>
    rw [List.flatten_cons, List.flatten_cons]
    exact List.rel_append h1 ih

/-- the assembled coordinate lists -/
theorem sparseTriples_close {u c γ : ℝ} {M : Fpu ℂ} (hM : FpuTo u M) (hu : 0 ≤ u) (hc : 1 ≤ c) (hγ : 0 ≤ γ) (q : ℕ)
    {F F' : Phys ℝ ℂ} {m : Model ℝ} {p : Point ℝ} {basis : Dict PyStr ℕ} {eqs : Dict ℕ (List (Equation ℝ))}
    (hq : ∀ n es, eqs.get? n = some es → ∀ e ∈ es, e.terms.length + 1 ≤ q ∧ ∀ t ∈ e.terms,
      ∃ v v', t.coefficient F m p = .ok v ∧ t.coefficientF M F' m p = .ok v' ∧ ‖v‖ ≤ c ∧ ‖v' - v‖ ≤ γ)
    {T : List (ℕ × ℕ × ℂ)} (h : sparseTriples F m p basis eqs = .ok T) :
    ∃ T', sparseTriplesF M F' m p basis eqs = .ok T' ∧ List.Forall₂ (MateEntry (sumError u c γ q)) T T' := by
  have hc0 : 0 ≤ c := by linarith
  unfold sparseTriples at h
  revert h
  generalize hcol : collectM _ _ = r
  intro h
  cases r with
  | error e => cases h
  | ok ys =>
    cases h
    unfold sparseTriplesF
    obtain ⟨ys', k1, k2⟩ := collectM_mate (P := List.Forall₂ (MateEntry (sumError u c γ q))) (f' := fun n =>
      match eqs.get? n with
      | none => .error .keyError
      | some es => (fun rows => some (List.flatten rows)) <$>
        collectM (fun e => some <$> sparseRowF M F' m p basis e) es) _ ys (by
        intro n _ o ho
        cases he : eqs.get? n with
        | none => rw [he] at ho; cases ho
        | some es =>
          rw [he] at ho
          revert ho
          simp only
          generalize hcol' : collectM _ es = r'
          intro ho
          cases r' with
          | error e => cases ho
          | ok zs =>
            cases ho
            obtain ⟨zs', j1, j2⟩ := collectM_mate (P := List.Forall₂ (MateEntry (sumError u c γ q)))
              (f' := fun e => some <$> sparseRowF M F' m p basis e) es zs (by
              intro e hes o ho
              obtain ⟨hlen, hco⟩ := hq n es he e hes
              cases hrow : sparseRow F m p basis e with
              | error x => rw [hrow] at ho; cases ho
              | ok row =>
                rw [hrow] at ho
                cases ho
                refine ⟨row, ?_⟩
                unfold sparseRow at hrow
                unfold sparseRowF
                cases hb : basis.get? e.id with
                | none => rw [hb] at hrow; cases hrow
                | some i =>
                  rw [hb] at hrow
                  simp only [bind, Except.bind] at hrow ⊢
                  cases hd : rowLoop basis (rowTerms F m p e) [] with
                  | error x => rw [hd] at hrow; cases hrow
                  | ok d =>
                    rw [hd] at hrow
                    cases hrow
                    have hterms : List.Forall₂ (MateTerm c γ) (rowTerms F m p e) (rowTermsF M F' m p e) := by
                      unfold rowTerms rowTermsF
                      refine List.rel_append ?_ (List.Forall₂.cons ⟨rfl, 1, 1, rfl, rfl, by simpa using hc, by simpa using hγ⟩
                        List.Forall₂.nil)
                      rw [List.forall₂_map_left_iff, List.forall₂_map_right_iff, List.forall₂_same]
                      intro t ht
                      exact ⟨rfl, hco t ht⟩
                    obtain ⟨d', w1, w2⟩ := rowLoop_close hM hu hc0 hγ basis hterms 0 [] [] d List.Forall₂.nil hd
                    rw [w1]
                    refine ⟨_, trivial, rfl, ?_⟩
                    rw [List.forall₂_map_left_iff, List.forall₂_map_right_iff]
                    refine w2.imp (fun a b hab => ⟨rfl, hab.1, hab.2.2.trans (sumError_mono hu hc0 hγ ?_)⟩)
                    simp only [rowTerms, List.length_append, List.length_map, List.length_cons, List.length_nil]
                    omega) hcol'
            refine ⟨zs.flatten, zs'.flatten, rfl, ?_, mate_flatten j2⟩
            rw [j1]; rfl) hcol
    refine ⟨ys'.flatten, Eq.trans ?_ ((congrArg (List.flatten <$> ·) k1).trans rfl), mate_flatten k2⟩
    congr 2
    funext n
    cases eqs.get? n <;> rfl

/-! ### matrices -/

theorem mate_positions {E : ℝ} {T T' : List (ℕ × ℕ × ℂ)} (h : List.Forall₂ (MateEntry E) T T') :
    T.map (fun q => (q.1, q.2.1)) = T'.map (fun q => (q.1, q.2.1)) := by
  induction h with
  | nil => rfl
  | cons h1 _ ih => rw [List.map_cons, List.map_cons, ih, h1.1, h1.2.1]

theorem mate_rows {E : ℝ} {T T' : List (ℕ × ℕ × ℂ)} (h : List.Forall₂ (MateEntry E) T T') :
    cooRows T = cooRows T' ∧ cooCols T = cooCols T' := by
  have h1 := congrArg (List.map (fun q : ℕ × ℕ => q.1 + 1)) (mate_positions h)
  have h2 := congrArg (List.map (fun q : ℕ × ℕ => q.2 + 1)) (mate_positions h)
  rw [List.map_map, List.map_map] at h1 h2
  exact ⟨congrArg (List.foldl max 0) h1, congrArg (List.foldl max 0) h2⟩

theorem mate_entry {E : ℝ} (hE : 0 ≤ E) {T T' : List (ℕ × ℕ × ℂ)} (h : List.Forall₂ (MateEntry E) T T')
    (hnd : (T.map (fun q => (q.1, q.2.1))).Nodup) (i j : ℕ) : ‖cooEntry T' i j - cooEntry T i j‖ ≤ E := by
  have key : ‖cooEntry T' i j - cooEntry T i j‖ ≤ if (i, j) ∈ T.map (fun q => (q.1, q.2.1)) then E else 0 := by
    induction h with
    | nil => simp [cooEntry]
    | @cons x y T T' hxy _ ih =>
      rw [List.map_cons, List.nodup_cons] at hnd
      have ih := ih hnd.2
      rw [cooEntry_cons, cooEntry_cons, ← hxy.1, ← hxy.2.1, add_sub_add_comm]
      by_cases hx : x.1 = i ∧ x.2.1 = j
      · rw [if_pos hx, if_pos hx]
        have hn : (i, j) ∉ T.map (fun q => (q.1, q.2.1)) := by
          rw [← hx.1, ← hx.2]; exact hnd.1
        rw [if_neg hn] at ih
        rw [if_pos (by rw [List.map_cons, hx.1, hx.2]; exact List.mem_cons_self)]
        have := norm_add_le (y.2.2 - x.2.2) (cooEntry T' i j - cooEntry T i j)
        have := hxy.2.2
        linarith
      · rw [if_neg hx, if_neg hx, sub_zero, zero_add]
        refine ih.trans (le_of_eq ?_)
        have : (i, j) ∈ List.map (fun q : ℕ × ℕ × ℂ => (q.1, q.2.1)) (x :: T) ↔ (i, j) ∈ T.map (fun q => (q.1, q.2.1)) := by
          rw [List.map_cons, List.mem_cons]
          constructor
          · rintro (h | h)
            · exact absurd ⟨(Prod.mk.inj h).1.symm, (Prod.mk.inj h).2.symm⟩ hx
            · exact h
          · exact Or.inr
        simp only [this]
  refine key.trans ?_
  split
  · exact le_rfl
  · exact hE

/-- all entries small -/
theorem frob_const (n : ℕ) (a : ℕ → ℕ → ℝ) {E : ℝ} (hE : 0 ≤ E) (h0 : ∀ i j, 0 ≤ a i j) (h : ∀ i j, a i j ≤ E) :
    √(∑ i ∈ Finset.range n, ∑ j ∈ Finset.range n, a i j ^ 2) ≤ n * E := by
  refine (Real.sqrt_le_sqrt (Finset.sum_le_sum (fun i _ => Finset.sum_le_sum (fun j _ =>
    pow_le_pow_left₀ (h0 i j) (h i j) 2)))).trans ?_
  simp only [Finset.sum_const, Finset.card_range, nsmul_eq_mul]
  rw [show (n : ℝ) * (n * E ^ 2) = (n * E) ^ 2 by ring, Real.sqrt_sq (by positivity)]

end GGCE
