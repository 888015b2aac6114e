import Verif.Proofs.Weak
import Verif.Proofs.Untruncated
import Verif.Proofs.Blueprint
import Verif.Spec.ErrorBar

/-!
Occupations with at most one phonon, for any number of phonon types: how they lie in the allowed ones, and how the
Hamiltonian on them splits into the types.
-/

set_option linter.unusedSectionVars false

namespace GGCE
open Spec Complex ComplexConjugate

variable {m : Model ℝ} {ae : ℤ} {k : ℝ} {n : Occ}

/-- at most one phonon -/
def Few (m : Model ℝ) (n : Occ) : Prop := Conceivable m n ∧ phononCount m n ≤ 1

theorem Few.unique (h : Few m n) {t t' : ℕ} {x y : ℤ} (h1 : n t x ≠ 0) (h2 : n t' y ≠ 0) : t = t' ∧ x = y := by
  have p1 : 1 ≤ n t x := by have := h.1.nonneg t x; omega
  have p2 : 1 ≤ n t' y := by have := h.1.nonneg t' y; omega
  have htt : t = t' := by
    by_contra hne
    have s1 := (h.1.le_total t x)
    have s2 := (h.1.le_total t' y)
    have s3 : ∑ᶠ y, n t y + ∑ᶠ y, n t' y ≤ phononCount m n := by
      have hsub : ({t, t'} : Finset ℕ) ⊆ Finset.range m.nTypes := by
        intro s hs
        rw [Finset.mem_insert, Finset.mem_singleton] at hs
        rw [Finset.mem_range]
        rcases hs with rfl | rfl
        · exact h.1.types _ _ h1
        · exact h.1.types _ _ h2
      have := Finset.sum_le_sum_of_subset_of_nonneg (f := fun t => ∑ᶠ x, n t x) hsub
        (fun s _ _ => h.1.total_nonneg s)
      rw [Finset.sum_pair hne] at this
      exact this
    have := h.2
    omega
  subst htt
  refine ⟨rfl, ?_⟩
  by_contra hne
  have s1 : n t x + n t y ≤ ∑ᶠ y, n t y := by
    rw [finsum_eq_sum_of_support_subset (s := (h.1.finite t).toFinset) _ (by simp)]
    have hsub : ({x, y} : Finset ℤ) ⊆ (h.1.finite t).toFinset := by
      intro s hs
      rw [Finset.mem_insert, Finset.mem_singleton] at hs
      rw [Set.Finite.mem_toFinset]
      rcases hs with rfl | rfl
      · exact h1
      · exact h2
    have := Finset.sum_le_sum_of_subset_of_nonneg (f := fun x => n t x) hsub (fun s _ _ => h.1.nonneg t s)
    rw [Finset.sum_pair hne] at this
    exact this
  have s2 := h.1.total_le t
  have := h.2
  omega

theorem Few.allowed (hm : Shaped m ae) (h : Few m n) : Allowed m ae n where
  nonneg := h.1.nonneg
  types := h.1.types
  cap c hc t x := (((h.1.le_total t x).trans (h.1.total_le t)).trans h.2).trans (hm.capPos c hc)
  window t x t' y h1 h2 := by
    obtain ⟨-, rfl⟩ := h.unique h1 h2
    have := hm.aePos
    omega
  extent t M hM x y h1 h2 := by
    obtain ⟨-, rfl⟩ := h.unique h1 h2
    have := hm.extPos M (List.mem_of_getElem? hM)
    omega
  number t N hN := ((h.1.total_le t).trans h.2).trans (hm.numPos N (List.mem_of_getElem? hN))

theorem few_zero : Few m 0 := ⟨conceivable_zero, by unfold phononCount; simp⟩

theorem few_sub : (hops m k).Sub (Few m) 1 :=
  ⟨fun _ h => h.1, few_zero, fun n h => by
    show ((phononCount m n : ℤ) : ℝ) ≤ 1
    exact_mod_cast h.2⟩

theorem Few.shift (h : Few m n) (s : ℤ) : Few m (n.shift s) := ⟨h.1.shift s, by rw [count_shift]; exact h.2⟩

theorem few_shift {s : ℤ} : Few m (n.shift s) ↔ Few m n := by
  constructor
  · intro h
    have := h.shift (-s)
    simpa using this
  · exact fun h => h.shift s

/-! ### the moves out of them -/

/-- `√2 |g|` for an annihilation term -/
noncomputable def drop (h : SingleTerm ℝ) : ℝ :=
  match h.dag with
  | .plus => 0
  | .minus => √2 * |h.coupling|

theorem drop_nonneg (h : SingleTerm ℝ) : 0 ≤ drop h := by
  unfold drop
  split
  · exact le_rfl
  · positivity

/-- the moves, with bounds for those from two phonons to one -/
noncomputable def leaving (m : Model ℝ) (k : ℝ) : List (((Occ ≃ Occ) × (Occ → ℂ)) × ℝ) :=
  ((shiftE 1, fun _ => hopWeight m k), 0) :: ((shiftE (-1), fun _ => hopWeight m (-k)), 0) ::
    m.ham.terms.map (fun h => ((jumpE h, termWeight m k h), drop h))

theorem few_core (hm : Shaped m ae) : (hops m k).Core (Allowed m ae) (Few m) (leaving m k) where
  sub n h := h.allowed hm
  many n h1 h2 := by
    show (2 : ℝ) ≤ (phononCount m n : ℤ)
    have : ¬ phononCount m n ≤ 1 := fun q => h2 ⟨h1.conceivable, q⟩
    exact_mod_cast (by omega : 2 ≤ phononCount m n)
  list := by
    unfold leaving hops
    simp only [List.map_cons, List.map_map]
    rfl
  pos p hp := by
    rcases List.mem_cons.1 hp with rfl | hp
    · exact le_rfl
    rcases List.mem_cons.1 hp with rfl | hp
    · exact le_rfl
    obtain ⟨h, -, rfl⟩ := List.mem_map.1 hp
    exact drop_nonneg h
  weight p hp n h1 h2 h3 := by
    rcases List.mem_cons.1 hp with rfl | hp
    · exact absurd (few_shift.1 h3) h2
    rcases List.mem_cons.1 hp with rfl | hp
    · exact absurd (few_shift.1 h3) h2
    obtain ⟨h, hh, rfl⟩ := List.mem_map.1 hp
    have h3' : phononCount m (jump h n) ≤ 1 := h3.2
    have hc := h1.conceivable.count_jump h
    have hi := hm.index h hh
    rw [if_pos hi] at hc
    have hn : 2 ≤ phononCount m n := by
      have : ¬ phononCount m n ≤ 1 := fun q => h2 ⟨h1.conceivable, q⟩
      omega
    show ‖termWeight m k h n‖ ≤ drop h
    rw [termWeight_norm]
    unfold drop
    cases hd : h.dag with
    | plus =>
      rw [hd] at hc
      simp only [Dag.delta] at hc
      omega
    | minus =>
      rw [hd] at hc
      simp only [Dag.delta] at hc
      have h4 : n h.phononIndex (bosonSite h 0) ≤ 2 := by
        have := (h1.conceivable.le_total h.phononIndex (bosonSite h 0)).trans (h1.conceivable.total_le _)
        omega
      simp only
      rw [mul_comm]
      refine mul_le_mul_of_nonneg_right ?_ (abs_nonneg _)
      unfold ladder
      rw [hd]
      exact Real.sqrt_le_sqrt (by exact_mod_cast h4)

theorem half_sum (hadj : (m.ham.terms.map adjoint).Perm m.ham.terms) :
    (m.ham.terms.map drop).sum = √2 * totalCoupling m / 2 := by
  have h1 : ∀ l : List (SingleTerm ℝ), (l.map drop).sum + ((l.map adjoint).map drop).sum =
      √2 * (l.map (fun h : SingleTerm ℝ => |h.coupling|)).sum := by
    intro l
    induction l with
    | nil => simp
    | cons h l ih =>
      simp only [List.map_cons, List.sum_cons]
      have : drop h + drop (adjoint h) = √2 * |h.coupling| := by
        unfold drop adjoint
        cases h.dag <;> simp
      rw [mul_add, ← ih, ← this]
      ring
  have h2 := h1 m.ham.terms
  rw [(hadj.map drop).sum_eq] at h2
  unfold totalCoupling
  linarith

theorem leaving_sum (hadj : (m.ham.terms.map adjoint).Perm m.ham.terms) :
    ((leaving m k).map (·.2)).sum ^ 2 = totalCoupling m ^ 2 / 2 := by
  have : ((leaving m k).map (·.2)).sum = √2 * totalCoupling m / 2 := by
    unfold leaving
    simp only [List.map_cons, List.map_map, List.sum_cons, zero_add]
    exact half_sum hadj
  rw [this, div_pow, mul_pow, Real.sq_sqrt (by norm_num)]
  ring

/-! ### one type among several -/

/-- the phonons of type 0 as phonons of type `t` -/
def embed (t : ℕ) (n : Occ) : Occ := fun t' x => if t' = t then n 0 x else 0

/-- a term for phonons of type 0 as a term for phonons of type `t` -/
def asType (t : ℕ) (h : SingleTerm ℝ) : SingleTerm ℝ := { h with phononIndex := t }

theorem embed_shift (t : ℕ) (n : Occ) (s : ℤ) : embed t (n.shift s) = (embed t n).shift s := rfl

theorem embed_act (t : ℕ) (n : Occ) (d : Dag) (x : ℤ) : embed t (n.act d 0 x) = (embed t n).act d t x := by
  funext t' y
  show (if t' = t then n 0 y + (if 0 = 0 ∧ y = x then Dag.delta d else 0) else 0) =
    (if t' = t then n 0 y else 0) + (if t' = t ∧ y = x then Dag.delta d else 0)
  by_cases h : t' = t <;> simp [h]

theorem embed_jump {t : ℕ} {h : SingleTerm ℝ} (hi : h.phononIndex = 0) (n : Occ) :
    jump (asType t h) (embed t n) = embed t (jump h n) := by
  show ((embed t n).act h.dag t (bosonSite h 0)).shift (-(electronSite h 0)) =
    embed t ((n.act h.dag h.phononIndex (bosonSite h 0)).shift (-(electronSite h 0)))
  rw [embed_shift, hi, embed_act]

theorem embed_zero (t : ℕ) : embed t 0 = 0 := by
  funext t' x
  show (if t' = t then (0 : ℤ) else 0) = 0
  simp

/-- only phonons of type 0 -/
def Sole (n : Occ) : Prop := ∀ t x, n t x ≠ 0 → t = 0

theorem Sole.shift (h : Sole n) (s : ℤ) : Sole (n.shift s) := fun t _ hx => h t _ hx

theorem Sole.jump {h : SingleTerm ℝ} (hi : h.phononIndex = 0) (hn : Sole n) : Sole (jump h n) := by
  unfold Spec.jump
  refine Sole.shift (fun t x hx => ?_) _
  by_contra hc
  apply hx
  show n t x + (if t = h.phononIndex ∧ x = bosonSite h 0 then Dag.delta h.dag else 0) = 0
  rw [if_neg (fun q => hc (by rw [q.1, hi]))]
  by_contra h0
  exact hc (hn t x (by simpa using h0))

theorem embed_inj {t : ℕ} {n n' : Occ} (h1 : Sole n) (h2 : Sole n') (h : embed t n = embed t n') : n = n' := by
  funext t' x
  by_cases ht : t' = 0
  · subst ht
    have := congrFun (congrFun h t) x
    unfold embed at this
    rwa [if_pos rfl, if_pos rfl] at this
  · have e1 : n t' x = 0 := by by_contra hc; exact ht (h1 t' x hc)
    have e2 : n' t' x = 0 := by by_contra hc; exact ht (h2 t' x hc)
    rw [e1, e2]

theorem embed_count {t : ℕ} (ht : t < m.nTypes) (n : Occ) : phononCount m (embed t n) = ∑ᶠ x, n 0 x := by
  unfold phononCount embed
  rw [Finset.sum_eq_single_of_mem t (Finset.mem_range.2 ht) (fun t' _ hne => by simp [hne])]
  simp

theorem embed_energy {t : ℕ} (ht : t < m.nTypes) (n : Occ) :
    occEnergy m (embed t n) = m.ham.freqs.getD t 0 * ((∑ᶠ x, n 0 x : ℤ) : ℝ) := by
  unfold occEnergy embed
  rw [Finset.sum_eq_single_of_mem t (Finset.mem_range.2 ht) (fun t' _ hne => by simp [hne])]
  simp

/-- a model with one phonon type -/
theorem few_sole {m1 : Model ℝ} (h1 : m1.nTypes = 1) (h : Few m1 n) : Sole n := fun t x hx => by
  have := h.1.types t x hx
  omega

theorem few_embed {m1 : Model ℝ} (h1 : m1.nTypes = 1) {t : ℕ} (ht : t < m.nTypes) (hn : Sole n) :
    Few m (embed t n) ↔ Few m1 n := by
  have hc : phononCount m1 n = ∑ᶠ x, n 0 x := by unfold phononCount; rw [h1]; simp
  constructor
  · rintro ⟨h, h'⟩
    rw [embed_count ht] at h'
    refine ⟨⟨fun t' x => ?_, fun t' x hx => by have := hn t' x hx; omega, fun t' => ?_⟩, by rw [hc]; exact h'⟩
    · by_cases h0 : t' = 0
      · subst h0
        have := h.nonneg t x
        unfold embed at this
        rwa [if_pos rfl] at this
      · have : n t' x = 0 := by by_contra q; exact h0 (hn t' x q)
        rw [this]
    · by_cases h0 : t' = 0
      · subst h0
        have := h.finite t
        have e : embed t n t = n 0 := by funext x; unfold embed; rw [if_pos rfl]
        rwa [e] at this
      · have : n t' = 0 := by funext x; by_contra q; exact h0 (hn t' x q)
        rw [this]
        simp
  · rintro ⟨h, h'⟩
    rw [hc] at h'
    refine ⟨⟨fun t' x => ?_, fun t' x hx => ?_, fun t' => ?_⟩, by rw [embed_count ht]; exact h'⟩
    · unfold embed
      split
      · exact h.nonneg 0 x
      · exact le_rfl
    · unfold embed at hx
      by_contra q
      apply hx
      rw [if_neg (by omega)]
    · by_cases h0 : t' = t
      · have e : embed t n t' = n 0 := by funext x; unfold embed; rw [if_pos h0]
        rw [e]
        exact h.finite 0
      · have e : embed t n t' = 0 := by funext x; unfold embed; rw [if_neg h0]; rfl
        rw [e]
        simp

theorem embed_weight {m1 : Model ℝ} (hl : m1.latticeConstant = m.latticeConstant) {t : ℕ} {h : SingleTerm ℝ}
    (hi : h.phononIndex = 0) (n : Occ) : termWeight m k (asType t h) (embed t n) = termWeight m1 k h n := by
  have : ladder (asType t h) (embed t n) = ladder h n := by
    have e : embed t n t (bosonSite h 0) = n h.phononIndex (bosonSite h 0) := by
      unfold embed; rw [if_pos rfl, hi]
    show (match h.dag with
      | .plus => √((embed t n t (bosonSite h 0) : ℤ) + 1 : ℝ)
      | .minus => √((embed t n t (bosonSite h 0) : ℤ) : ℝ)) = _
    rw [e]
    rfl
  unfold termWeight
  rw [this, hl]
  rfl

theorem asType_terms (ct : String) (g : ℝ) (t : ℕ) (f : ℝ) : termsOf ct g t f = (termsOf ct g 0 f).map (asType t) := by
  unfold termsOf
  rw [List.map_map]
  rfl

theorem zip_single {α : Type} {f : α × ℕ → ℂ} : ∀ (ds : List α) (i t : ℕ) (d : α), ds[t]? = some d →
    (∀ q ∈ ds.zipIdx i, q.2 ≠ i + t → f q = 0) → ((ds.zipIdx i).map f).sum = f (d, i + t)
  | [], _, t, d, h, _ => by simp at h
  | a :: ds, i, 0, d, h, h0 => by
    simp only [List.getElem?_cons_zero, Option.some.injEq] at h
    subst h
    rw [List.zipIdx_cons, List.map_cons, List.sum_cons, List.sum_eq_zero, add_zero, add_zero]
    intro x hx
    obtain ⟨q, hq, rfl⟩ := List.mem_map.1 hx
    refine h0 q (by rw [List.zipIdx_cons]; exact List.mem_cons_of_mem _ hq) ?_
    have := List.le_snd_of_mem_zipIdx hq
    omega
  | a :: ds, i, t + 1, d, h, h0 => by
    have h' : ds[t]? = some d := by simpa using h
    rw [List.zipIdx_cons, List.map_cons, List.sum_cons, zip_single ds (i + 1) t d h' (fun q hq hne => h0 q
      (by rw [List.zipIdx_cons]; exact List.mem_cons_of_mem _ hq) (by omega)),
      h0 (a, i) (by rw [List.zipIdx_cons]; exact List.mem_cons_self) (by simp), zero_add]
    congr 2
    omega

end GGCE
