import Mathlib.Algebra.BigOperators.Field
import Verif.Spec.Variational
import Verif.Proofs.Variational

/-! A displaced oscillator at the site of the electron as a trial state of the Holstein model. -/

set_option linter.unusedSectionVars false

namespace GGCE
open Spec Complex ComplexConjugate Props

/-- `j` phonons at the site of the electron -/
def pile (j : ℕ) : Occ := fun t x => if t = 0 ∧ x = 0 then (j : ℤ) else 0

theorem pile_zero : pile 0 = 0 := by
  funext t x; simp [pile]

theorem pile_inj {i j : ℕ} (h : pile i = pile j) : i = j := by
  have := congrFun (congrFun h 0) 0
  simpa [pile] using this

theorem pile_up (j : ℕ) : (pile j).act .plus 0 0 = pile (j + 1) := by
  funext t x
  unfold Occ.act pile
  by_cases h : t = 0 ∧ x = 0 <;> simp [h, Dag.delta]

theorem pile_down (j : ℕ) : (pile (j + 1)).act .minus 0 0 = pile j := by
  funext t x
  unfold Occ.act pile
  by_cases h : t = 0 ∧ x = 0 <;> simp [h, Dag.delta]

theorem pile_sum (j : ℕ) : ∑ᶠ x, pile j 0 x = j := by
  rw [finsum_eq_single _ (0 : ℤ) (fun x hx => by simp [pile, hx])]
  simp [pile]

theorem pile_shift {i j : ℕ} (hj : j ≠ 0) {s : ℤ} (hs : s ≠ 0) : (pile j).shift s ≠ pile i := by
  intro h
  have := congrFun (congrFun h 0) s
  simp only [Occ.shift, pile, sub_self, and_self, if_true] at this
  simp [hs] at this
  exact hj this

/-- the amplitudes `α^j/√(j!)` -/
noncomputable def shifted (α : ℝ) (j : ℕ) : ℝ := α ^ j / √(j.factorial)

theorem shifted_succ (α : ℝ) (j : ℕ) : √((j : ℝ) + 1) * shifted α (j + 1) = α * shifted α j := by
  unfold shifted
  rw [Nat.factorial_succ]
  push_cast
  rw [Real.sqrt_mul (by positivity)]
  have h1 : √((j : ℝ) + 1) ≠ 0 := (Real.sqrt_pos.2 (by positivity)).ne'
  have h2 : √(j.factorial : ℝ) ≠ 0 := (Real.sqrt_pos.2 (by exact_mod_cast j.factorial_pos)).ne'
  field_simp
  ring

theorem shifted_sq (α : ℝ) (j : ℕ) : shifted α j ^ 2 = (α ^ 2) ^ j / j.factorial := by
  unfold shifted
  rw [div_pow, Real.sq_sqrt (by positivity), ← pow_mul, ← pow_mul, mul_comm]

/-- the trial state with at most `K` phonons -/
noncomputable def displacedState (α : ℝ) (K : ℕ) : Occ →₀ ℂ :=
  ∑ j ∈ Finset.range (K + 1), Finsupp.single (pile j) (shifted α j : ℂ)

theorem displacedState_pile (α : ℝ) (K j : ℕ) : displacedState α K (pile j) = if j ≤ K then (shifted α j : ℂ) else 0 := by
  classical
  unfold displacedState
  rw [Finsupp.finsetSum_apply]
  by_cases h : j ≤ K
  · rw [if_pos h, Finset.sum_eq_single j]
    · simp
    · intro i _ hi
      rw [Finsupp.single_apply, if_neg (fun hc => hi (pile_inj hc))]
    · intro hc
      exact absurd (Finset.mem_range.2 (by omega)) hc
  · rw [if_neg h]
    refine Finset.sum_eq_zero (fun i hi => ?_)
    rw [Finsupp.single_apply, if_neg (fun hc => ?_)]
    have := pile_inj hc
    have := Finset.mem_range.1 hi
    omega

theorem displacedState_other (α : ℝ) (K : ℕ) {n : Occ} (hn : ∀ j, n ≠ pile j) : displacedState α K n = 0 := by
  classical
  unfold displacedState
  rw [Finsupp.finsetSum_apply]
  refine Finset.sum_eq_zero (fun i _ => ?_)
  rw [Finsupp.single_apply, if_neg (fun hc => hn i hc.symm)]

theorem displacedState_support (α : ℝ) (K : ℕ) {n : Occ} (hn : n ∈ (displacedState α K).support) : ∃ j ≤ K, n = pile j := by
  rw [Finsupp.mem_support_iff] at hn
  by_cases h : ∃ j, n = pile j
  · obtain ⟨j, rfl⟩ := h
    refine ⟨j, ?_, rfl⟩
    by_contra hc
    rw [displacedState_pile, if_neg hc] at hn
    exact hn rfl
  · push Not at h
    exact absurd (displacedState_other α K h) hn

/-- sums over the state -/
theorem displacedState_sum {β : Type} [AddCommMonoid β] (α : ℝ) (K : ℕ) (G : Occ → β)
    (hG : ∀ n, displacedState α K n = 0 → G n = 0) :
    ∑ n ∈ (displacedState α K).support, G n = ∑ j ∈ Finset.range (K + 1), G (pile j) := by
  classical
  rw [← Finset.sum_image (s := Finset.range (K + 1)) (g := pile) (fun i _ j _ h => pile_inj h)]
  refine Finset.sum_subset (fun n hn => ?_) (fun n _ hn => hG n (Finsupp.notMem_support_iff.1 hn))
  obtain ⟨j, hj, rfl⟩ := displacedState_support α K hn
  exact Finset.mem_image.2 ⟨j, Finset.mem_range.2 (by omega), rfl⟩

theorem displacedState_weight (α : ℝ) (K : ℕ) :
    weightOf (displacedState α K) = ∑ j ∈ Finset.range (K + 1), (α ^ 2) ^ j / j.factorial := by
  unfold weightOf
  rw [displacedState_sum α K _ (fun n hn => by rw [hn, norm_zero]; norm_num)]
  refine Finset.sum_congr rfl (fun j hj => ?_)
  rw [displacedState_pile, if_pos (by have := Finset.mem_range.1 hj; omega), Complex.norm_real, Real.norm_eq_abs, sq_abs,
    shifted_sq]

variable {hopping lattice Omega g : ℝ} {cap : Option Int} {M N ae : ℤ}

/-- the Holstein model of one call -/
noncomputable def holsteinModel (hopping lattice : ℝ) (cap : Option Int) (Omega g : ℝ) (M N : ℤ) : Model ℝ :=
  blueprint hopping lattice 0 cap [⟨"Holstein", Omega, M, N, g⟩]

theorem holstein_terms : (holsteinModel hopping lattice cap Omega g M N).ham.terms =
    [⟨"Holstein", .int 0, .int 0, .plus, -g, 0, Omega⟩, ⟨"Holstein", .int 0, .int 0, .minus, -g, 0, Omega⟩] := by
  simp [holsteinModel, blueprint, partTerms, termsOf, termShapes]

theorem pile_allowed (hM : 1 ≤ M) (hae : 1 ≤ ae) {j : ℕ} (hj : (j : ℤ) ≤ N) (hcap : ∀ c, cap = some c → (j : ℤ) ≤ c) :
    Allowed (holsteinModel hopping lattice cap Omega g M N) ae (pile j) where
  nonneg t x := by unfold pile; split <;> omega
  types t x h := by
    have : t = 0 := by by_contra hc; simp [pile, hc] at h
    rw [this]; exact Nat.zero_lt_one
  cap c hc t x := by
    have := hcap c hc
    unfold pile; split <;> omega
  window t x t' y hx hy := by
    have h1 : x = 0 := by by_contra hc; simp [pile, hc] at hx
    have h2 : y = 0 := by by_contra hc; simp [pile, hc] at hy
    omega
  extent t M' hM' x y hx hy := by
    have h1 : x = 0 := by by_contra hc; simp [pile, hc] at hx
    have h2 : y = 0 := by by_contra hc; simp [pile, hc] at hy
    have h3 : t = 0 := by by_contra hc; simp [pile, hc] at hx
    subst h3
    simp [holsteinModel, blueprint] at hM'
    omega
  number t N' hN' := by
    have h3 : t = 0 := by
      by_contra hc
      obtain ⟨i, rfl⟩ := Nat.exists_eq_succ_of_ne_zero hc
      simp [holsteinModel, blueprint] at hN'
    subst h3
    simp [holsteinModel, blueprint] at hN'
    rw [pile_sum]
    omega

theorem pile_linked (hg : g ≠ 0) (hM : 1 ≤ M) (hae : 1 ≤ ae) {j : ℕ} (hj : (j : ℤ) ≤ N)
    (hcap : ∀ c, cap = some c → (j : ℤ) ≤ c) : Linked (holsteinModel hopping lattice cap Omega g M N) ae (pile j) := by
  induction j with
  | zero => rw [pile_zero]; exact Linked.zero
  | succ j ih =>
    refine Linked.term (h := ⟨"Holstein", .int 0, .int 0, .minus, -g, 0, Omega⟩) (by rw [holstein_terms]; simp)
      (neg_ne_zero.2 hg) (pile_allowed hM hae hj hcap) ?_
    have e : jump (⟨"Holstein", .int 0, .int 0, .minus, -g, 0, Omega⟩ : SingleTerm ℝ) (pile (j + 1)) = pile j := by
      unfold jump bosonSite electronSite
      simp only [Num.int]
      norm_num
      exact pile_down j
    rw [e]
    exact ih (by push_cast at hj; omega) (fun c hc => by have := hcap c hc; push_cast at this; omega)

open Classical in
theorem pile_frame (hM : 1 ≤ M) (hae : 1 ≤ ae) {α k : ℝ} {K : ℕ} (hK : (K : ℤ) ≤ N)
    (hcap : ∀ c, cap = some c → (K : ℤ) ≤ c) {j : ℕ} (hj : j ≤ K) :
    frame (holsteinModel hopping lattice cap Omega g M N) ae k (displacedState α K) (pile j) =
      ((Omega * j * shifted α j - 2 * hopping * Real.cos (k * lattice) * (if j = 0 then 1 else 0) -
        g * (if j + 1 ≤ K then α * shifted α j else 0) - g * (√j * if 1 ≤ j then shifted α (j - 1) else 0) : ℝ) : ℂ) := by
  have hal : ∀ i ≤ K, Allowed (holsteinModel hopping lattice cap Omega g M N) ae (pile i) := fun i hi =>
    pile_allowed hM hae (by omega) (fun c hc => by have := hcap c hc; omega)
  unfold frame
  rw [if_pos (hal j hj), holstein_terms]
  have e1 : occEnergy (holsteinModel hopping lattice cap Omega g M N) (pile j) = Omega * j := by
    simp [occEnergy, holsteinModel, blueprint, pile_sum]
  have e2 : ∀ s : ℤ, s ≠ 0 → displacedState α K ((pile j).shift s) = if j = 0 then 1 else 0 := by
    intro s hs
    by_cases h0 : j = 0
    · subst h0
      rw [pile_zero, show (0 : Occ).shift s = pile 0 by rw [pile_zero]; rfl, displacedState_pile, if_pos (Nat.zero_le _),
        if_pos rfl]
      simp [shifted]
    · rw [if_neg h0, displacedState_other]
      exact fun i => pile_shift h0 hs
  have j1 : jump (⟨"Holstein", .int 0, .int 0, .plus, -g, 0, Omega⟩ : SingleTerm ℝ) (pile j) = pile (j + 1) := by
    unfold jump bosonSite electronSite
    simp only [Num.int]
    norm_num
    exact pile_up j
  have l1 : ladder (⟨"Holstein", .int 0, .int 0, .plus, -g, 0, Omega⟩ : SingleTerm ℝ) (pile j) = √((j : ℝ) + 1) := by
    simp [ladder, bosonSite, Num.int, pile]
  have l2 : ladder (⟨"Holstein", .int 0, .int 0, .minus, -g, 0, Omega⟩ : SingleTerm ℝ) (pile j) = √(j : ℝ) := by
    simp [ladder, bosonSite, Num.int, pile]
  have t1 : ((√((j : ℝ) + 1) : ℝ) : ℂ) * (if Allowed (holsteinModel hopping lattice cap Omega g M N) ae (pile (j + 1)) then
      displacedState α K (pile (j + 1)) else 0) = ((if j + 1 ≤ K then α * shifted α j else 0 : ℝ) : ℂ) := by
    by_cases h : j + 1 ≤ K
    · rw [if_pos (hal _ h), displacedState_pile, if_pos h, if_pos h, ← shifted_succ]
      push_cast; rfl
    · rw [displacedState_pile, if_neg h, if_neg h]; simp
  have t2 : (√(j : ℝ) : ℂ) * (if Allowed (holsteinModel hopping lattice cap Omega g M N) ae
      (jump (⟨"Holstein", .int 0, .int 0, .minus, -g, 0, Omega⟩ : SingleTerm ℝ) (pile j)) then displacedState α K
      (jump (⟨"Holstein", .int 0, .int 0, .minus, -g, 0, Omega⟩ : SingleTerm ℝ) (pile j)) else 0) =
      ((√j * if 1 ≤ j then shifted α (j - 1) else 0 : ℝ) : ℂ) := by
    rcases j with _ | j
    · simp
    · have j2 : jump (⟨"Holstein", .int 0, .int 0, .minus, -g, 0, Omega⟩ : SingleTerm ℝ) (pile (j + 1)) = pile j := by
        unfold jump bosonSite electronSite
        simp only [Num.int]
        norm_num
        exact pile_down j
      rw [j2, if_pos (hal _ (by omega)), displacedState_pile, if_pos (by omega), if_pos (by omega)]
      push_cast
      rfl
  have es : ∀ d, electronSite (⟨"Holstein", .int 0, .int 0, d, -g, 0, Omega⟩ : SingleTerm ℝ) 0 = 0 := fun d => by
    simp [electronSite, Num.int]
  simp only [List.map_cons, List.map_nil, List.sum_cons, List.sum_nil, es, l1, l2, j1, e1, e2 1 (by norm_num),
    e2 (-1) (by norm_num), Int.cast_zero, mul_zero, neg_zero, Complex.exp_zero, mul_one, add_zero]
  rw [mul_assoc, t1, mul_assoc _ _ (ite _ _ _), t2, displacedState_pile, if_pos hj]
  have hcos : exp (I * (k * (holsteinModel hopping lattice cap Omega g M N).latticeConstant)) +
      exp (-(I * (k * (holsteinModel hopping lattice cap Omega g M N).latticeConstant))) =
      2 * ((Real.cos (k * lattice) : ℝ) : ℂ) := by
    show exp (I * (k * lattice)) + exp (-(I * (k * lattice))) = _
    rw [Complex.ofReal_cos, Complex.two_cos]
    push_cast
    congr 2 <;> ring
  have hh : (holsteinModel hopping lattice cap Omega g M N).ham.hopping = hopping := rfl
  rw [hh, ← add_mul, hcos]
  by_cases h0 : j = 0
  · simp only [h0, if_true]
    push_cast
    ring
  · simp only [h0, if_false]
    push_cast
    ring

theorem displaced_energy (hO : Omega ≠ 0) (hM : 1 ≤ M) (hae : 1 ≤ ae) {k : ℝ} {K : ℕ} (hK : (K : ℤ) ≤ N)
    (hcap : ∀ c, cap = some c → (K : ℤ) ≤ c) :
    trialEnergy (holsteinModel hopping lattice cap Omega g M N) ae k (displacedState (g / Omega) K) =
      -(g ^ 2 / Omega) * ∑ j ∈ Finset.range K, ((g / Omega) ^ 2) ^ j / j.factorial -
        2 * hopping * Real.cos (k * lattice) := by
  set α := g / Omega with hα
  have hgα : g = Omega * α := by rw [hα]; field_simp
  unfold trialEnergy
  rw [displacedState_sum α K _ (fun n hn => by rw [hn, map_zero, zero_mul])]
  have e1 : ∀ j ∈ Finset.range (K + 1), conj (displacedState α K (pile j)) *
      frame (holsteinModel hopping lattice cap Omega g M N) ae k (displacedState α K) (pile j) =
      ((shifted α j * (Omega * j * shifted α j - 2 * hopping * Real.cos (k * lattice) * (if j = 0 then 1 else 0) -
        g * (if j + 1 ≤ K then α * shifted α j else 0) - g * (√j * if 1 ≤ j then shifted α (j - 1) else 0)) : ℝ) : ℂ) := by
    intro j hj
    have hj' : j ≤ K := by have := Finset.mem_range.1 hj; omega
    rw [pile_frame hM hae hK hcap hj', displacedState_pile, if_pos hj', Complex.conj_ofReal, ← Complex.ofReal_mul]
  rw [Finset.sum_congr rfl e1, ← Complex.ofReal_sum, Complex.ofReal_re]
  -- the parts of the sum
  have p1 : ∑ j ∈ Finset.range (K + 1), shifted α j * (if j = 0 then (1 : ℝ) else 0) = 1 := by
    rw [Finset.sum_range_succ', Finset.sum_eq_zero (fun i _ => by simp)]
    simp [shifted]
  have p2 : ∑ j ∈ Finset.range (K + 1), shifted α j * (if j + 1 ≤ K then α * shifted α j else 0) =
      α * ∑ j ∈ Finset.range K, shifted α j ^ 2 := by
    rw [Finset.sum_range_succ, if_neg (by omega), mul_zero, add_zero, Finset.mul_sum]
    refine Finset.sum_congr rfl (fun j hj => ?_)
    rw [if_pos (by have := Finset.mem_range.1 hj; omega)]
    ring
  have p3 : ∑ j ∈ Finset.range (K + 1), shifted α j * (√j * if 1 ≤ j then shifted α (j - 1) else 0) =
      α * ∑ j ∈ Finset.range K, shifted α j ^ 2 := by
    rw [Finset.sum_range_succ', Finset.mul_sum]
    have : shifted α 0 * (√((0 : ℕ) : ℝ) * if 1 ≤ 0 then shifted α (0 - 1) else 0) = 0 := by simp
    rw [this, add_zero]
    refine Finset.sum_congr rfl (fun j _ => ?_)
    rw [if_pos (by omega), Nat.add_sub_cancel]
    have := shifted_succ α j
    push_cast
    linear_combination (shifted α j) * this
  have p4 : ∑ j ∈ Finset.range (K + 1), (j : ℝ) * shifted α j ^ 2 = α ^ 2 * ∑ j ∈ Finset.range K, shifted α j ^ 2 := by
    rw [Finset.sum_range_succ', Finset.mul_sum]
    rw [show ((0 : ℕ) : ℝ) * shifted α 0 ^ 2 = 0 by simp, add_zero]
    refine Finset.sum_congr rfl (fun j _ => ?_)
    have h1 := shifted_succ α j
    have h2 : √((j : ℝ) + 1) ^ 2 = (j : ℝ) + 1 := Real.sq_sqrt (by positivity)
    push_cast
    calc ((j : ℝ) + 1) * shifted α (j + 1) ^ 2 = (√((j : ℝ) + 1) * shifted α (j + 1)) ^ 2 := by rw [mul_pow, h2]
      _ = _ := by rw [h1]; ring
  have split : ∀ j : ℕ, shifted α j * (Omega * j * shifted α j - 2 * hopping * Real.cos (k * lattice) * (if j = 0 then 1 else 0) -
        g * (if j + 1 ≤ K then α * shifted α j else 0) - g * (√j * if 1 ≤ j then shifted α (j - 1) else 0)) =
      Omega * (j * shifted α j ^ 2) - 2 * hopping * Real.cos (k * lattice) * (shifted α j * (if j = 0 then 1 else 0)) -
        g * (shifted α j * (if j + 1 ≤ K then α * shifted α j else 0)) -
        g * (shifted α j * (√j * if 1 ≤ j then shifted α (j - 1) else 0)) := fun j => by ring
  rw [Finset.sum_congr rfl (fun j _ => split j), Finset.sum_sub_distrib, Finset.sum_sub_distrib, Finset.sum_sub_distrib,
    ← Finset.mul_sum, ← Finset.mul_sum, ← Finset.mul_sum, ← Finset.mul_sum, p1, p2, p3, p4]
  rw [Finset.sum_congr rfl (fun j _ => (shifted_sq α j).symm)]
  have : g ^ 2 / Omega = Omega * α ^ 2 := by rw [hgα]; field_simp
  rw [this, hgα]
  ring

end GGCE
