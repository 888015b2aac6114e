import Verif.Proofs.Galerkin
import Mathlib.Analysis.SpecialFunctions.Trigonometric.DerivHyp

/-!
Solutions decay: if the moves change a function `φ` little compared with the broadening, the solution is small like
`exp (-φ)`. Hence restricting the Hamiltonian to a set that only leaves out points where `φ` is large changes the
Green's function little.
-/

set_option linter.unusedSectionVars false

namespace GGCE
namespace Hops
open ComplexConjugate
open scoped InnerProductSpace

variable {ι : Type} {Q : Hops ι} {e c : ℝ} {P P' : ι → Prop} {B B' : ℝ}

/-- `φ` changes little along the moves inside `P`. The list `L` contains the moves with two bounds each, the first of
them being used here. -/
structure Tilt (Q : Hops ι) (P : ι → Prop) (φ : ι → ℝ) (D : ℝ)
    (L : List (((ι ≃ ι) × (ι → ℂ)) × ℝ × ℝ)) : Prop where
  list : L.map (·.1) = Q.moves
  nonneg : ∀ n, 0 ≤ φ n
  le : ∀ n, φ n ≤ D
  base : φ Q.o = 0
  pos : ∀ p ∈ L, 0 ≤ p.2.1
  step : ∀ p ∈ L, ∀ n, P n → P (p.1.1 n) → ‖p.1.2 n‖ * |Real.sinh (φ n - φ (p.1.1 n))| ≤ p.2.1

/-- multiplication by `exp φ` -/
noncomputable def expW (φ : ι → ℝ) (n : ι) : ℂ := (Real.exp (φ n) : ℂ)

theorem expW_bound {φ : ι → ℝ} {D : ℝ} (h : ∀ n, φ n ≤ D) (n : ι) : ‖expW φ n‖ ≤ Real.exp D := by
  unfold expW
  rw [Complex.norm_real, Real.norm_of_nonneg (Real.exp_pos _).le]
  exact Real.exp_le_exp.2 (h n)

/-- the operator -/
noncomputable def tilt (φ : ι → ℝ) : L2 ι →L[ℂ] L2 ι := wcomp (expW φ) (Equiv.refl _)

theorem tilt_apply {φ : ι → ℝ} {D : ℝ} (h : ∀ n, φ n ≤ D) (f : L2 ι) (n : ι) :
    tilt φ f n = (Real.exp (φ n) : ℂ) * f n := wcomp_apply (expW_bound h) _ f n

theorem tilt_inner {φ : ι → ℝ} {D : ℝ} (h : ∀ n, φ n ≤ D) (f g : L2 ι) : ⟪tilt φ f, g⟫_ℂ = ⟪f, tilt φ g⟫_ℂ :=
  wcomp_inner (expW_bound h) (expW_bound h) _ _ (fun _ => rfl)
    (fun n => by show expW φ n = _; unfold expW; rw [Complex.conj_ofReal]) f g

theorem tilt_inv {φ : ι → ℝ} {D : ℝ} (h : ∀ n, φ n ≤ D) (h0 : ∀ n, 0 ≤ φ n) (f : L2 ι) :
    tilt (fun n => -φ n) (tilt φ f) = f := by
  ext n
  rw [tilt_apply (D := 0) (fun n => by linarith [h0 n]), tilt_apply h, ← mul_assoc, ← Complex.ofReal_mul, ← Real.exp_add]
  simp

/-- the antihermitian part of the tilted Hamiltonian -/
noncomputable def skew (Q : Hops ι) (P : ι → Prop) (φ : ι → ℝ) : L2 ι →L[ℂ] L2 ι :=
  (Q.moves.map (fun μ => wcomp (fun n => inside P μ n * (Real.sinh (φ n - φ (μ.1 n)) : ℂ)) μ.1)).sum

variable {φ : ι → ℝ} {D : ℝ} {L : List (((ι ≃ ι) × (ι → ℂ)) × ℝ × ℝ)}

theorem Tilt.weight (hT : Q.Tilt P φ D L) {p} (hp : p ∈ L) (n : ι) :
    ‖inside P p.1 n * (Real.sinh (φ n - φ (p.1.1 n)) : ℂ)‖ ≤ p.2.1 := by
  rw [norm_mul, Complex.norm_real, Real.norm_eq_abs]
  unfold inside
  split
  · rename_i h; exact hT.step p hp n h.1 h.2
  · rw [norm_zero, zero_mul]; exact hT.pos p hp

theorem norm_list_sum {α : Type} (l : List α) (A : α → L2 ι →L[ℂ] L2 ι) (b : α → ℝ) (h : ∀ x ∈ l, ‖A x‖ ≤ b x) :
    ‖(l.map A).sum‖ ≤ (l.map b).sum := by
  induction l with
  | nil => simp
  | cons a l ih =>
    rw [List.map_cons, List.sum_cons, List.map_cons, List.sum_cons]
    exact (norm_add_le _ _).trans (add_le_add (h a List.mem_cons_self) (ih fun x hx => h x (List.mem_cons_of_mem _ hx)))

theorem Tilt.mem (hT : Q.Tilt P φ D L) {μ} (hμ : μ ∈ Q.moves) : ∃ p ∈ L, p.1 = μ := by
  rw [← hT.list] at hμ
  exact List.mem_map.1 hμ

theorem Tilt.skew_norm (hT : Q.Tilt P φ D L) : ‖Q.skew P φ‖ ≤ (L.map (·.2.1)).sum := by
  unfold skew
  rw [← hT.list, List.map_map]
  exact norm_list_sum _ _ _ (fun p hp => wcomp_norm (hT.pos p hp) (hT.weight hp) _)

theorem Tilt.difference (hQ : Q.Ok e c) (hP : Q.Sub P B) (hT : Q.Tilt P φ D L) (y : L2 ι) :
    tilt φ (Q.op P (tilt (fun n => -φ n) y)) - tilt (fun n => -φ n) (Q.op P (tilt φ y)) =
      (2 : ℂ) • Q.skew P φ y := by
  have hneg : ∀ n, -φ n ≤ (0 : ℝ) := fun n => by linarith [hT.nonneg n]
  ext n
  show tilt φ (Q.op P (tilt (fun n => -φ n) y)) n - tilt (fun n => -φ n) (Q.op P (tilt φ y)) n =
    2 * Q.skew P φ y n
  rw [tilt_apply hT.le, tilt_apply hneg, op_apply hQ hP, op_apply hQ hP]
  unfold skew act
  rw [coe_sum, tilt_apply hT.le, tilt_apply hneg]
  have e1 : ∀ (a : ℂ) (g : ι → ℂ), a * (Q.moves.map (fun μ => inside P μ n * g (μ.1 n))).sum =
      (Q.moves.map (fun μ => a * (inside P μ n * g (μ.1 n)))).sum := fun a g =>
    (list_sum_mul Q.moves (fun μ => inside P μ n * g (μ.1 n)) a).symm
  rw [mul_add, mul_add, e1 _ (tilt (fun n => -φ n) y), e1 _ (tilt φ y), ← list_sum_mul Q.moves _ (2 : ℂ)]
  have e2 : (Q.moves.map (fun μ => (2 : ℂ) * wcomp (fun n => inside P μ n * (Real.sinh (φ n - φ (μ.1 n)) : ℂ)) μ.1 y n)).sum =
      (Q.moves.map (fun μ => (Real.exp (φ n) : ℂ) * (inside P μ n * tilt (fun n => -φ n) y (μ.1 n)))).sum -
      (Q.moves.map (fun μ => (Real.exp (-φ n) : ℂ) * (inside P μ n * tilt φ y (μ.1 n)))).sum := by
    rw [← list_sum_sub]
    congr 1
    apply List.map_congr_left
    intro μ hμ
    obtain ⟨p, hp, rfl⟩ := hT.mem hμ
    rw [wcomp_apply (hT.weight hp), tilt_apply hT.le, tilt_apply hneg, Real.sinh_eq, neg_sub, Real.exp_sub, Real.exp_sub,
      Real.exp_neg, Real.exp_neg]
    have h1 : (Real.exp (φ n) : ℂ) ≠ 0 := by exact_mod_cast (Real.exp_pos _).ne'
    have h2 : (Real.exp (φ (p.1.1 n)) : ℂ) ≠ 0 := by exact_mod_cast (Real.exp_pos _).ne'
    push_cast at h1 h2 ⊢
    field_simp
  rw [e2]
  have h1 : (Real.exp (φ n) : ℂ) * (Real.exp (-φ n) : ℂ) = 1 := by
    rw [← Complex.ofReal_mul, ← Real.exp_add]; simp
  linear_combination (0 : ℂ) * h1

/-- The solution decays like `exp (-φ)`. -/
theorem decay (hQ : Q.Ok e c) (hP : Q.Sub P B) (hT : Q.Tilt P φ D L) {z : ℂ} (hz : (L.map (·.2.1)).sum < |z.im|)
    {v : L2 ι} (hv : ∀ n, n ≠ Q.o → v n = 0) (hv1 : ‖v‖ = 1) :
    ‖tilt φ (resolvent (Q.op P) z v)‖ ≤ 1 / (|z.im| - (L.map (·.2.1)).sum) := by
  have hK0 : 0 ≤ (L.map (·.2.1)).sum := List.sum_nonneg (fun x hx => by
    obtain ⟨p, hp, rfl⟩ := List.mem_map.1 hx
    exact hT.pos p hp)
  have hz0 : z.im ≠ 0 := abs_pos.1 (hK0.trans_lt hz)
  have hneg : ∀ n, -φ n ≤ (0 : ℝ) := fun n => by linarith [hT.nonneg n]
  set K := (L.map (·.2.1)).sum with hK
  set u := resolvent (Q.op P) z v with hu
  set y := tilt φ u with hy
  have hsa := op_selfAdjoint hQ hP
  have h1 : z • u - Q.op P u = v := resolvent_apply (mem_resolventSet_of_im hsa hz0) v
  have huy : tilt (fun n => -φ n) y = u := tilt_inv hT.le hT.nonneg u
  have hWv : tilt φ v = v := by
    ext n
    rw [tilt_apply hT.le]
    by_cases h : n = Q.o
    · subst h; rw [hT.base]; simp
    · rw [hv n h, mul_zero]
  -- the quadratic form
  set F := ⟪y, tilt φ (Q.op P u)⟫_ℂ with hF
  have h2 : ⟪y, v⟫_ℂ = z * (‖y‖ : ℂ) ^ 2 - F := by
    rw [← hWv, ← h1, map_sub, map_smul, inner_sub_right, inner_smul_right, ← hy, inner_self_eq_norm_sq_to_K]
    rfl
  have h3 : F - conj F = 2 * ⟪y, Q.skew P φ y⟫_ℂ := by
    have e1 : conj F = ⟪y, tilt (fun n => -φ n) (Q.op P (tilt φ y))⟫_ℂ := by
      rw [hF, inner_conj_symm, tilt_inner hT.le]
      rw [show ⟪Q.op P u, tilt φ y⟫_ℂ = ⟪u, Q.op P (tilt φ y)⟫_ℂ from hsa.isSymmetric u (tilt φ y)]
      nth_rewrite 1 [← huy]
      rw [tilt_inner hneg]
    have e2 := congrArg (fun f => ⟪y, f⟫_ℂ) (hT.difference hQ hP y)
    simp only [inner_sub_right, inner_smul_right] at e2
    rw [e1, ← e2, huy]
  have h4 : |F.im| ≤ K * ‖y‖ ^ 2 := by
    have e1 : F - conj F = ((2 * F.im : ℝ) : ℂ) * Complex.I := Complex.sub_conj F
    have e2 : ‖F - conj F‖ = 2 * |F.im| := by
      rw [e1, norm_mul, Complex.norm_real, Complex.norm_I, mul_one, Real.norm_eq_abs, abs_mul, abs_two]
    have e3 : ‖⟪y, Q.skew P φ y⟫_ℂ‖ ≤ ‖y‖ * (K * ‖y‖) :=
      (norm_inner_le_norm _ _).trans (mul_le_mul_of_nonneg_left
        (((Q.skew P φ).le_opNorm y).trans (mul_le_mul_of_nonneg_right hT.skew_norm (norm_nonneg _))) (norm_nonneg _))
    rw [h3, norm_mul] at e2
    have e4 : ‖(2 : ℂ)‖ = 2 := by norm_num
    rw [e4] at e2
    nlinarith
  have h5 : |z.im| * ‖y‖ ^ 2 ≤ K * ‖y‖ ^ 2 + ‖y‖ := by
    have e1 : (⟪y, v⟫_ℂ).im = z.im * ‖y‖ ^ 2 - F.im := by
      rw [h2, Complex.sub_im]
      congr 1
      rw [← Complex.ofReal_pow, Complex.mul_im, Complex.ofReal_re, Complex.ofReal_im]; ring
    have e2 : |(⟪y, v⟫_ℂ).im| ≤ ‖y‖ := by
      refine (Complex.abs_im_le_norm _).trans ((norm_inner_le_norm _ _).trans ?_)
      rw [hv1, mul_one]
    have e3 : z.im * ‖y‖ ^ 2 = (⟪y, v⟫_ℂ).im + F.im := by rw [e1]; ring
    have e4 : |z.im| * ‖y‖ ^ 2 = |z.im * ‖y‖ ^ 2| := by rw [abs_mul, abs_of_nonneg (sq_nonneg ‖y‖)]
    rw [e4, e3]
    refine (abs_add_le _ _).trans ?_
    linarith
  rw [le_div_iff₀ (by linarith)]
  rcases (norm_nonneg y).eq_or_lt with h0 | h0
  · rw [← h0]; simp
  · have : ‖y‖ * (‖y‖ * (|z.im| - K)) ≤ ‖y‖ * 1 := by nlinarith
    exact le_of_mul_le_mul_left this h0

/-! ### the effect of leaving out points -/

open Classical in
/-- the moves that lead from `P'` without `P` to `P` -/
noncomputable def into (P P' : ι → Prop) (μ : (ι ≃ ι) × (ι → ℂ)) (n : ι) : ℂ :=
  if P' n ∧ ¬ P n ∧ P (μ.1 n) then μ.2 n else 0

/-- the same, divided by `exp φ` at both ends -/
noncomputable def intoT (P P' : ι → Prop) (φ : ι → ℝ) (μ : (ι ≃ ι) × (ι → ℂ)) (n : ι) : ℂ :=
  (Real.exp (-φ n) : ℂ) * into P P' μ n * (Real.exp (-φ (μ.1 n)) : ℂ)

theorem op_difference (hQ : Q.Ok e c) (hP : Q.Sub P B) (hP' : Q.Sub P' B') (hsub : ∀ n, P n → P' n) (u : L2 ι)
    (hu : ∀ n, ¬ P n → u n = 0) (n : ι) :
    (Q.op P' u - Q.op P u) n = (Q.moves.map (fun μ => into P P' μ n * u (μ.1 n))).sum := by
  show Q.op P' u n - Q.op P u n = _
  rw [op_apply hQ hP', op_apply hQ hP]
  unfold act
  have e1 : Q.diagIn P' n * u n = Q.diagIn P n * u n := by
    by_cases h : P n
    · unfold diagIn; rw [if_pos h, if_pos (hsub n h)]
    · rw [hu n h, mul_zero, mul_zero]
  have e2 : (Q.moves.map (fun μ => into P P' μ n * u (μ.1 n))).sum =
      (Q.moves.map (fun μ => inside P' μ n * u (μ.1 n))).sum - (Q.moves.map (fun μ => inside P μ n * u (μ.1 n))).sum := by
    rw [← list_sum_sub]
    congr 1
    apply List.map_congr_left
    intro μ _
    by_cases h1 : P (μ.1 n)
    · unfold into inside
      by_cases h2 : P n
      · rw [if_neg (fun q => q.2.1 h2), if_pos ⟨hsub _ h2, hsub _ h1⟩, if_pos ⟨h2, h1⟩]; ring
      · rw [if_neg (fun q : P n ∧ _ => h2 q.1)]
        by_cases h3 : P' n
        · rw [if_pos ⟨h3, h2, h1⟩, if_pos ⟨h3, hsub _ h1⟩]; ring
        · rw [if_neg (fun q => h3 q.1), if_neg (fun q => h3 q.1)]; ring
    · rw [hu _ h1]; ring
  rw [e1, e2]; ring

theorem into_bound (hQ : Q.Ok e c) (hP' : Q.Sub P' B') (hsub : ∀ n, P n → P' n) {μ} (hμ : μ ∈ Q.moves) (n : ι) :
    ‖into P P' μ n‖ ≤ c * Real.sqrt (B' + 2) := by
  have := inside_bound hQ hP' hμ n
  unfold inside at this
  unfold into
  split
  · rename_i h
    rwa [if_pos ⟨h.1, hsub _ h.2.2⟩] at this
  · rw [norm_zero]; exact (norm_nonneg _).trans this

/-- If `φ` is large wherever a move enters `P`, the Green's functions on `P` and on `P'` are close. -/
theorem green_close (hQ : Q.Ok e c) (hP : Q.Sub P B) (hP' : Q.Sub P' B') (hsub : ∀ n, P n → P' n)
    (hT : Q.Tilt P' φ D L) {z : ℂ} (hz : (L.map (·.2.1)).sum < |z.im|)
    {v : L2 ι} (hv : ∀ n, n ≠ Q.o → v n = 0) (hv1 : ‖v‖ = 1)
    (hb0 : ∀ p ∈ L, 0 ≤ p.2.2)
    (hb : ∀ p ∈ L, ∀ n, P' n → ¬ P n → P (p.1.1 n) →
      ‖p.1.2 n‖ ≤ p.2.2 * Real.exp (φ n) * Real.exp (φ (p.1.1 n))) :
    ‖⟪v, resolvent (Q.op P') z v⟫_ℂ - ⟪v, resolvent (Q.op P) z v⟫_ℂ‖ ≤
      (L.map (·.2.2)).sum / (|z.im| - (L.map (·.2.1)).sum) ^ 2 := by
  have hK0 : 0 ≤ (L.map (·.2.1)).sum := List.sum_nonneg (fun x hx => by
    obtain ⟨p, hp, rfl⟩ := List.mem_map.1 hx
    exact hT.pos p hp)
  have hb1 : 0 ≤ (L.map (·.2.2)).sum := List.sum_nonneg (fun x hx => by
    obtain ⟨p, hp, rfl⟩ := List.mem_map.1 hx
    exact hb0 p hp)
  have hz0 : z.im ≠ 0 := abs_pos.1 (hK0.trans_lt hz)
  have hT0 : Q.Tilt P φ D L := ⟨hT.list, hT.nonneg, hT.le, hT.base, hT.pos, fun μ hμ n h1 h2 =>
    hT.step μ hμ n (hsub _ h1) (hsub _ h2)⟩
  have hneg : ∀ n, -φ n ≤ (0 : ℝ) := fun n => by linarith [hT.nonneg n]
  have hsa := op_selfAdjoint hQ hP
  have hsa' := op_selfAdjoint hQ hP'
  have hzc : (conj z).im ≠ 0 := by rw [Complex.conj_im]; exact neg_ne_zero.2 hz0
  set K := (L.map (·.2.1)).sum with hK
  set u := resolvent (Q.op P) z v with hu
  set u' := resolvent (Q.op P') z v with hu'
  set x := resolvent (Q.op P') (conj z) v with hx
  have h1 : z • u - Q.op P u = v := resolvent_apply (mem_resolventSet_of_im hsa hz0) v
  have h1' : z • u' - Q.op P' u' = v := resolvent_apply (mem_resolventSet_of_im hsa' hz0) v
  have h1x : conj z • x - Q.op P' x = v := resolvent_apply (mem_resolventSet_of_im hsa' hzc) v
  have h2 : ‖tilt φ u‖ ≤ 1 / (|z.im| - K) := decay hQ hP hT0 hz hv hv1
  have h2x : ‖tilt φ x‖ ≤ 1 / (|z.im| - K) := by
    have := decay hQ hP' hT (z := conj z) (by rw [Complex.conj_im, abs_neg]; exact hz) hv hv1
    rwa [Complex.conj_im, abs_neg] at this
  have huP : ∀ n, ¬ P n → u n = 0 := fun n hn => off hQ hP hz0 hv hn
  -- the second resolvent identity
  have h3 : ⟪v, u'⟫_ℂ - ⟪v, u⟫_ℂ = ⟪x, Q.op P' u - Q.op P u⟫_ℂ := by
    rw [← inner_sub_right]
    nth_rewrite 1 [← h1x]
    rw [inner_sub_left, inner_smul_left, Complex.conj_conj, ← inner_smul_right,
      show ⟪Q.op P' x, u' - u⟫_ℂ = ⟪x, Q.op P' (u' - u)⟫_ℂ from hsa'.isSymmetric x (u' - u), ← inner_sub_right]
    congr 1
    rw [smul_sub, map_sub, sub_sub_sub_comm, h1', ← h1]
    abel
  have hiT : ∀ p ∈ L, ∀ n, ‖intoT P P' φ p.1 n‖ ≤ p.2.2 := fun p hp n => by
    unfold intoT into
    rw [norm_mul, norm_mul, Complex.norm_real, Complex.norm_real, Real.norm_of_nonneg (Real.exp_pos _).le,
      Real.norm_of_nonneg (Real.exp_pos _).le]
    split
    · rename_i h
      have := hb p hp n h.1 h.2.1 h.2.2
      calc Real.exp (-φ n) * ‖p.1.2 n‖ * Real.exp (-φ (p.1.1 n))
          ≤ Real.exp (-φ n) * (p.2.2 * Real.exp (φ n) * Real.exp (φ (p.1.1 n))) * Real.exp (-φ (p.1.1 n)) := by gcongr
        _ = p.2.2 * (Real.exp (-φ n) * Real.exp (φ n)) * (Real.exp (φ (p.1.1 n)) * Real.exp (-φ (p.1.1 n))) := by ring
        _ = p.2.2 := by rw [← Real.exp_add, ← Real.exp_add]; simp
    · rw [norm_zero, mul_zero, zero_mul]; exact hb0 p hp
  have h4 : Q.op P' u - Q.op P u =
      tilt φ ((Q.moves.map (fun μ => wcomp (intoT P P' φ μ) μ.1)).sum (tilt φ u)) := by
    ext n
    rw [op_difference hQ hP hP' hsub u huP, tilt_apply hT.le, coe_sum, ← list_sum_mul]
    congr 1
    apply List.map_congr_left
    intro μ hμ
    obtain ⟨p, hp, rfl⟩ := hT.mem hμ
    rw [wcomp_apply (hiT p hp), tilt_apply hT.le]
    unfold intoT
    rw [Real.exp_neg, Real.exp_neg]
    have q1 : (Real.exp (φ n) : ℂ) ≠ 0 := by exact_mod_cast (Real.exp_pos _).ne'
    have q2 : (Real.exp (φ (p.1.1 n)) : ℂ) ≠ 0 := by exact_mod_cast (Real.exp_pos _).ne'
    push_cast at q1 q2 ⊢
    field_simp
  have h5 : ‖(Q.moves.map (fun μ => wcomp (intoT P P' φ μ) μ.1)).sum‖ ≤ (L.map (·.2.2)).sum := by
    rw [← hT.list, List.map_map]
    exact norm_list_sum _ _ _ (fun p hp => wcomp_norm (hb0 p hp) (hiT p hp) _)
  have hpos : 0 < |z.im| - K := by linarith
  rw [h3, h4, ← tilt_inner hT.le]
  refine (norm_inner_le_norm _ _).trans ?_
  calc ‖tilt φ x‖ * ‖(Q.moves.map (fun μ => wcomp (intoT P P' φ μ) μ.1)).sum (tilt φ u)‖
      ≤ 1 / (|z.im| - K) * ((L.map (·.2.2)).sum * (1 / (|z.im| - K))) := by
        refine mul_le_mul h2x ?_ (norm_nonneg _) (by positivity)
        refine (ContinuousLinearMap.le_opNorm _ _).trans ?_
        exact mul_le_mul h5 h2 (norm_nonneg _) hb1
    _ = _ := by field_simp

end Hops
end GGCE
