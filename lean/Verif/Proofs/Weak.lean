import Verif.Proofs.Decay
import Verif.Proofs.SelfEnergy

/-!
The Green's function of a Hamiltonian and that of its restriction to at most one phonon differ in fourth order only:
the first correction would have to start and end with at most one phonon, and what is left out always leads to two.
-/

set_option linter.unusedSectionVars false

namespace GGCE
namespace Hops
open ComplexConjugate
open scoped InnerProductSpace

variable {ι : Type} {Q : Hops ι} {e c : ℝ} {P P1 : ι → Prop} {B B1 : ℝ}

/-- `P1` is the part of `P` with at most one phonon; the list `L` contains the moves with bounds for the weights of those
moves that lead out of `P1`. -/
structure Core (Q : Hops ι) (P P1 : ι → Prop) (L : List (((ι ≃ ι) × (ι → ℂ)) × ℝ)) : Prop where
  sub : ∀ n, P1 n → P n
  many : ∀ n, P n → ¬ P1 n → 2 ≤ Q.N n
  list : L.map (·.1) = Q.moves
  pos : ∀ p ∈ L, 0 ≤ p.2
  weight : ∀ p ∈ L, ∀ n, P n → ¬ P1 n → P1 (p.1.1 n) → ‖p.1.2 n‖ ≤ p.2

variable {L : List (((ι ≃ ι) × (ι → ℂ)) × ℝ)}

open Classical in
/-- the weight of a move from outside `P1` into it -/
noncomputable def edge (P P1 : ι → Prop) (μ : (ι ≃ ι) × (ι → ℂ)) (n : ι) : ℂ :=
  if P n ∧ ¬ P1 n ∧ P1 (μ.1 n) then μ.2 n else 0

theorem Core.edge_le (hC : Q.Core P P1 L) {p} (hp : p ∈ L) (n : ι) : ‖edge P P1 p.1 n‖ ≤ p.2 := by
  unfold edge
  split
  · rename_i h; exact hC.weight p hp n h.1 h.2.1 h.2.2
  · rw [norm_zero]; exact hC.pos p hp

/-- the moves from outside `P1` into it -/
noncomputable def edges (Q : Hops ι) (P P1 : ι → Prop) : L2 ι →L[ℂ] L2 ι :=
  (Q.moves.map (fun μ => wcomp (edge P P1 μ) μ.1)).sum

theorem Core.edges_norm (hC : Q.Core P P1 L) : ‖Q.edges P P1‖ ≤ (L.map (·.2)).sum := by
  unfold edges
  rw [← hC.list, List.map_map]
  exact norm_list_sum _ _ _ (fun p hp => wcomp_norm (hC.pos p hp) (hC.edge_le hp) _)

theorem Core.edges_apply (hC : Q.Core P P1 L) (f : L2 ι) (n : ι) :
    Q.edges P P1 f n = (Q.moves.map (fun μ => edge P P1 μ n * f (μ.1 n))).sum := by
  unfold edges
  rw [coe_sum]
  congr 1
  refine List.map_congr_left (fun μ hμ => ?_)
  rw [← hC.list] at hμ
  obtain ⟨p, hp, rfl⟩ := List.mem_map.1 hμ
  rw [wcomp_apply (hC.edge_le hp)]

/-- On families that vanish outside `P1`, the Hamiltonian is its restriction plus the moves out of it. -/
theorem Core.op_eq (hQ : Q.Ok e c) (hP : Q.Sub P B) (hP1 : Q.Sub P1 B1) (hC : Q.Core P P1 L) {f : L2 ι}
    (hf : ∀ n, ¬ P1 n → f n = 0) : Q.op P f = Q.op P1 f + Q.edges P P1 f := by
  ext n
  show Q.op P f n = Q.op P1 f n + Q.edges P P1 f n
  rw [op_apply hQ hP, op_apply hQ hP1, hC.edges_apply]
  unfold act
  have hd : Q.diagIn P n * f n = Q.diagIn P1 n * f n := by
    unfold diagIn
    by_cases h1 : P1 n
    · rw [if_pos h1, if_pos (hC.sub n h1)]
    · rw [hf n h1, mul_zero, mul_zero]
  rw [hd, add_assoc]
  congr 1
  have : ∀ l : List ((ι ≃ ι) × (ι → ℂ)), (l.map (fun μ => inside P μ n * f (μ.1 n))).sum =
      (l.map (fun μ => inside P1 μ n * f (μ.1 n))).sum + (l.map (fun μ => edge P P1 μ n * f (μ.1 n))).sum := by
    intro l
    induction l with
    | nil => simp
    | cons μ l ih =>
      simp only [List.map_cons, List.sum_cons]
      rw [ih]
      have h : inside P μ n * f (μ.1 n) = inside P1 μ n * f (μ.1 n) + edge P P1 μ n * f (μ.1 n) := by
        by_cases h2 : P1 (μ.1 n)
        · rw [← add_mul]
          congr 1
          unfold inside edge
          have h2' := hC.sub _ h2
          by_cases h3 : P1 n
          · rw [if_pos ⟨hC.sub _ h3, h2'⟩, if_pos ⟨h3, h2⟩, if_neg (fun q => q.2.1 h3), add_zero]
          · rw [if_neg (fun q : P1 n ∧ P1 (μ.1 n) => h3 q.1), zero_add]
            by_cases h4 : P n
            · rw [if_pos ⟨h4, h2'⟩, if_pos ⟨h4, h3, h2⟩]
            · rw [if_neg (fun q => h4 q.1), if_neg (fun q => h4 q.1)]
        · rw [hf _ h2, mul_zero, mul_zero, mul_zero, add_zero]
      rw [h]
      ring
  exact this _

theorem Core.edges_off (hC : Q.Core P P1 L) (f : L2 ι) {n : ι} (hn : P1 n) : Q.edges P P1 f n = 0 := by
  rw [hC.edges_apply]
  refine List.sum_eq_zero (fun x hx => ?_)
  obtain ⟨μ, -, rfl⟩ := List.mem_map.1 hx
  unfold edge
  rw [if_neg (fun q => q.2.1 hn), zero_mul]

/-- The bare state does not take part in the moves out of `P1`. -/
theorem Core.edges_bare (hQ : Q.Ok e c) (hP : Q.Sub P B) (hC : Q.Core P P1 L) {v : L2 ι}
    (hv : ∀ n, n ≠ Q.o → v n = 0) : Q.edges P P1 v = 0 := by
  ext n
  rw [hC.edges_apply]
  refine List.sum_eq_zero (fun x hx => ?_)
  obtain ⟨μ, hμ, rfl⟩ := List.mem_map.1 hx
  by_cases h : μ.1 n = Q.o
  · unfold edge
    split
    · rename_i q
      have h1 := hC.many n q.1 q.2.1
      have h2 := hQ.step μ hμ n (hP.sub _ q.1) (hP.sub _ (hC.sub _ q.2.2))
      rw [h, hQ.baseN, zero_sub, abs_neg, abs_of_nonneg (by linarith)] at h2
      linarith
    · rw [zero_mul]
  · rw [hv _ h, mul_zero]

/-- the part of the response with phonons -/
theorem part_norm {H : L2 ι →L[ℂ] L2 ι} (hH : IsSelfAdjoint H) {v : L2 ι} (hv1 : ‖v‖ = 1) {z : ℂ} (hz : z.im ≠ 0) :
    ‖resolvent H z v - green H v z • v‖ ^ 2 = -(green H v z).im / z.im - ‖green H v z‖ ^ 2 := by
  have him := green_im hH v hz
  rw [him, neg_neg, mul_div_cancel_left₀ _ hz]
  have hg : ⟪v, resolvent H z v⟫_ℂ = green H v z := rfl
  rw [@norm_sub_sq ℂ, inner_smul_right, norm_smul, hv1, mul_one, ← inner_conj_symm, hg, Complex.mul_conj]
  have : (RCLike.re ((Complex.normSq (green H v z) : ℝ) : ℂ) : ℝ) = ‖green H v z‖ ^ 2 := by
    rw [Complex.normSq_eq_norm_sq]; exact Complex.ofReal_re _
  rw [this]
  ring

/-- The Green's functions differ in fourth order. -/
theorem Core.weak (hQ : Q.Ok e c) (hP : Q.Sub P B) (hP1 : Q.Sub P1 B1) (hC : Q.Core P P1 L) {v : L2 ι}
    (hv : ∀ n, n ≠ Q.o → v n = 0) (hv1 : ‖v‖ = 1) {z : ℂ} (hz : 0 < z.im) :
    ‖green (Q.op P) v z - green (Q.op P1) v z‖ ≤
      (L.map (·.2)).sum ^ 2 / z.im * (-(green (Q.op P1) v z).im / z.im - ‖green (Q.op P1) v z‖ ^ 2) := by
  have hz' : (conj z).im ≠ 0 := by rw [Complex.conj_im]; exact neg_ne_zero.2 hz.ne'
  have hsa := op_selfAdjoint hQ hP
  have hsa1 := op_selfAdjoint hQ hP1
  set K := (L.map (·.2)).sum with hK
  have hK0 : 0 ≤ K := List.sum_nonneg (fun x hx => by
    obtain ⟨p, hp, rfl⟩ := List.mem_map.1 hx; exact hC.pos p hp)
  set D := Q.edges P P1 with hD
  set x := resolvent (Q.op P) z v with hx
  set x1 := resolvent (Q.op P1) z v with hx1
  set y1 := resolvent (Q.op P1) (conj z) v with hy1
  have r := mem_resolventSet_of_im hsa hz.ne'
  have ex : z • x - Q.op P x = v := resolvent_apply r v
  have ex1 : z • x1 - Q.op P1 x1 = v := resolvent_apply (mem_resolventSet_of_im hsa1 hz.ne') v
  have ey1 : conj z • y1 - Q.op P1 y1 = v := resolvent_apply (mem_resolventSet_of_im hsa1 hz') v
  have ox1 : ∀ n, ¬ P1 n → x1 n = 0 := fun n hn => off hQ hP1 hz.ne' hv hn
  have oy1 : ∀ n, ¬ P1 n → y1 n = 0 := fun n hn => off hQ hP1 hz' hv hn
  have dx1 := hC.op_eq hQ hP hP1 ox1
  have dy1 := hC.op_eq hQ hP hP1 oy1
  have hdiff : x - x1 = resolvent (Q.op P) z (D x1) := by
    refine resolvent_unique r ?_
    have : z • (x - x1) - Q.op P (x - x1) = (z • x - Q.op P x) - (z • x1 - Q.op P x1) := by
      rw [smul_sub, map_sub]; abel
    rw [this, ex, dx1, ← sub_sub, ex1]
    abel
  set d := resolvent (Q.op P) z (D x1) with hd
  have ed : z • d - Q.op P d = D x1 := resolvent_apply r _
  have hzero : ⟪y1, D x1⟫_ℂ = 0 := by
    rw [lp.inner_eq_tsum]
    refine (tsum_congr (fun n => ?_)).trans tsum_zero
    by_cases h : P1 n
    · rw [hD, hC.edges_off x1 h, inner_zero_right]
    · rw [oy1 n h, inner_zero_left]
  have hkey : green (Q.op P) v z - green (Q.op P1) v z = ⟪D y1, d⟫_ℂ := by
    unfold green
    rw [← hx, ← hx1, ← inner_sub_right, hdiff]
    have h1 : v = (conj z • y1 - Q.op P y1) + D y1 := by
      rw [dy1, ← ey1]; abel
    nth_rewrite 1 [h1]
    rw [inner_add_left, inner_sub_left, inner_smul_left, Complex.conj_conj,
      show ⟪Q.op P y1, d⟫_ℂ = ⟪y1, Q.op P d⟫_ℂ from hsa.isSymmetric y1 d, ← inner_smul_right, ← inner_sub_right, ed, hzero,
      zero_add]
  have hbare := hC.edges_bare hQ hP hv
  have hnorm : ∀ {s : ℂ}, s.im ≠ 0 → ‖D (resolvent (Q.op P1) s v)‖ ^ 2 ≤
      K ^ 2 * (-(green (Q.op P1) v s).im / s.im - ‖green (Q.op P1) v s‖ ^ 2) := by
    intro s hs
    rw [← part_norm hsa1 hv1 hs, ← mul_pow]
    refine pow_le_pow_left₀ (norm_nonneg _) ?_ 2
    have : D (resolvent (Q.op P1) s v) = D (resolvent (Q.op P1) s v - green (Q.op P1) v s • v) := by
      rw [map_sub, map_smul, hD, hbare, smul_zero, sub_zero]
    rw [this]
    exact (D.le_opNorm _).trans (mul_le_mul_of_nonneg_right hC.edges_norm (norm_nonneg _))
  have n1 := hnorm hz.ne'
  have n2 := hnorm hz'
  rw [green_conj hsa1 v hz.ne', Complex.conj_im, Complex.conj_im, Complex.norm_conj, neg_neg] at n2
  rw [← hx1] at n1
  rw [← hy1] at n2
  set W := -(green (Q.op P1) v z).im / z.im - ‖green (Q.op P1) v z‖ ^ 2 with hW
  have n2' : ‖D y1‖ ^ 2 ≤ K ^ 2 * W := by
    rw [hW]
    have : (green (Q.op P1) v z).im / -z.im = -(green (Q.op P1) v z).im / z.im := by
      rw [div_neg, neg_div]
    rw [this] at n2
    exact n2
  rw [hkey]
  have h3 : ‖d‖ ≤ ‖D x1‖ / z.im := by
    have := resolvent_norm_le hsa hz.ne' (D x1)
    rwa [abs_of_pos hz] at this
  refine (norm_inner_le_norm _ _).trans ((mul_le_mul_of_nonneg_left h3 (norm_nonneg _)).trans ?_)
  rw [← mul_div_assoc, div_mul_eq_mul_div]
  refine div_le_div_of_nonneg_right ?_ hz.le
  nlinarith [sq_nonneg (‖D y1‖ - ‖D x1‖)]

end Hops
end GGCE
