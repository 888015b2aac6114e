import Verif.Props.Physics
import Mathlib.Analysis.Normed.Group.InfiniteSum

/-! Summable functions on the chain and the kinetic energy of the electron. -/

namespace GGCE

open Complex ComplexConjugate

/-- products with a shifted copy are summable -/
theorem summable_mul_shift {f : ℤ → ℂ} (hf : Summable (fun j => ‖f j‖)) (s : ℤ) :
    Summable (fun j => conj (f j) * f (j + s)) := by
  have hs : Summable (fun j => ‖f (j + s)‖) := (Equiv.addRight s).summable_iff.2 hf
  obtain ⟨M, hM⟩ : ∃ M, ∀ j, ‖f j‖ ≤ M := by
    refine ⟨∑' j, ‖f j‖, fun j => ?_⟩
    exact hf.le_tsum j (fun _ _ => norm_nonneg _)
  refine Summable.of_norm_bounded (g := fun j => M * ‖f (j + s)‖) (hs.mul_left M) ?_
  intro j
  rw [norm_mul, RCLike.norm_conj]
  exact mul_le_mul_of_nonneg_right (hM j) (norm_nonneg _)

theorem summable_normSq {f : ℤ → ℂ} (hf : Summable (fun j => ‖f j‖)) :
    Summable (fun j => normSq (f j)) := by
  have h := (summable_mul_shift hf 0).norm
  refine h.congr (fun j => ?_)
  simp [norm_mul, ← Complex.normSq_eq_norm_sq, ← pow_two]

/-- the kinetic energy and the real part of the energy do not contribute to the imaginary part -/
theorem im_energy {f c : ℤ → ℂ} (hf : Summable (fun j => ‖f j‖)) (z : ℂ) (t : ℝ)
    (h : ∀ j, z * f j + t * (f (j - 1) + f (j + 1)) = c j) :
    Summable (fun j => conj (f j) * c j) ∧
    (∑' j, conj (f j) * c j).im = z.im * ∑' j, normSq (f j) := by
  have s0 := summable_mul_shift hf 0
  have s1 := summable_mul_shift hf 1
  have s2 := summable_mul_shift hf (-1)
  have e2 : ∑' j, conj (f j) * f (j + -1) = conj (∑' j, conj (f j) * f (j + 1)) := by
    rw [Complex.conj_tsum, ← (Equiv.addRight (1 : ℤ)).tsum_eq (fun j => conj (f j) * f (j + -1))]
    apply tsum_congr
    intro j
    simp only [Equiv.coe_addRight, map_mul, Complex.conj_conj, add_neg_cancel_right]
    ring
  have e0 : ∑' j, conj (f j) * f (j + 0) = ((∑' j, normSq (f j) : ℝ) : ℂ) := by
    rw [Complex.ofReal_tsum]
    apply tsum_congr
    intro j
    rw [add_zero, Complex.normSq_eq_conj_mul_self]
  have hfun : (fun j => conj (f j) * c j) =
      fun j => z * (conj (f j) * f (j + 0)) + t * (conj (f j) * f (j + -1) + conj (f j) * f (j + 1)) := by
    funext j
    rw [← h j, add_zero, sub_eq_add_neg]; ring
  have hs : Summable (fun j => z * (conj (f j) * f (j + 0)) +
      t * (conj (f j) * f (j + -1) + conj (f j) * f (j + 1))) :=
    (s0.mul_left z).add ((s2.add s1).mul_left _)
  rw [hfun]
  refine ⟨hs, ?_⟩
  rw [Summable.tsum_add (s0.mul_left z) ((s2.add s1).mul_left _), tsum_mul_left, tsum_mul_left,
    Summable.tsum_add s2 s1, e0, e2]
  have : ((t : ℂ) * (conj (∑' j, conj (f j) * f (j + 1)) + ∑' j, conj (f j) * f (j + 1))).im = 0 := by
    rw [add_comm, Complex.add_conj]
    simp
  rw [add_im, this, add_zero, mul_im]
  simp

/-- `g0` is summable over the chain and propagates, for zero hopping or positive hopping and unit
lattice constant -/
theorem g0_good {w a eta t : ℝ} (he : 0 < eta) (h : t = 0 ∨ (0 < t ∧ a = 1)) :
    Props.Propagates (w + eta * I) t (fun d : ℤ => realPhys.g0 d w a eta t) ∧
    Summable (fun d : ℤ => ‖realPhys.g0 d w a eta t‖) := by
  rcases h with rfl | ⟨ht, rfl⟩
  · have hg : ∀ d : ℤ, realPhys.g0 d w a eta 0 = if d = 0 then 1 / ((w : ℂ) + eta * I) else 0 := by
      intro d
      show g0R _ _ _ _ _ = _
      unfold g0R
      rw [if_pos rfl]
      by_cases hd : d = 0
      · subst hd; simp
      · have : (d : ℝ) ≠ 0 := by exact_mod_cast hd
        rw [if_pos this, if_neg hd]
    have hz : (w : ℂ) + eta * I ≠ 0 := by
      intro e
      have := congrArg Complex.im e
      simp at this
      exact he.ne' this
    refine ⟨?_, ?_⟩
    · intro d
      simp only [hg]
      by_cases hd : d = 0
      · rw [if_pos hd, if_pos hd, mul_one_div_cancel hz]; simp
      · rw [if_neg hd, if_neg hd]; simp
    · apply summable_of_ne_finset_zero (s := {0})
      intro d hd
      rw [hg, if_neg (by simpa using hd), norm_zero]
  · obtain ⟨h1, ⟨r, hr0, hr1, hr⟩, -⟩ := Props.C24_propagator w eta t he ht
    refine ⟨h1, ?_⟩
    simp only [hr]
    apply Summable.mul_left
    have hgeo : Summable (fun n : ℕ => r ^ n) := summable_geometric_of_lt_one hr0.le hr1
    refine Summable.of_nat_of_neg (f := fun d : ℤ => r ^ d.natAbs) ?_ ?_
    · simpa using hgeo
    · simpa using hgeo

end GGCE
