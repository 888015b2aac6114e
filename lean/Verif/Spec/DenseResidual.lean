import Verif.Spec.Residual
import Verif.Model.Solver

/-!
How well matrices `R̃_n` and a number `G̃` satisfy the relations of the continued fraction. Nothing is said about where
they come from.
-/

namespace GGCE.Spec

variable {d : ℕ → ℕ}

/-- `(Σ_i |v_i|²)^(1/2)` -/
noncomputable def colNorm {n : ℕ} (v : Fin n → ℂ) : ℝ := √(∑ i, ‖v i‖ ^ 2)

/-- `(Σ_{ij} |M_ij|²)^(1/2)` -/
noncomputable def frob {r c : ℕ} (M : Matrix (Fin r) (Fin c) ℂ) : ℝ := √(∑ i, ∑ j, ‖M i j‖ ^ 2)

/-- `R̃_n ⋯ R̃_1 G̃`: the amplitudes with `n` phonons that the matrices stand for. `Rt n` is `R̃_{n+1}`. -/
noncomputable def carried (Rt : ∀ n, Matrix (Fin (d (n + 1))) (Fin (d n)) ℂ) (G : ℂ) : (n : ℕ) → Fin (d n) → ℂ
  | 0 => fun _ => G
  | n + 1 => (Rt n).mulVec (carried Rt G n)

/-- What is left of `(1 - β_n R̃_{n+1}) R̃_n = α_n`, or of `R̃_N = α_N`, at the level of `n + 1` phonons: `A n` is
`α_{n+1}`, `B n` is `β_n`, `N` is the largest number of phonons. -/
noncomputable def levelDefect (A : ∀ n, Matrix (Fin (d (n + 1))) (Fin (d n)) ℂ)
    (B : ∀ n, Matrix (Fin (d n)) (Fin (d (n + 1))) ℂ) (Rt : ∀ n, Matrix (Fin (d (n + 1))) (Fin (d n)) ℂ)
    (N n : ℕ) : Matrix (Fin (d (n + 1))) (Fin (d n)) ℂ :=
  if n + 1 < N then (1 - B (n + 1) * Rt (n + 1)) * Rt n - A n else Rt n - A n

/-- what is left of `(1 - β_0 R̃_1) G̃ = G_0` -/
noncomputable def topDefect (B : ∀ n, Matrix (Fin (d n)) (Fin (d (n + 1))) ℂ)
    (Rt : ∀ n, Matrix (Fin (d (n + 1))) (Fin (d n)) ℂ) (i : Fin (d 0)) (g0 G : ℂ) : ℂ :=
  (1 - (B 0 * Rt 0) i i) * G - g0

/-- The blocks that `_get_alpha` and `_get_beta` compute, for the numbers of phonons that occur. -/
structure IsBlocks {R : Type} [Field R] [LinearOrder R] (F : Phys R ℂ) (m : Model R) (p : Point R)
    (eqs : Dict Nat (List (Equation R)))
    (A : ∀ n, Matrix (Fin (blockDim (localBasis eqs) (n + 1))) (Fin (blockDim (localBasis eqs) n)) ℂ)
    (B : ∀ n, Matrix (Fin (blockDim (localBasis eqs) n)) (Fin (blockDim (localBasis eqs) (n + 1))) ℂ) : Prop where
  alpha : ∀ n < m.number.sum.toNat, ∃ ts, fillMatrix F m p (localBasis eqs) eqs (n + 1) n = .ok ts ∧
    A n = toMatrix _ _ ts
  beta : ∀ n < m.number.sum.toNat, ∃ ts, fillMatrix F m p (localBasis eqs) eqs n (n + 1) = .ok ts ∧
    B n = toMatrix _ _ ts

end GGCE.Spec
