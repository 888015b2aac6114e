import Verif.Spec.Fpu
import Verif.Spec.DenseResidual
import Verif.Model.FloatDense

/-! What is asked of the matrix operations of numpy and LAPACK. -/

namespace GGCE.Spec

/-- Accuracy `u`, which includes the modest factors that grow with the size of the matrices. Products of matrices have
the usual componentwise error (or an absolute one, from underflow). `linalg.solve` is backward stable; it may refuse
matrices that are singular within the accuracy. -/
structure LibTo (u : ℝ) (L : DenseLib ℂ) : Prop where
  matmul : ∀ {r s c : ℕ} (A : Matrix (Fin r) (Fin s) ℂ) (B : Matrix (Fin s) (Fin c) ℂ) i j,
    ‖L.matmul A B i j - (A * B) i j‖ ≤ u * (∑ k, ‖A i k‖ * ‖B k j‖) + u
  solve : ∀ {r c : ℕ} (X : Matrix (Fin r) (Fin r) ℂ) (A : Matrix (Fin r) (Fin c) ℂ),
    X.det ≠ 0 → u * (frob X * frob X⁻¹) < 1 →
    ∃ Y, L.solve X A = .ok Y ∧ frob (X * Y - A) ≤ u * (frob X * frob Y + frob A)
  sub : ∀ a b, ‖L.sub a b - (a - b)‖ ≤ u * ‖a - b‖
  div : ∀ a b, b ≠ 0 → ‖L.div a b - a / b‖ ≤ u * ‖a / b‖

end GGCE.Spec
