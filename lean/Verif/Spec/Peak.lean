import Verif.Spec.Operator

/-! Bound states at an energy, and the weight of the electron without phonons in them. -/

namespace GGCE.Spec

/-- `ψ` is a state of crystal momentum `k` with the energy `E`: an eigenvector of the restricted Hamiltonian. -/
def EigenState (m : Model ℝ) (ae : ℤ) (k E : ℝ) (ψ : States) : Prop :=
  ∀ n, frame m ae k ψ n = E * ψ n

/-- `Z` is the weight of the electron without phonons in the states of energy `E`: no state of energy `E` has
a larger overlap, and, unless `Z` is zero, one has this overlap. -/
structure PeakWeight (m : Model ℝ) (ae : ℤ) (k E Z : ℝ) : Prop where
  nonneg : 0 ≤ Z
  bound : ∀ ψ : States, EigenState m ae k E ψ → ‖ψ 0‖ ^ 2 ≤ Z * ‖ψ‖ ^ 2
  attained : Z = 0 ∨ ∃ ψ : States, ‖ψ‖ = 1 ∧ EigenState m ae k E ψ ∧ ‖ψ 0‖ ^ 2 = Z

end GGCE.Spec
