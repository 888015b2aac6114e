import Verif.Spec.Textbook

/-!
The ground-state energy of a Hamiltonian on the chain, for one electron and any number of phonons.
-/

namespace GGCE.Spec
open ComplexConjugate

/-- `⟨ψ|φ⟩`: different vectors `c†_e Π (b†)^n |0⟩` are orthogonal, and their squared length is `Π n!` -/
noncomputable def overlap (ψ φ : Fock) : ℂ := φ.sum fun s z => conj (ψ s) * z * lengthSq s.2

/-- `e` is a lower bound of `⟨ψ|H|ψ⟩ / ⟨ψ|ψ⟩` over the superpositions of finitely many vectors, each with one electron
anywhere on the chain and finitely many phonons in the first `K` branches -/
def LowerBound (H : Fock →ₗ[ℂ] Fock) (K : ℕ) (e : ℝ) : Prop :=
  ∀ ψ : Fock, (∀ s ∈ ψ.support, FinitelyMany K s.2) → e * (overlap ψ ψ).re ≤ (overlap ψ (H ψ)).re

/-- `e` is the ground-state energy: the largest lower bound -/
def ChainGround (H : Fock →ₗ[ℂ] Fock) (K : ℕ) (e : ℝ) : Prop :=
  LowerBound H K e ∧ ∀ e', LowerBound H K e' → e' ≤ e

end GGCE.Spec
