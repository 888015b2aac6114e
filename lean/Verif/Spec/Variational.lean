import Verif.Spec.Operator
import Verif.Spec.Untruncated
import Mathlib.Data.Finsupp.Defs

/-! Energies of trial states, and the ground-state energy of the restricted Hamiltonian. -/

namespace GGCE.Spec
open ComplexConjugate

/-- `⟨f|f⟩` for a state with finitely many amplitudes -/
noncomputable def weightOf (f : Occ →₀ ℂ) : ℝ := ∑ n ∈ f.support, ‖f n‖ ^ 2

/-- `⟨f|H|f⟩` for a state of momentum `k` with finitely many amplitudes -/
noncomputable def trialEnergy (m : Model ℝ) (ae : ℤ) (k : ℝ) (f : Occ →₀ ℂ) : ℝ :=
  (∑ n ∈ f.support, conj (f n) * frame m ae k f n).re

/-- no state of any momentum, made of phonon occupations inside the limits, has an energy below `e` -/
def BoundedBelow (m : Model ℝ) (ae : ℤ) (e : ℝ) : Prop :=
  ∀ (k : ℝ) (f : Occ →₀ ℂ), (∀ n ∈ f.support, Allowed m ae n) → e * weightOf f ≤ trialEnergy m ae k f

/-- `e` is the energy of the ground state: the largest lower bound of the energies of all states -/
def GroundEnergy (m : Model ℝ) (ae : ℤ) (e : ℝ) : Prop :=
  BoundedBelow m ae e ∧ ∀ e', BoundedBelow m ae e' → e' ≤ e

/-- occupations that the Hamiltonian links to the state without phonons -/
inductive Linked (m : Model ℝ) (ae : ℤ) : Occ → Prop
  | zero : Linked m ae 0
  | right {n : Occ} : 0 < m.ham.hopping → Linked m ae (n.shift 1) → Linked m ae n
  | left {n : Occ} : 0 < m.ham.hopping → Linked m ae (n.shift (-1)) → Linked m ae n
  | term {n : Occ} {h : SingleTerm ℝ} : h ∈ m.ham.terms → h.coupling ≠ 0 → Allowed m ae n → Linked m ae (jump h n) →
      Linked m ae n

/-- `⟨f|H|f⟩` for the Hamiltonian without limits -/
noncomputable def exactEnergy (m : Model ℝ) (k : ℝ) (f : Occ →₀ ℂ) : ℝ :=
  (∑ n ∈ f.support, conj (f n) * frameAll m k f n).re

/-- `e` is the energy of the ground state of the Hamiltonian without limits: the largest lower bound of the energies of all
states with finitely many amplitudes, each with finitely many phonons -/
def ExactGround (m : Model ℝ) (e : ℝ) : Prop :=
  (∀ (k : ℝ) (f : Occ →₀ ℂ), (∀ n ∈ f.support, Conceivable m n) → e * weightOf f ≤ exactEnergy m k f) ∧
    ∀ e', (∀ (k : ℝ) (f : Occ →₀ ℂ), (∀ n ∈ f.support, Conceivable m n) → e' * weightOf f ≤ exactEnergy m k f) → e' ≤ e

end GGCE.Spec
