import Verif.Spec.Stability
import Verif.Spec.Rhs
import Mathlib.Analysis.SpecialFunctions.Trigonometric.Basic

/-! What is asked of floating-point arithmetic, and the error bound of a coefficient. -/

namespace GGCE.Spec
open Complex

/-- An arithmetic with unit roundoff `u` for the elementary complex operations, and relative error `v` of powers,
absolute error `v` of cosine and phase. (Double precision: `u ≈ 3e-16`.) -/
structure Arithmetic (u v : ℝ) (fl : ℕ → ℂ → ℂ) (pw : ℂ → ℝ → ℂ) (cs : ℝ → ℝ) (ex : ℝ → ℂ) : Prop where
  unit : 0 ≤ u ∧ u ≤ 1 / 8
  lib : 0 ≤ v ∧ v ≤ 1
  op : ∀ i z, ‖fl i z - z‖ ≤ u * ‖z‖
  pow : ∀ (b : ℂ) (n : ℕ), ‖pw b n - b ^ n‖ ≤ v * ‖b ^ n‖
  cos : ∀ x, |cs x - Real.cos x| ≤ v
  exp : ∀ x : ℝ, ‖ex x - Complex.exp (I * x)‖ ≤ v

/-- the largest phonon energy `Σ_T |Ω_T| N_T` -/
noncomputable def topEnergy (m : Model ℝ) : ℝ :=
  ((List.range m.nTypes).map (fun i => |m.ham.freqs.getD i 0| * maxNumber m i)).sum

/-- a bound on all energies in the coefficients at a point -/
noncomputable def energyScale (m : Model ℝ) (p : Point ℝ) : ℝ := 2 * |m.ham.hopping| + |p.w| + topEnergy m + p.eta

/-- a bound on the distances in the free propagators, when the (doubled) shifts are at most `s` -/
def hopBound (s : ℕ) (ae : Int) : ℕ := (3 * s + 4 * (ae - 1).toNat) / 2

/-- error of a free propagator: over at most `n` sites, at energies up to `D`, with bandwidth `2 B` -/
noncomputable def propError (n : ℕ) (u v D B eta : ℝ) : ℝ :=
  (81 * n * u * D ^ 2 / (B * eta) + 32 * u * D ^ 2 / eta ^ 2 + 7 * v * D / eta) / eta

end GGCE.Spec
