import Mathlib.Analysis.SpecialFunctions.Integrals.Basic
import Mathlib.MeasureTheory.Integral.IntervalIntegral.Basic
import Mathlib.Analysis.SpecialFunctions.Trigonometric.Basic

/-!
The momentum-average approximation of the literature (Berciu, PRL 97, 036402 (2006), "MA"), for the Holstein
polaron on a chain: the self-energy is a continued fraction of the local free propagator.
-/

namespace GGCE.Spec
open Real

/-- the momentum average of the free propagator, `1/2π ∫ dq 1/(z + 2t cos q)` -/
noncomputable def localG (t : ℝ) (z : ℂ) : ℂ :=
  1 / (2 * π) * ∫ q in (-π)..π, 1 / (z + 2 * t * Real.cos q)

/-- `Σ_n = n g² / (1/ḡ(z - nΩ) - Σ_{n+1})`, `d` levels of it -/
noncomputable def selfEnergy (g t Omega : ℝ) (z : ℂ) : ℕ → ℕ → ℂ
  | 0, _ => 0
  | d + 1, n => n * g ^ 2 / (1 / localG t (z - n * Omega) - selfEnergy g t Omega z d (n + 1))

/-- the Green's function with this self-energy, with at most `N` phonons -/
noncomputable def momentumAverage (g t Omega k : ℝ) (z : ℂ) (N : ℕ) : ℂ :=
  1 / (z + 2 * t * Real.cos k - selfEnergy g t Omega z N 1)

end GGCE.Spec
