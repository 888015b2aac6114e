import Mathlib.Analysis.SpecialFunctions.Integrals.Basic
import Mathlib.MeasureTheory.Integral.IntervalIntegral.Basic
import Mathlib.Analysis.SpecialFunctions.Trigonometric.Basic

/-!
The Green's function of an electron on a chain with the self-energy of second-order perturbation theory in the
coupling (the Tamm-Dancoff approximation with one phonon): the electron of momentum `k` emits a phonon, moves
freely with any other momentum `q` and absorbs it. The vertices are the textbook matrix elements of the couplings
between a bare electron and an electron with one phonon.
-/

namespace GGCE.Spec
open Real

/-- the modulus of the matrix element between the electron with momentum `k` and the electron with momentum `q`
and one phonon. Holstein: `g Σ n_i (b†_i + b_i)`. BondPeierls: `g Σ (c†_i c_{i+1} + h.c.)(b†_{i+1/2} + b_{i+1/2})`.
Peierls: `g Σ (c†_i c_{i+1} + h.c.)(b†_{i+1} + b_{i+1} - b†_i - b_i)`. EdwardsFermionBoson: the electron leaves a
phonon behind or absorbs the one it finds, `g Σ_{<ij>} c†_j c_i (b†_i + b_j)`. -/
noncomputable def vertex (ctype : String) (g k q : ℝ) : ℝ :=
  if ctype = "Holstein" then g
  else if ctype = "BondPeierls" then 2 * g * cos ((k + q) / 2)
  else if ctype = "Peierls" then 2 * g * (sin k - sin q)
  else if ctype = "EdwardsFermionBoson" then 2 * g * cos q
  else 0

/-- `Σ(k, z) = 1/2π ∫ dq V(k, q)² / (z - Ω + 2t cos q)` -/
noncomputable def secondOrderSelf (ctype : String) (g t Omega k : ℝ) (z : ℂ) : ℂ :=
  1 / (2 * π) * ∫ q in (-π)..π, ((vertex ctype g k q ^ 2 : ℝ) : ℂ) / (z - Omega + 2 * t * Real.cos q)

/-- the Green's function with this self-energy -/
noncomputable def secondOrder (ctype : String) (g t Omega k : ℝ) (z : ℂ) : ℂ :=
  1 / (z + 2 * t * Real.cos k - secondOrderSelf ctype g t Omega k z)

end GGCE.Spec
