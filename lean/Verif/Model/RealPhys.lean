import Verif.Model.Solver
import Mathlib.Analysis.RCLike.Sqrt
import Mathlib.Analysis.SpecialFunctions.Trigonometric.Basic

/-!
`ggce/utils/physics.py` over the real and complex numbers. Floats are read as exact reals, complex
square roots and powers have the principal branch, as in numpy.
-/

namespace GGCE

open Complex

/-- `g0_delta_omega` with the default `sgn = 1.0`, `e0 = 0.0` (physics.py:6-71); the solvers never
pass other values (terms.py:915-921). -/
noncomputable def g0R (delta omega a eta t : ℝ) : ℂ :=
  if t = 0 then
    if delta ≠ 0 then 0 else 1 / ((omega : ℂ) + eta * I)
  else
    let w : ℂ := (omega : ℂ) + eta * I
    let B : ℝ := 2 * |t|
    let x : ℂ := w / B
    let prefactor : ℂ := -I / Complex.sqrt ((B : ℂ) ^ 2 - w ^ 2)
    let t1 : ℂ := (-x + I * Complex.sqrt (1 - x ^ 2)) ^ ((|delta * a| : ℝ) : ℂ)
    t1 * prefactor

/-- `G0_k_omega` (physics.py:74-105) -/
noncomputable def G0R (k omega a eta t : ℝ) : ℂ :=
  1 / ((omega : ℂ) + I * eta + 2 * t * Real.cos (k * a))

/-- the functions entering the coefficients (physics.py:59-71, 103-105, terms.py:872, 911) -/
noncomputable def realPhys : Phys ℝ ℂ :=
  { ofReal := fun x => (x : ℂ)
    expI := fun x => Complex.exp (I * x)
    g0 := g0R
    G0 := G0R }

end GGCE
