import Verif.Model.RealPhys

/-!
`ggce/utils/physics.py` in floating-point arithmetic: the same expressions as in `Verif.Model.RealPhys`, with a
rounding after every operation. What a rounding does is left open (`fl i` for the `i`-th operation, `pw` for the
complex power, `cs` for the cosine); the theorems say how close to the identity it has to be.
-/

namespace GGCE

open Complex

/-- `g0_delta_omega` with `sgn = 1.0`, `e0 = 0.0` (physics.py:59-71), every operation followed by a rounding. The
rounding of `omega + broadening * 1j` (physics.py:64, 66) also stands for that of `w - self.freq_shift`
(terms.py:913). Simplified: `-x`, `1j * …`, `omega - 0.0`, `2.0 * abs(hopping)` and `abs(delta * a)` are exact; the
rounding of `-1j` times a number is none. Overflow and underflow are left out. -/
noncomputable def g0F (fl : ℕ → ℂ → ℂ) (pw : ℂ → ℝ → ℂ) (delta omega a eta t : ℝ) : ℂ :=
  if t = 0 then
    if delta ≠ 0 then 0 else fl 1 (1 / fl 0 ((omega : ℂ) + eta * I))
  else
    let w : ℂ := fl 0 ((omega : ℂ) + eta * I)
    let B : ℝ := 2 * |t|
    let x : ℂ := fl 1 (w / B)
    let prefactor : ℂ := fl 6 (-I / fl 5 (Complex.sqrt (fl 4 (fl 2 ((B : ℂ) ^ 2) - fl 3 (w ^ 2)))))
    let t1 : ℂ := pw (fl 10 (-x + I * fl 9 (Complex.sqrt (fl 8 (1 - fl 7 (x ^ 2)))))) |delta * a|
    fl 11 (t1 * prefactor)

/-- `G0_k_omega` (physics.py:103-105), every operation followed by a rounding; `cs` is the computed cosine of
`k * lattice_constant`. Simplified: multiplication by `2.0` and by `1j` is exact. -/
noncomputable def G0F (fl : ℕ → ℂ → ℂ) (cs : ℝ → ℝ) (k omega a eta t : ℝ) : ℂ :=
  fl 3 (1 / fl 2 (fl 0 ((omega : ℂ) + I * eta) + fl 1 (2 * t * cs (k * a))))

/-- the functions entering the coefficients (physics.py:59-71, 103-105, terms.py:872, 911) as computed; `ex` is
the computed `cmath.exp(1j * x)` -/
noncomputable def floatPhys (fl : ℕ → ℂ → ℂ) (pw : ℂ → ℝ → ℂ) (cs : ℝ → ℝ) (ex : ℝ → ℂ) : Phys ℝ ℂ :=
  { ofReal := fun x => (x : ℂ)
    expI := ex
    g0 := g0F fl pw
    G0 := G0F fl cs }

end GGCE
