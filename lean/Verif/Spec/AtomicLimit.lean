import Verif.Spec.Operator
import Mathlib.MeasureTheory.Integral.Bochner.Set
import Mathlib.MeasureTheory.Measure.Lebesgue.Basic
import Mathlib.Analysis.SpecialFunctions.Trigonometric.Basic

/-!
The textbook Green's function of an electron that cannot move and is coupled to the density of phonons on its
site (the independent boson model, solved by the Lang–Firsov transformation), at temperature `T`.
-/

namespace GGCE.Spec
open Complex MeasureTheory

/-- the mean number of phonons of energy `Omega` in thermal equilibrium -/
noncomputable def thermal (T Omega : ℝ) : ℝ := if 0 < T then 1 / (Real.exp (Omega / T) - 1) else 0

/-- The logarithm of the amplitude `⟨c(s) c†⟩` at time `s`, for the coupling `g` to phonons of energy `Omega`:
the shift `-g²/Omega` of the electron's energy, and the dressing by emission and absorption. -/
noncomputable def cumulant (T Omega g s : ℝ) : ℂ :=
  I * (g ^ 2 / Omega) * s -
    g ^ 2 / Omega ^ 2 * ((2 * thermal T Omega + 1) * (1 - Real.cos (Omega * s)) + I * Real.sin (Omega * s))

/-- the Green's function for the couplings `(Omega, g)` in `l` -/
noncomputable def atomicGreen (T : ℝ) (l : List (ℝ × ℝ)) (w eta : ℝ) : ℂ :=
  -I * ∫ s in Set.Ioi (0 : ℝ), exp (I * energyAt w eta * s) * exp (l.map (fun p => cumulant T p.1 p.2 s)).sum

/-- A Holstein coupling given by its strength `g`, to phonons of positive energy -/
structure HolsteinCall (a : AddArgs ℝ) : Prop where
  ctype : a.ctype = "Holstein"
  freq : 0 < a.freq
  strength : ∃ g, a.g = some g

end GGCE.Spec
