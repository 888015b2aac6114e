import Verif.Py
import Mathlib.Analysis.SpecialFunctions.Trigonometric.Basic

/-!
`ggce/utils/utils.py:145-194`: locating a Lorentzian peak from two values. Real numbers stand for
floats; `none` stands for `nan`, or the exception Python floats raise, when a denominator is zero or a
square root is taken of a negative number. `scipy.optimize.curve_fit` is an arbitrary function; what is assumed about it
is said in the theorems.
-/

namespace GGCE

/-- `a / b` (utils.py:155-156, 166-175) -/
noncomputable def divN (a b : ℝ) : Option ℝ := if b = 0 then none else some (a / b)

/-- `np.sqrt(a)` (utils.py:151-155, 168-173) -/
noncomputable def sqrtN (a : ℝ) : Option ℝ := if a < 0 then none else some (Real.sqrt a)

/-- `lorentzian(w, loc, scale, eta)` (utils.py:193-194) -/
noncomputable def lorentzian (w loc scale eta : ℝ) : Option ℝ :=
  divN (scale * (eta / Real.pi)) ((w - loc) ^ 2 + eta ^ 2)

/-- `peak_location_and_weight` (utils.py:145-157) -/
noncomputable def peakLocationAndWeight (w A Aprime eta etaPrime : ℝ) : Option (ℝ × ℝ) := do
  let numerator1 ← sqrtN (eta * etaPrime)
  let numerator2 := A * eta - Aprime * etaPrime
  let den1 := Aprime * eta - A * etaPrime
  let den2 := A * eta - Aprime * etaPrime
  let den ← sqrtN (den1 * den2)
  let q ← divN (numerator1 * numerator2) den
  let loc := w - |q|
  let area ← divN (Real.pi * A * ((w - loc) ^ 2 + eta ^ 2)) eta
  pure (loc, area)

/-- `peak_location_and_weight_wstep` (utils.py:160-179) -/
noncomputable def peakLocationAndWeightWstep (w wprime A Aprime eta : ℝ) : Option (ℝ × ℝ) := do
  let firstterm ← divN (A * Aprime * (w - wprime) ^ 2) ((A - Aprime) ^ 2)
  let secondterm := eta ^ 2
  let mid ← divN (w * A - wprime * Aprime) (A - Aprime)
  let s ← sqrtN (firstterm - secondterm)
  let loc1 := mid + s
  let loc2 := mid - s
  let area1 ← divN (Real.pi * A * ((w - loc1) ^ 2 + eta ^ 2)) eta
  let area2 ← divN (Real.pi * A * ((w - loc2) ^ 2 + eta ^ 2)) eta
  if 1 < area1 then pure (loc2, area2) else pure (loc1, area1)

/-- the parameters `loc, scale, eta` of a fit (utils.py:186-188, 193) -/
structure Peak where
  loc : ℝ
  scale : ℝ
  eta : ℝ

/-- `scipy.optimize.curve_fit(f, x, y, p0)` (utils.py:186-188): fitted parameters, or an exception. The covariance matrix it
also returns is left out. -/
abbrev CurveFit := (ℝ → Peak → Option ℝ) → List ℝ → List ℝ → Peak → Py Peak

/-- `peak_location_and_weight_scipy` (utils.py:182-190) without the covariance matrix -/
noncomputable def peakLocationAndWeightScipy (curveFit : CurveFit) (wrange Arange : List ℝ) (eta : ℝ) : Py Peak :=
  match wrange.getLast? with
  | none => .error .indexError
  | some w => curveFit (fun w p => lorentzian w p.loc p.scale p.eta) wrange Arange ⟨w, 1, eta⟩

end GGCE
