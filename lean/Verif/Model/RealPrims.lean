import Verif.Model.Model
import Mathlib.Analysis.SpecialFunctions.Artanh
import Mathlib.Analysis.SpecialFunctions.Pow.Real

/-!
The transcendental primitives of `ggce/model.py` over the real numbers: `model_coupling_map` and the
thermofield prefactors. Floats are read as exact reals.
-/

namespace GGCE

/-- `math.sqrt` (raises `ValueError` for a negative argument) (model.py:41, 45, 47) -/
noncomputable def mathSqrt (x : ℝ) : Py ℝ := if x < 0 then .error .valueError else .ok (Real.sqrt x)

/-- `model_coupling_map` (model.py:10-49) -/
noncomputable def couplingMapR (ct : String) (t Omega lam : ℝ) : Py ℝ :=
  if ct = "Holstein" then mathSqrt (2 * t * |Omega| * lam)
  else if ct = "EdwardsFermionBoson" then .ok lam
  else if ct = "Peierls" then mathSqrt (t * |Omega| * lam / 2)
  else if ct = "BondPeierls" then mathSqrt (t * |Omega| * lam)
  else .error .runtimeError

/-- `_get_TFD_coupling_prefactors` for temperature > 0 (model.py:827-831). For `Omega ≤ 0` the
argument of `np.arctanh` is at least 1 and numpy returns `inf` or `nan`; the value given here is then
meaningless, and no theorem about values uses it. -/
noncomputable def tfdR (T Omega : ℝ) : ℝ × ℝ :=
  let beta := 1 / T
  let theta := Real.artanh (Real.exp (-beta * Omega / 2))
  (Real.cosh theta, Real.sinh theta)

/-- the primitives over the reals (model.py:10-49, 805-833) -/
noncomputable def realPrims : Prims ℝ := ⟨couplingMapR, tfdR⟩

end GGCE
