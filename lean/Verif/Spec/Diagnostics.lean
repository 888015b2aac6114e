import Verif.Model.Diagnostics
import Mathlib.Analysis.Complex.Norm
import Mathlib.Analysis.SpecialFunctions.Pow.Real

/-! What the diagnostics of the PETSc solver are meant to say. -/

namespace GGCE.Spec
open Petsc

/-- the Euclidean norm -/
noncomputable def realNorm (x : List ℂ) : ℝ := Real.sqrt ((x.map (fun z => ‖z‖ ^ 2)).sum)

/-- The preconditioner is the inverse of the matrix. -/
def Inverts (d : DistSys ℂ) (pc : List ℂ → List ℂ) : Prop :=
  ∀ y : List ℂ, y.length = d.n → pc (d.mul y) = y

end GGCE.Spec
