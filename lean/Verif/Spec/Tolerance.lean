import Verif.Spec.Diagnostics
import Verif.Spec.CacheAccuracy
import Verif.Spec.Residual

/-! What a solver that checks its own residual is worth, when the factorisation it uses for the check is only
approximately right. -/

namespace GGCE.Spec
open Petsc

/-- componentwise difference -/
def diff (x y : List ℂ) : List ℂ := List.zipWith (· - ·) x y

/-- The preconditioner inverts the matrix up to a relative error of `δ`. -/
def NearInverse (δ : ℝ) (d : DistSys ℂ) (pc : List ℂ → List ℂ) : Prop :=
  ∀ v : List ℂ, v.length = d.n → (pc (d.mul v)).length = d.n ∧ realNorm (diff (pc (d.mul v)) v) ≤ δ * realNorm v

/-- MUMPS may raise and may return any vector of the right length, but its factors are good to `δ`. -/
def Factorises (δ : ℝ) (mumps : DistSys ℂ → Py (MumpsRun ℂ)) : Prop :=
  ∀ d run, mumps d = .ok run → run.x.length = d.n ∧ NearInverse δ d run.pc

/-- `rtol (1 + δ)/(1 - δ) √(Π N!) (1 + Σ |g| √N / eta) / eta` -/
noncomputable def certified (m : Model ℝ) (δ rtol eta : ℝ) : ℝ :=
  rtol * (1 + δ) / (1 - δ) * (√(factorials m) * (sensitivity m eta / eta))

/-- one call of `MassSolverMUMPS.solve`: what MUMPS does, the number of ranks, the tolerance, the point -/
structure MassCall where
  mumps : DistSys ℂ → Py (MumpsRun ℂ)
  size : Nat
  rtol : ℝ
  point : Point ℝ

/-- calls one after the other on one results directory; the results and all messages -/
noncomputable def massSession (m : Model ℝ) (b : Built ℝ) (negative : ℂ → Bool) : Option (Dict PyStr ℂ) → List MassCall →
    List (Py (ℂ × Option (SolveMeta ℝ))) × List Note
  | _, [] => ([], [])
  | dir, c :: cs =>
    let r := massSolve realPhys m (fullBasis b.eqs) b.eqs c.mumps realNorm negative c.size c.rtol dir
      c.point
    let s := massSession m b negative r.2.1 cs
    (r.1 :: s.1, r.2.2 ++ s.2)

end GGCE.Spec
