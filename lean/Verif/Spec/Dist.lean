import Verif.Model.Petsc
import Mathlib.Algebra.BigOperators.Group.Finset.Basic

/-! What it means to solve a distributed linear system. -/

namespace GGCE.Spec
open Petsc

variable {K : Type} [Field K]

/-- `x` solves the assembled system. -/
def DistSolution (d : DistSys K) (x : Nat → K) : Prop :=
  ∀ i < d.n, ∑ j ∈ Finset.range d.n, d.entry i j * x j = d.rhsAt i

/-- A parallel linear solver in exact arithmetic: on a system with exactly one solution it returns that
solution, as a vector of the right length. -/
def DistExact (ksp : DistSys K → Py (List K)) : Prop :=
  ∀ d, (∃ x, DistSolution d x) →
    (∀ x y, DistSolution d x → DistSolution d y → ∀ i < d.n, x i = y i) →
    ∃ l, ksp d = .ok l ∧ l.length = d.n ∧ DistSolution d (fun i => l.getD i 0)

end GGCE.Spec
