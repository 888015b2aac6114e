import Verif.Model.Solver
import Mathlib.Algebra.BigOperators.Group.Finset.Basic

/-! The linear equations a solver is meant to solve, written with one unknown per identifier. -/

namespace GGCE.Spec

variable {R K : Type} [Field R] [LinearOrder R] [Field K]

/-- `U` solves the equations `es`: for each of them, the unknown on the left plus the sum of
coefficient times unknown on the right is `bias`. The coefficients are `c`. -/
def SolvesAll (c : Term R → K) (bias : Equation R → K) (es : List (Equation R)) (U : PyStr → K) : Prop :=
  ∀ e ∈ es, U e.id + (e.terms.map (fun t => c t * U t.id)).sum = bias e

/-- The coefficient of the unknown `id` in the equation `e`: the sum over all its terms on that
unknown. -/
def coefOf (c : Term R → K) (e : Equation R) (id : PyStr) : K :=
  (e.terms.map (fun t => if t.id = id then c t else 0)).sum

end GGCE.Spec

namespace GGCE.Spec
variable {K : Type} [Field K]

/-- `x` solves the linear system with `n` unknowns: matrix times `x` is the right-hand side. -/
def Solution (ls : LinSys K) (n : Nat) (x : Nat → K) : Prop :=
  ∀ i < n, ∑ j ∈ Finset.range n, cooEntry ls.triples i j * x j =
    if i = ls.rhsRow then ls.rhsVal else 0

/-- A linear solver in exact arithmetic: on a square system with matching right-hand side that has
exactly one solution, it returns that solution. -/
def Exact (spsolve : LinSys K → Py (Nat → K)) : Prop :=
  ∀ ls n, cooRows ls.triples = n → cooCols ls.triples = n → ls.rhsRow + 1 = n →
    (∃ x, Solution ls n x) →
    (∀ x y, Solution ls n x → Solution ls n y → ∀ i < n, x i = y i) →
    ∃ x, spsolve ls = .ok x ∧ Solution ls n x

end GGCE.Spec

namespace GGCE.Spec
variable {R K : Type} [Field R] [LinearOrder R] [Field K]

/-- `g` is the Green's function component of some solution of the sparse linear system of the
equations `eqs`: a value the sparse solver may return. (If the matrix is nonsingular there is exactly
one.) -/
def GreenValue (F : Phys R K) (m : Model R) (p : Point R) (eqs : Dict Nat (List (Equation R))) (g : K) :
    Prop :=
  ∃ ls x, scaffold F m p (fullBasis eqs) eqs = .ok ls ∧ Solution ls (allEqs eqs).length x ∧
    x ls.rhsRow = g

end GGCE.Spec
