import Verif.Props.Operator
import Verif.Spec.Stability

/-!
How far a number may be from what the solvers return in exact arithmetic.
-/

namespace GGCE.Spec
open GGCE.Props

/-- `G` is within `ε` of every number that one of the solvers returns in exact arithmetic at the point `p` -/
def Within (m : Model ℝ) (b : Built ℝ) (ε : ℝ) (p : Point ℝ) (G : ℂ) : Prop :=
  ∀ G', Returned m b p G' → ‖G - G'‖ ≤ ε

/-- the error that results from ten decimals in the coordinates of a point -/
noncomputable def decimals (m : Model ℝ) (eta : ℝ) : ℝ := (speed m + 2) / (10 ^ 10 * eta ^ 2)

end GGCE.Spec
