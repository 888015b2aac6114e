import Verif.Model.Interrupt
import Verif.Props.Grid

/-!
Which points have to be computed when a results directory is in use: those without a file, once each.
-/

namespace GGCE.Spec
open GGCE.Props

variable {R K : Type} [Field R] [LinearOrder R] [FloorRing R]

/-- the points a call asks for, in order -/
def wanted : Call R → List (Point R)
  | .solve p => [p]
  | .grid k w eta => match gridPoints k, gridPoints w with
    | some ks, some ws => ks.flatMap (fun x => ws.map (fun y => ⟨x, y, eta⟩))
    | _, _ => []

/-- Of a list of points, those that are new: no file of their name is among `known`, and no earlier point of the
list has the same file name. -/
def newPoints (known : List PyStr) : List (Point R) → List (Point R)
  | [] => []
  | p :: ps => if cacheKey p ∈ known then newPoints known ps else p :: newPoints (cacheKey p :: known) ps

/-- every complete file is still there, with the same content -/
def Kept (d d' : Dict PyStr (File (Option K))) : Prop :=
  ∀ c v, d.get? c = some (.full v) → d'.get? c = some (.full v)

end GGCE.Spec
