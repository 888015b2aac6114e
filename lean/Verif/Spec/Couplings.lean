import Verif.Spec.Stability
import Verif.Spec.Modes
import Verif.Model.RealPrims

/-!
Couplings that are known only approximately, because the program computes them (square roots, hyperbolic functions)
in floating-point arithmetic.
-/

namespace GGCE.Spec

/-- The model `m'` has the couplings of `m` up to a relative error `ε`; everything else is equal. -/
structure CouplingsNear (ε : ℝ) (m m' : Model ℝ) : Prop where
  shape : SameShape m m'
  hopping : m'.ham.hopping = m.ham.hopping
  freqs : m'.ham.freqs = m.ham.freqs
  near : List.Forall₂ (fun h h' : SingleTerm ℝ => |h'.coupling - h.coupling| ≤ ε * |h.coupling|) m.ham.terms m'.ham.terms

/-- The conversions of the coupling strengths are carried out with a relative error of at most `ε` in the given calls;
they raise for the names for which they should. The product of a strength with a thermofield prefactor is rounded as
well; this error counts as one of the prefactor. -/
structure PrimsNear (ε hopping T : ℝ) (as : List (AddArgs ℝ)) (P : Prims ℝ) : Prop where
  names : Names P
  map : ∀ a ∈ as, ∀ l, a.lam = some l → ∀ w, w = a.freq ∨ w = -a.freq → ∀ g,
    realPrims.couplingMap a.ctype hopping w l = .ok g →
      ∃ g', P.couplingMap a.ctype hopping w l = .ok g' ∧ |g' - g| ≤ ε * |g|
  tfd : 0 < T → ∀ a ∈ as, |(P.tfd T a.freq).1 - (realPrims.tfd T a.freq).1| ≤ ε * |(realPrims.tfd T a.freq).1| ∧
    |(P.tfd T a.freq).2 - (realPrims.tfd T a.freq).2| ≤ ε * |(realPrims.tfd T a.freq).2|

end GGCE.Spec
