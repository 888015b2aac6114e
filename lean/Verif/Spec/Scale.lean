import Verif.Model.Engine

/-! Multiplying every coupling strength of a model by the same number. -/

namespace GGCE.Spec

variable {R : Type} [Field R] [LinearOrder R]

/-- the interaction term with its coupling multiplied by `s` -/
def scaleH (s : R) (h : SingleTerm R) : SingleTerm R := { h with coupling := s * h.coupling }

/-- the model with all couplings multiplied by `s`; nothing else changes -/
def scaleModel (s : R) (m : Model R) : Model R :=
  { m with ham := { m.ham with terms := m.ham.terms.map (scaleH s) } }

end GGCE.Spec
