import Verif.Spec.Legal
import Verif.Model.Model

/-! The truncated cloud space of a model. -/

namespace GGCE.Spec

variable {R : Type}

/-- The lists of limits have one entry per phonon type. Every history of `Model.add_` calls
establishes this (C38). -/
structure ListsOk (m : Model R) : Prop where
  ext : m.extent.length = m.nTypes
  num : m.number.length = m.nTypes

/-- The clouds of a model with absolute extent `ae`: at most `ae` sites, one row per phonon type,
legal for the model's limits. -/
def InTruncation (m : Model R) (ae : Int) (a : Arr) : Prop :=
  (a.len : Int) ≤ ae ∧ a.rows.length = m.nTypes ∧
    Legal m.maxPerSite (some m.extent) (some m.number) a

/-- The clouds with `nb` phonons. -/
def InSpace (m : Model R) (ae : Int) (nb : Nat) (a : Arr) : Prop :=
  InTruncation m ae a ∧ phonons a = nb

end GGCE.Spec
