import Verif.Model.Engine

/-!
Programs that assign to the properties of a `Model` between calls of `add_` (`ggce/model.py:557-721`), and
the full identifiers of terms (`ggce/engine/terms.py:675-735`).
-/

namespace GGCE

variable {R : Type} [Field R] [LinearOrder R]

/-- One statement acting on a model: `model.add_(...)` or an assignment. `none` stands for a value of the
wrong type (model.py:559-721, 835). -/
inductive ModelOp (R : Type) where
  | add (a : AddArgs R)
  | temperature (x : Option R)
  | latticeConstant (x : Option R)
  | absExtent (x : Option Int)
  | maxPerSite (x : Option (Option Int))
  /-- `model.phonon_extent = x`; `true` for `x == []` -/
  | extent (empty : Bool)
  /-- `model.phonon_number = x`; `true` for `x == []` -/
  | number (empty : Bool)

/-- The setters: `temperature` (model.py:570-578) and `lattice_constant` (602-612) log an error and keep
the old value, `phonon_absolute_extent` (632-638), `phonon_max_per_site` (669-673), `phonon_extent`
(702-705) and `phonon_number` (718-721) raise an `AssertionError`. -/
def Model.step (P : Prims R) (m : Model R) : ModelOp R → Py (Model R)
  | .add a => m.add P a
  | .temperature none => .ok m
  | .temperature (some x) => .ok (m.setTemperature x)
  | .latticeConstant none => .ok m
  | .latticeConstant (some x) => .ok (m.setLatticeConstant x)
  | .absExtent x => .ok (m.setAbsExtent x)
  | .maxPerSite none => .error .assertionError
  | .maxPerSite (some x) => .ok { m with maxPerSite := x }
  | .extent true => .ok { m with extent := [] }
  | .extent false => .error .assertionError
  | .number true => .ok { m with number := [] }
  | .number false => .error .assertionError

/-- a sequence of such statements; an exception ends it (model.py:559-721, 835-965) -/
def Model.run (P : Prims R) : Model R → List (ModelOp R) → Py (Model R)
  | m, [] => .ok m
  | m, o :: os =>
    match m.step P o with
    | .error e => .error e
    | .ok m' => Model.run P m' os

/-- `Term._get_g_arg_id` (terms.py:694-700) -/
def gArgId : Option Num → PyStr
  | none => ['<', '!', '>']
  | some h => listStr [halfStr h.tw]

/-- `Term._get_c_exp_id` (terms.py:702-708) -/
def expId : Option Num → PyStr
  | none => ['[', '!', ']']
  | some h => listStr [halfStr h.tw]

/-- `Term.id(full=True)` (terms.py:710-737) -/
def fullTermId (a : Arr) (f g c : Option Num) : PyStr := termId a f ++ (gArgId g ++ expId c)

end GGCE
