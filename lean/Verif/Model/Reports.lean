import Verif.Model.Combinatorics
import Verif.Model.Engine

/-!
What the objects report about themselves: the counts a `System` compares while it is built
(`ggce/engine/system.py:180-213, 232-260`), and `Hamiltonian.get_dict_rep` and `Model.visualize`
(`ggce/model.py:229-244, 723-743`). Only the data shown are modelled, not the layout of the text.
-/

namespace GGCE

variable {R : Type} [Field R] [LinearOrder R]

/-- the messages about the number of equations (system.py:201-213, 253-260) -/
inductive CountNote where
  /-- "Predicted {L} generalized equations (agrees with analytic formula)" (system.py:201-205) -/
  | agrees (L : Nat)
  /-- error: "Predicted {T} generalized equations from analytic equation but {L} were generated. This will
  likely in a critical error!" (system.py:206-211) -/
  | disagrees (T L : Nat)
  /-- "Predicted {L} generalized equations" (system.py:213) -/
  | count (L : Nat)
  deriving DecidableEq, Repr

/-- `_predict_total_terms` (system.py:186-213) -/
def predictTotal (m : Model R) (gens : Dict Nat (List (Equation R))) : Py CountNote :=
  let L := (gens.map (fun kv => kv.2.length)).sum
  if m.nTypes = 1 ∧ m.maxPerSite = none then do
    let T ← totalGeneralized m.extent m.number m.nTypes
    pure (if L = 1 + T then .agrees L else .disagrees (1 + T) L)
  else pure (.count L)

/-- `_get_total_terms` (system.py:180-184) -/
def getTotal (fargs : Dict PyStr (List Num)) : Nat := (fargs.map (fun kv => kv.2.length)).sum

/-- the comparison at the end of `_initialize_equations` (system.py:251-260) -/
def totalNote (fargs : Dict PyStr (List Num)) (eqs : Dict Nat (List (Equation R))) : CountNote :=
  let L := (eqs.map (fun kv => kv.2.length)).sum
  if L = getTotal fargs then .agrees L else .disagrees (getTotal fargs) L

/-- `Hamiltonian.get_dict_rep` (model.py:229-244) -/
def Hamiltonian.dictRep (H : Hamiltonian R) : Dict Nat (List (SingleTerm R)) :=
  H.terms.foldl (fun d t => d.push t.phononIndex t) []

/-- what `Model.visualize` (model.py:723-743) shows for one phonon type -/
structure Shown (R : Type) where
  index : Nat
  M : Int
  N : Int
  terms : List (SingleTerm R)
  deriving DecidableEq

/-- the loop of `Model.visualize` (model.py:736-743) -/
def Model.shownLoop (m : Model R) : Nat → Dict Nat (List (SingleTerm R)) → Py (List (Shown R))
  | _, [] => .ok []
  | i, (idx, ts) :: d =>
    match m.extent[i]?, m.number[i]? with
    | some M, some N => do
      let rest ← m.shownLoop (i + 1) d
      pure (⟨idx, M, N, ts⟩ :: rest)
    | _, _ => .error .indexError

/-- `Model.visualize` (model.py:723-743): `none` for "Terms not initialized..." -/
def Model.shown (m : Model R) : Py (Option (List (Shown R))) :=
  if m.extent = [] then .ok none else some <$> m.shownLoop 0 m.ham.dictRep

end GGCE
