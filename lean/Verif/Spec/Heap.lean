import Verif.Model.Heap

/-!
What a user means by "this program does not touch my model" (C50).
-/

namespace GGCE.Spec
open GGCE.Mem

variable {R : Type} [Field R] [LinearOrder R]

/-- the operation is addressed to the model `b`: a method or setter called on it, a method called on the
Hamiltonian it holds, a change of the lists of that Hamiltonian or of the terms in them, or an `append` to one of the
two lists it holds -/
def Touches (h : Heap R) (b : Nat) : Step R → Prop
  | .addModel a _ => a = b
  | .setNumbers a _ _ _ _ _ => a = b
  | .setEmpty a _ => a = b
  | .setHam a _ => a = b
  | .addHam a _ _ _ _ _ _ => ∃ o, h.models[b]? = some o ∧ o.ham = a
  | .edit a _ _ => ∃ o, h.models[b]? = some o ∧ o.ham = a
  | .appendInt a _ => ∃ o, h.models[b]? = some o ∧ (o.extent = a ∨ o.number = a)
  | _ => False

/-- a program: operations in order -/
def runAll (P : Prims R) : Heap R → List (Step R) → Heap R
  | h, [] => h
  | h, op :: ops => runAll P (op.run P h) ops

/-- no step of the program is addressed to the model `b` -/
def Quiet (P : Prims R) (b : Nat) : Heap R → List (Step R) → Prop
  | _, [] => True
  | h, op :: ops => ¬ Touches h b op ∧ Quiet P b (op.run P h) ops

/-- the program never assigns `model.hamiltonian = …` -/
def NoHamSetter (ops : List (Step R)) : Prop := ∀ a b, Step.setHam a b ∉ ops

end GGCE.Spec
