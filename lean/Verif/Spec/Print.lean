import Verif.Model.Print

/-! Reading what `System.visualize` has printed. -/

namespace GGCE.Spec

variable {K : Type}

/-- the numbers of phonons in the headings -/
def headings (ls : List (Line K)) : List Nat := ls.filterMap (fun l => match l with
  | .heading n => some n
  | _ => none)

/-- the indented lines at the beginning -/
def indented : List (Line K) → List (PyStr × Option K)
  | .term i c :: ls => (i, c) :: indented ls
  | _ => []

/-- an equation that can be read off: the unknown, its coefficient, the other unknowns with theirs -/
structure Row (K : Type) where
  id : PyStr
  coef : Option K
  terms : List (PyStr × Option K)

/-- the equations that can be read off, each with the number of phonons of the last heading above it -/
def rowsFrom (n : Nat) : List (Line K) → List (Nat × Row K)
  | [] => []
  | .heading n' :: ls => rowsFrom n' ls
  | .index i c :: ls => (n, ⟨i, c, indented ls⟩) :: rowsFrom n ls
  | .rule :: ls => rowsFrom n ls
  | .term _ _ :: ls => rowsFrom n ls
  | .blank :: ls => rowsFrom n ls

/-- the equations that can be read off -/
def rows (ls : List (Line K)) : List (Nat × Row K) := rowsFrom 0 ls

/-- the sum of the coefficients shown for an unknown in an equation -/
def shownEntry [Field K] (r : Row K) (j : PyStr) : K :=
  (if r.id = j then r.coef.getD 0 else 0) + (r.terms.map (fun t => if t.1 = j then t.2.getD 0 else 0)).sum

/-- the same line with a longer identifier -/
def Longer : Line K → Line K → Prop
  | .index i c, .index i' c' => i <+: i' ∧ c = c'
  | .term i c, .term i' c' => i <+: i' ∧ c = c'
  | l, l' => l = l'

end GGCE.Spec
