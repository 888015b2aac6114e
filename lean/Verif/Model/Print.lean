import Verif.Model.Solver
import Verif.Model.Setters

/-!
What `System.visualize` (`ggce/engine/system.py:440-468`) and `Equation.visualize`
(`ggce/engine/equations.py:160-195`) print. Simplifications: a coefficient is shown exactly, not rounded to three digits;
when an exception ends the printing, the lines printed before it are forgotten.
-/

namespace GGCE

variable {R K : Type} [Field R] [LinearOrder R] [Field K]

/-- a line of the output (system.py:464-468, equations.py:183, 195), with the coefficient if one is shown -/
inductive Line (K : Type) where
  /-- `print(f"{n_phonons}")` (system.py:464) -/
  | heading (n : Nat)
  /-- `print("-" * 60)` (system.py:465) -/
  | rule
  /-- the index term of an equation (equations.py:180-183) -/
  | index (id : PyStr) (c : Option K)
  /-- a term of the equation, after a tab (equations.py:185-195) -/
  | term (id : PyStr) (c : Option K)
  /-- `print("\n")` (system.py:468) -/
  | blank
  deriving DecidableEq

/-- `self.index_term.id(full=full)` (equations.py:180): an index term has no `g_arg` and the shift `[0.0]`
(terms.py:674-676, 800-808) -/
def Equation.shownId (full : Bool) (e : Equation R) : PyStr :=
  if full then fullTermId e.config e.fArg none (some ⟨true, 0⟩) else e.id

/-- `term.id(full=full)` (equations.py:186) -/
def Term.shownId (full : Bool) (t : Term R) : PyStr :=
  if full then fullTermId t.config (some t.fArg) t.gArg (some t.expShift) else t.id

/-- Whether the coefficient of a term is a plain Python number, which has no `.item()` (equations.py:188-190): without
hopping and off the site, `g0_delta_omega` returns the literal `0.0` (physics.py:56-58), the exponential is one of `cmath`
(terms.py:911), and the prefactor of a creation term is the coupling itself (equations.py:306), that of an annihilation
term a product with an entry of an array (equations.py:257). `np` tells whether a coupling is a numpy number; one made by
`add_` from a Python float at temperature zero is not. -/
def Term.bare (np : Term R → Bool) (m : Model R) (t : Term R) : Bool :=
  match t.kind, t.gArg with
  | .cre, some g => decide (m.ham.hopping = 0) && decide (g.tw ≠ 0) && !np t
  | _, _ => false

/-- the line of a term (equations.py:186-195) -/
def termLine (np : Term R → Bool) (F : Phys R K) (m : Model R) (full : Bool) (coef : Option (Point R)) (t : Term R) :
    Py (Line K) :=
  match coef with
  | none => .ok (.term (t.shownId full) none)
  | some p => do
    let c ← t.coefficient F m p
    if t.bare np m then .error .attributeError else pure (.term (t.shownId full) (some c))

/-- `Equation.visualize` (equations.py:160-195); the coefficient of the index term is 1 (terms.py:819-834) -/
def Equation.lines (np : Term R → Bool) (F : Phys R K) (m : Model R) (full : Bool) (coef : Option (Point R))
    (e : Equation R) : Py (List (Line K)) := do
  let ts ← collectM (fun t => some <$> termLine np F m full coef t) e.terms
  pure (.index (e.shownId full) (coef.map (fun _ => 1)) :: ts)

/-- `sorted(eqs_dict.items(), reverse=True)` (system.py:462); the keys of a dictionary are distinct -/
def sortedDown {α : Type} (d : Dict Nat α) : Dict Nat α := d.mergeSort (fun a b => decide (b.1 ≤ a.1))

/-- `System.visualize` (system.py:440-468) -/
def Built.lines (np : Term R → Bool) (F : Phys R K) (m : Model R) (generalized full : Bool) (coef : Option (Point R))
    (b : Built R) : Py (List (Line K)) :=
  List.flatten <$> collectM (fun kv => do
    let ls ← collectM (fun e => some <$> Equation.lines np F m full coef e) kv.2
    pure (some (.heading kv.1 :: .rule :: (ls.flatten ++ [.blank]))))
    (sortedDown (if generalized then b.gens else b.eqs))

end GGCE
