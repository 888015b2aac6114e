/-
Python-level conventions shared by all model files: exceptions as values, insertion-ordered
dictionaries, loops with an optional append, and the string rendering used by the identifiers.
-/

namespace GGCE

/-- Ways in which a call can fail.
* `abort` models `logger.critical`, whose CRITICAL sink is `sys.exit(1)` / `COMM.Abort()`
  (ggce/logger.py:120-124), so control never returns to the caller.
* the other constructors are the Python exceptions of the same name. -/
inductive Err where
  | abort
  | indexError
  | keyError
  | typeError
  | valueError
  | attributeError
  | runtimeError
  | assertionError
  | fileNotFound
  | linAlgError
  | eofError
  deriving DecidableEq, Repr

/-- A Python computation that either returns or raises (exceptions such as model.py:49, 459, terms.py:384). -/
abbrev Py (α : Type _) := Except Err α

/-- `for x in xs: ...; if cond: out.append(y)`: run `f` on every element in order, stop at the first
exception, collect the produced items (equations.py:239-318). -/
def collectM {α β : Type _} (f : α → Py (Option β)) : List α → Py (List β)
  | [] => pure []
  | x :: xs => do
      let y ← f x
      let ys ← collectM f xs
      match y with
      | some b => pure (b :: ys)
      | none => pure ys

/-- A Python `dict` with insertion order (newest key last) (row_dict of solvers.py:244, basis of system.py:498). -/
abbrev Dict (κ ν : Type _) := List (κ × ν)

namespace Dict
variable {κ ν : Type _} [DecidableEq κ]

/-- `d[k]`, `none` standing for `KeyError` (solvers.py:246, 249). -/
def get? : Dict κ ν → κ → Option ν
  | [], _ => none
  | (k', v) :: d, k => if k' = k then some v else get? d k

/-- `d[k] = v`: overwrite in place, or append a new key at the end (solvers.py:251-253, system.py:505, 512). -/
def set : Dict κ ν → κ → ν → Dict κ ν
  | [], k, v => [(k, v)]
  | (k', v') :: d, k, v => if k' = k then (k', v) :: d else (k', v') :: set d k v

/-- `try: d[k].append(v) except KeyError: d[k] = [v]`
(equations.py:213-216, system.py:152-155). -/
def push : Dict κ (List ν) → κ → ν → Dict κ (List ν)
  | [], k, v => [(k, [v])]
  | (k', vs) :: d, k, v => if k' = k then (k', vs ++ [v]) :: d else (k', vs) :: push d k v

end Dict

/-- Strings are modelled as lists of characters (the identifiers of terms.py:284-305, 681-737). -/
abbrev PyStr := List Char

/-- `str(n)` for a non-negative integer (terms.py:287-288). -/
def natStr (n : Nat) : PyStr :=
  if n < 10 then [Nat.digitChar n]
  else natStr (n / 10) ++ [Nat.digitChar (n % 10)]
decreasing_by omega

/-- `str(n)` for an integer (terms.py:287-288). -/
def intStr (n : Int) : PyStr :=
  if n < 0 then '-' :: natStr n.natAbs else natStr n.natAbs

/-- `", ".join(xs)` (terms.py:287-288, 692) -/
def commaJoin : List PyStr → PyStr
  | [] => []
  | [x] => x
  | x :: y :: ys => x ++ ',' :: ' ' :: commaJoin (y :: ys)

/-- `str(list)` for a list whose items render as `xs` (terms.py:287, 692, 700, 708). -/
def listStr (xs : List PyStr) : PyStr := '[' :: (commaJoin xs ++ [']'])

/-- `str((n, m))` (terms.py:288) -/
def pairStr (n m : Nat) : PyStr := '(' :: (natStr n ++ ',' :: ' ' :: (natStr m ++ [')']))

/-- `repr(h/2)` for the float `h/2` (`h` an integer). Valid for |h/2| < 1e16, above which Python
switches to exponent notation; such arguments need clouds longer than 1e15 sites (terms.py:692, 700, 708). -/
def halfStr (h : Int) : PyStr :=
  (if h < 0 then ['-'] else []) ++ natStr (h.natAbs / 2) ++
    (if h.natAbs % 2 = 0 then ['.', '0'] else ['.', '5'])

end GGCE
