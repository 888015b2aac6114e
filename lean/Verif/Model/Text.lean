import Verif.Model.Cache
import Verif.Model.Utils

/-!
Text printed for people: the time stamps of `timeit` (`ggce/utils/utils.py:110-142`) and the lines of
`SingleTerm.__str__`, `Hamiltonian.__str__` (`ggce/model.py:195-203, 536-544`).

Numbers are exact; negative zero is not modelled (`f"{-0.0:.02f}"` has a sign, `0.0` has not).
-/

namespace GGCE

variable {R : Type} [Field R] [LinearOrder R]

/-- `|x|` rounded to a multiple of `0.01` (the format `.02f` of utils.py:114, model.py:197, 199) -/
def round2 [FloorRing R] (x : R) : Nat := roundHalfEven (|x| * 10 ^ 2)

/-- `f"{x:.02f}"` (utils.py:114, model.py:197, 199) -/
def fmt2 [FloorRing R] (x : R) : PyStr :=
  (if x < 0 then ['-'] else []) ++ natStr (round2 x / 10 ^ 2) ++ '.' :: fixedDigits 2 (round2 x % 10 ^ 2)

/-- `_adjust_log_msg_for_time(msg, elapsed)` (utils.py:110-114) -/
def adjustLogMsg [FloorRing R] (msg : PyStr) : Option R → PyStr
  | none => msg
  | some elapsed =>
    let r := elapsedTime elapsed
    '[' :: (fmt2 r.1 ++ ' ' :: (r.2.toList ++ ']' :: ' ' :: msg))

/-- `with timeit(stream, msg): body` (utils.py:117-142). `σ` is the state of the world, `clock` reads
`time.time()` from it. The `finally` block runs whether or not the body raises; if `stream` raises, its
exception replaces the outcome of the body. Simplification: reading the clock takes no time. -/
def timeit [FloorRing R] {σ α : Type} (clock : σ → R) (stream : PyStr → σ → Py Unit × σ) (msg : PyStr)
    (body : σ → Py α × σ) (s : σ) : Py α × σ :=
  let t0 := clock s
  let r := body s
  let q := stream (adjustLogMsg msg (some (clock r.2 - t0))) r.2
  match q.1 with
  | .error e => (.error e, q.2)
  | .ok _ => (r.1, q.2)

/-- `str(np.array([x]))`: an integer `[1]`, a float `[1.]` or `[0.5]` (psi and phi in model.py:197-198; one
dimension). Valid for numbers below 1e8, above which numpy prints floats with an exponent. -/
def arrayStr (x : Num) : PyStr :=
  '[' :: ((if x.flt then (if x.tw < 0 then ['-'] else []) ++ natStr (x.tw.natAbs / 2) ++
      (if x.tw.natAbs % 2 = 0 then ['.'] else ['.', '5']) else intStr (x.tw / 2)) ++ [']'])

/-- the dagger status as text (model.py:198) -/
def Dag.text : Dag → Char
  | .plus => '+'
  | .minus => '-'

/-- `SingleTerm.__str__` (model.py:195-200) -/
def SingleTerm.text [FloorRing R] (t : SingleTerm R) : PyStr :=
  t.ctype.toList ++ ':' :: ' ' :: (fmt2 t.coupling ++ " x (".toList ++ arrayStr t.psi ++ ' ' :: (arrayStr t.phi ++
    ' ' :: t.dag.text :: (") | ".toList ++ (natStr t.phononIndex ++ " (".toList ++ (fmt2 t.phononFrequency ++ [')'])))))

/-- `"\n".join(xs)` (model.py:537) -/
def lineJoin : List PyStr → PyStr
  | [] => []
  | [x] => x
  | x :: y :: ys => x ++ '\n' :: lineJoin (y :: ys)

/-- `xx.replace(r"\n", "\n")`: a backslash followed by the letter n becomes a line break (model.py:538) -/
def unescape : PyStr → PyStr
  | [] => []
  | '\\' :: 'n' :: cs => '\n' :: unescape cs
  | c :: cs => c :: unescape cs

/-- `Hamiltonian.__str__` (model.py:536-538), also printed by `Hamiltonian.visualize` (model.py:543-544) -/
def Hamiltonian.text [FloorRing R] (h : Hamiltonian R) : PyStr :=
  unescape (lineJoin (h.terms.map SingleTerm.text))

end GGCE
