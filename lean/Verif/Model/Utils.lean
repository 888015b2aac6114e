import Verif.Py
import Mathlib.Algebra.Field.Defs
import Mathlib.Algebra.Order.Ring.Nat

/-!
`ggce/utils/utils.py`: the buffer, job chunking, grid padding and argument conversion.
-/

namespace GGCE

/-! ### `Buffer` (utils.py:11-29) -/

/-- A `Buffer` together with the files it has written. Every flush writes one new file with a fresh
random name (`uuid4`); the model keeps the files as a list in the order of writing, so it assumes that
random names do not collide (utils.py:11-29). -/
structure Buffer (α : Type) where
  nbuff : Int
  counter : Int
  queue : List α
  files : List (List α)
  deriving DecidableEq

namespace Buffer
variable {α : Type}

/-- `Buffer.__init__` (utils.py:12-16), on an empty target directory -/
def new (nbuff : Int) : Buffer α := ⟨nbuff, 0, [], []⟩

/-- `Buffer.flush` (utils.py:18-23) -/
def flush (b : Buffer α) : Buffer α :=
  if 0 < b.counter then { b with
    counter := 0
    queue := []
    files := b.files ++ [b.queue] } else b

/-- `Buffer.__call__` (utils.py:25-29) -/
def call (b : Buffer α) (v : α) : Buffer α :=
  let b' : Buffer α := { b with
    queue := b.queue ++ [v]
    counter := b.counter + 1 }
  if b'.nbuff ≤ b'.counter then b'.flush else b'

end Buffer

/-! ### `chunk_jobs` (utils.py:32-33) -/

/-- `numpy.array_split(jobs, n)` for a list of rows: `len(jobs) % n` sections of size
`len(jobs) // n + 1` followed by sections of size `len(jobs) // n`; `ValueError` if `n` is not positive.
Section `i` is `jobs[offset_i : offset_{i+1}]` (utils.py:33). -/
def arraySplit {α : Type} (jobs : List α) (n : Nat) : Py (List (List α)) :=
  if n = 0 then .error .valueError
  else
    let each := jobs.length / n
    let extras := jobs.length % n
    let offset := fun i => i * each + min i extras
    .ok ((List.range n).map (fun i => (jobs.take (offset (i + 1))).drop (offset i)))

/-- `chunk_jobs(jobs, world_size, rank)`; ranks are never negative. `tolist()` turns the rows back into
lists of two floats, which the callers unpack again (utils.py:32-33). -/
def chunkJobs {α : Type} (jobs : List α) (worldSize rank : Nat) : Py (List α) := do
  let parts ← arraySplit jobs worldSize
  match parts[rank]? with
  | some p => .ok p
  | none => .error .indexError

/-! ### `padded_kw` (utils.py:36-63) -/

/-- numpy's `a % b` for non-negative integers: 0 with a warning if `b = 0` (utils.py:45, 56) -/
def npMod (a b : Nat) : Nat := if b = 0 then 0 else a % b

/-- `np.where(rems == 0)[0][0]` with `rems = fixed * (n + ii) % num_brig`, `ii < ext`; `IndexError` if
there is none (utils.py:43-46, 54-57). -/
def numPads (fixed n numBrig ext : Nat) : Py Nat :=
  match (List.range ext).find? (fun ii => npMod (fixed * (n + ii)) numBrig = 0) with
  | some i => .ok i
  | none => .error .indexError

variable {R : Type} [Field R]

/-- `x` followed by `n` more points with the spacing of the last two; `x[-2]` is an `IndexError` if `x`
has fewer than two points, even if no point has to be added. (utils.py:47-52 and 58-63) -/
def extendGrid (x : List R) (n : Nat) : Py (List R) :=
  match x.reverse with
  | a :: b :: _ => .ok (x ++ (List.range n).map (fun i => a + ((i + 1 : Nat) : R) * (a - b)))
  | _ => .error .indexError

/-- `padded_kw(k, w, num_brig, ext)` (utils.py:36-63) -/
def paddedKw (k w : List R) (numBrig : Nat) (ext : Nat := 1000) : Py (List R × List R) :=
  if 1 < w.length then do
    let n ← numPads k.length w.length numBrig ext
    let w' ← extendGrid w n
    pure (k, w')
  else do
    let n ← numPads w.length k.length numBrig ext
    let k' ← extendGrid k n
    pure (k', w)

/-! ### `float_to_list` (utils.py:66-69) -/

/-- the kinds of argument a user may pass for `k` or `w` (utils.py:66-69) -/
inductive GridArg (R : Type) where
  /-- a Python float (or `numpy.float64`) -/
  | float (x : R)
  /-- a Python integer -/
  | int (n : Int)
  /-- a list or array -/
  | seq (xs : List R)

/-- `float_to_list(val)`, followed by the iteration over the result in the callers, which raises
`TypeError` for an integer (utils.py:66-69). -/
def floatToList : GridArg R → Py (List R)
  | .float x => .ok [x]
  | .int _ => .error .typeError
  | .seq xs => .ok xs

/-! ### `time_remaining`, `_elapsed_time_str` (utils.py:76-107) -/

/-- `time_remaining(time_elapsed, percentage_complete)`: Python raises `ZeroDivisionError` at 0, here
`valueError` (utils.py:76-83) -/
def timeRemaining [DecidableEq R] (elapsed pc : R) : Py R :=
  if pc = 100 then .ok 0
  else if pc = 0 then .error .valueError
  else .ok ((100 - pc) * elapsed / pc)

/-- `_elapsed_time_str(dt)`: number and unit (utils.py:86-107) -/
def elapsedTime [LinearOrder R] (dt : R) : R × String :=
  if dt < 10 then (dt, "s")
  else if dt < 600 then (dt / 60, "m")
  else if dt < 36000 then (dt / 3600, "h")
  else (dt / 86400, "d")

end GGCE
