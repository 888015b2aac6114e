import Verif.Model.Script

/-!
Programs that may be killed at any moment. As in Verif/Model/Disk.lean, writing a file is two steps: opening it, which
empties it, and filling it. Here this also holds for the files in the results directory, and a program is the list of
everything it goes through: after each step, the answers it has given so far and the disk. A program that is killed
leaves one of these disks. That the last one is what `Script.run` gives is `C107_uninterrupted`.

Reading an incomplete file raises an exception (`EOFError`, `UnpicklingError` or `JSONDecodeError`). Log messages are not
modelled here.
-/

namespace GGCE

variable {R K V : Type} [Field R] [LinearOrder R] [Field K]

/-- the disk, with complete and incomplete files (system.py:290-293, 331-337, solvers.py:142) -/
structure Store (R K : Type) where
  fs : FS R
  results : String → Dict PyStr (File (Option K))

/-- a results directory (`none`: no root given) (solvers.py:59-69) -/
abbrev ResultDir (V : Type) := Option (Dict PyStr (File V))

/-- `_pre_solve` (solvers.py:128-136): the stored result, if the file exists -/
def preRead [FloorRing R] (dir : ResultDir V) (p : Point R) : Py (Option V) := match dir with
  | none => .ok none
  | some d => match d.get? (cacheKey p) with
    | none => .ok none
    | some (.full G) => .ok (some G)
    | some .torn => .error .eofError

/-- what happens in a call: its result, the results directory afterwards, and all its states in order (without the
initial one) (solvers.py:127-142) -/
structure Steps (V α : Type) where
  result : Py α
  dir : ResultDir V
  states : List (ResultDir V)

/-- `solve` (solvers.py:335-347, 419-450), step by step; the file is written in `_post_solve` (141-142) -/
def solveSteps [FloorRing R] (raw : Point R → Py V) (dir : ResultDir V) (p : Point R) : Steps V V :=
  match preRead dir p with
  | .error e => ⟨.error e, dir, []⟩
  | .ok (some G) => ⟨.ok G, dir, []⟩
  | .ok none => match raw p with
    | .error e => ⟨.error e, dir, []⟩
    | .ok G => ⟨.ok G, dir.map (fun d => d.set (cacheKey p) (.full G)),
        [dir.map (fun d => d.set (cacheKey p) .torn), dir.map (fun d => d.set (cacheKey p) (.full G))]⟩

/-- the loop of `greens_function` (solvers.py:171-173), step by step -/
def solveAllSteps [FloorRing R] (raw : Point R → Py V) : List (Point R) → ResultDir V → Steps V (List V)
  | [], dir => ⟨.ok [], dir, []⟩
  | p :: ps, dir =>
    let x := solveSteps raw dir p
    match x.result with
    | .error e => ⟨.error e, x.dir, x.states⟩
    | .ok G =>
      let y := solveAllSteps raw ps x.dir
      ⟨y.result.map (G :: ·), y.dir, x.states ++ y.states⟩

/-- one call, step by step (solvers.py:144-190, 335-347) -/
def callSteps [FloorRing R] (raw : Point R → Py (Option K)) (c : Call R) (dir : ResultDir (Option K)) :
    Steps (Option K) (Answer K) := match c with
  | .solve p =>
    let x := solveSteps raw dir p
    ⟨x.result.map .value, x.dir, x.states⟩
  | .grid k w eta =>
    match floatToList k, floatToList w with
    | .ok ks, .ok ws =>
      let x := solveAllSteps raw ((jobList ks ws).map (fun j => ⟨j.1, j.2, eta⟩)) dir
      ⟨x.result.bind (fun Gs => (reshapeGrid Gs ks.length ws.length).map .matrix), x.dir, x.states⟩
    | .error e, _ => ⟨.error e, dir, []⟩
    | _, .error e => ⟨.error e, dir, []⟩

/-- the calls of a program, step by step: the answers so far and the results directory
(solvers.py:144-190, 335-347) -/
def callsLife [FloorRing R] (raw : Point R → Py (Option K)) :
    List (Call R) → List (Py (Answer K)) → ResultDir (Option K) →
      List (List (Py (Answer K)) × ResultDir (Option K))
  | [], _, _ => []
  | c :: cs, done, dir =>
    let x := callSteps raw c dir
    x.states.map (fun d => (done, d)) ++ (done ++ [x.result], x.dir) :: match x.result with
      | .error _ => []
      | .ok _ => callsLife raw cs (done ++ [x.result]) x.dir

/-- the disk when the results directory of a solver has changed (solvers.py:142) -/
def Store.putResults (st : Store R K) (root : Option String) (dir : ResultDir (Option K)) : Store R K :=
  { st with results := match root, dir with
      | some r, some d => fun q => if q = r then d else st.results q
      | _, _ => st.results }

/-- a program for the model `m`, step by step: the answers so far and the disk
(system.py:381-438, solvers.py:50-81, 144-190) -/
noncomputable def Script.life [FloorRing R] (F : Phys R K) (m : Model R) (s : Script R K) (st : Store R K) :
    List (List (Py (Answer K)) × Store R K) :=
  let c := s.construct m st.fs
  ([], st) :: (c.states.map (fun fs => ([], { st with fs := fs })) ++
    match c.result with
    | .error e => [([.error e], { st with fs := c.fs })]
    | .ok o => ([], { st with fs := c.fs }) ::
      (callsLife (o.raw F) s.calls [] (s.source.solverRoot.map st.results)).map
        (fun x => (x.1, Store.putResults { st with fs := c.fs } s.source.solverRoot x.2)))

end GGCE
