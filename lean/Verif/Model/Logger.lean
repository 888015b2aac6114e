import Verif.Model.Config

/-!
`ggce/logger.py`, on top of the part of loguru it uses: handlers with a minimal level and a filter, called in the
order in which they were added, and the activation of modules by name. loguru is modelled from its source
(`_logger.py`: `Logger.add`, `Logger.remove`, `Logger._change_activation`, `Logger._log`; `_handler.py`:
exceptions of a sink are caught only if they are an `Exception`, so `SystemExit` passes). Not modelled: formats,
colours, times, and user handlers added besides `configure_loggers`.
-/

namespace GGCE.Log

/-- the levels used (the names in logger.py:52-55, 121-128) -/
inductive Level where
  | debug | info | success | warning | error | critical
  deriving DecidableEq, Repr

/-- severity numbers of loguru (the names in logger.py:52-55, 121-128) -/
def Level.no : Level → Nat
  | .debug => 10
  | .info => 20
  | .success => 25
  | .warning => 30
  | .error => 40
  | .critical => 50

/-- what a handler does with a record (logger.py:90-128) -/
inductive Action where
  | stdout | stderr
  /-- `lambda _: sys.exit(1)` or `lambda _: COMM.Abort()` -/
  | exit
  /-- `lambda _: warn(...)` -/
  | warn
  deriving DecidableEq, Repr

/-- a handler; `filter = none` accepts all names (logger.py:21-28) -/
structure Handler where
  min : Level := .debug
  filter : Option (List Level) := none
  action : Action
  deriving DecidableEq, Repr

/-- the arguments of `configure_loggers` (logger.py:51-59) other than formats -/
structure ConfigArgs where
  stdoutFilter : List Level := [.info, .success]
  stderrWarnings : Option (List Level) := some [.warning]
  stderrFilter : Option (List Level) := some [.error, .critical]
  warnings : Bool := false

/-- the handlers after `configure_loggers` (logger.py:85-128) on the given rank. `sys.exit` and `COMM.Abort`
(world size one or more) are both `exit`. -/
def handlersOf (rank : Nat) (a : ConfigArgs) : List Handler :=
  (if .debug ∈ a.stdoutFilter then [{ filter := some [.debug], action := .stdout }] else []) ++
  (if rank = 0 then
    [{ filter := some (a.stdoutFilter.filter (· ≠ .debug)), action := .stdout },
     { filter := a.stderrWarnings, action := .stdout }] else []) ++
  [{ filter := a.stderrFilter, action := .stderr }, { min := .critical, action := .exit }] ++
  (if a.warnings then [{ min := .warning, action := .warn }, { min := .error, action := .warn }] else [])

/-- the global state of the logger: handlers, and `activation_list` (names with a final dot, deepest first)
(loguru, configured in logger.py:85-128) -/
structure State where
  handlers : List Handler
  acts : List (PyStr × Bool)
  deriving DecidableEq, Repr

/-- the name with its final dot; the empty name stays empty (loguru, for logger.py:159, 163) -/
def dotted (name : PyStr) : PyStr := if name = [] then [] else name ++ ['.']

/-- number of dots: the depth by which loguru sorts (loguru, for logger.py:159, 163) -/
def depth (n : PyStr) : Nat := n.count '.'

/-- appending and sorting by depth, deepest first (stable, and the list is sorted already)
(loguru, for logger.py:159, 163) -/
def insertAct (q : PyStr × Bool) : List (PyStr × Bool) → List (PyStr × Bool)
  | [] => [q]
  | q' :: l => if depth q'.1 < depth q.1 then q :: q' :: l else q' :: insertAct q l

/-- `Logger._change_activation` (loguru, for logger.py:159, 163) -/
def changeActivation (acts : List (PyStr × Bool)) (name : PyStr) (status : Bool) : List (PyStr × Bool) :=
  let nm := dotted name
  let rest := acts.filter (fun q => !(nm.isPrefixOf q.1))
  let parent := (rest.find? (fun q => q.1.isPrefixOf nm)).map Prod.snd
  if parent ≠ some status ∧ ¬(nm = [] ∧ status = true) then insertAct (nm, status) rest else rest

/-- whether records of a module are processed: the first entry that is a prefix of its dotted name decides
(loguru, for logger.py:159, 163) -/
def enabled (acts : List (PyStr × Bool)) (mod : PyStr) : Bool :=
  ((acts.find? (fun q => q.1.isPrefixOf (mod ++ ['.']))).map Prod.snd).getD true

/-- `logger.disable` (logger.py:159) -/
def State.disable (s : State) (name : PyStr) : State := { s with acts := changeActivation s.acts name false }
/-- `logger.enable` (logger.py:163) -/
def State.enable (s : State) (name : PyStr) : State := { s with acts := changeActivation s.acts name true }

/-- `configure_loggers`: `logger.remove(None)` first (logger.py:85) -/
def State.configure (rank : Nat) (a : ConfigArgs) (s : State) : State := { s with handlers := handlersOf rank a }

/-- `DEBUG()` (logger.py:131-134) -/
def State.debugOn (rank : Nat) (s : State) : State := s.configure rank { stdoutFilter := [.debug, .info, .success] }
/-- `_TESTING_MODE()` (logger.py:137-146) -/
def State.testing (rank : Nat) (s : State) : State :=
  s.configure rank { stdoutFilter := [.debug, .info, .success], warnings := true }
/-- `DISABLE_DEBUG()` (logger.py:149-152) -/
def State.debugOff (rank : Nat) (s : State) : State := s.configure rank { stdoutFilter := [.info, .success] }

/-- after `import ggce.logger` (logger.py:184) -/
def imported (rank : Nat) : State := State.debugOff rank ⟨[], []⟩

/-- whether a handler takes a record: its filter and its level (logger.py:21-28, 90-128) -/
def Handler.accepts (h : Handler) (l : Level) : Bool :=
  decide (h.min.no ≤ l.no) && (match h.filter with | none => true | some f => decide (l ∈ f))

/-- the handlers in order; the program ends at the first `exit` (loguru, for the handlers of logger.py:90-128) -/
def emitLoop (l : Level) : List Handler → List Action × Bool
  | [] => ([], false)
  | h :: hs =>
    if h.accepts l then
      if h.action = .exit then ([], true)
      else
        let r := emitLoop l hs
        (h.action :: r.1, r.2)
    else emitLoop l hs

/-- `logger.debug(...)`, ..., `logger.critical(...)` in a module: what is shown, and whether the program ends
(loguru, for the handlers of logger.py:90-128) -/
def emit (s : State) (mod : PyStr) (l : Level) : List Action × Bool :=
  if enabled s.acts mod then emitLoop l s.handlers else ([], false)

/-- `with disable_logger(): body` (logger.py:155-163); `finally` runs whether or not the body raises -/
def withDisabled {α : Type} (body : State → Py α × State) (s : State) : Py α × State :=
  let r := body (s.disable [])
  (r.1, r.2.enable [])

/-- `with debug(): body` (logger.py:175-181) -/
def withDebug {α : Type} (rank : Nat) (body : State → Py α × State) (s : State) : Py α × State :=
  let r := body (s.debugOn rank)
  (r.1, r.2.debugOff rank)

/-- `with _testing_mode(): body` (logger.py:166-172) -/
def withTesting {α : Type} (rank : Nat) (body : State → Py α × State) (s : State) : Py α × State :=
  let r := body (s.testing rank)
  (r.1, r.2.debugOn rank)

/-- statements that act on the logger (logger.py:131-181) -/
inductive Op where
  | configure (a : ConfigArgs)
  | debugOn | debugOff | testing
  | enable (name : PyStr)
  | disable (name : PyStr)

/-- the effect of a statement (logger.py:131-181) -/
def State.op (rank : Nat) (s : State) : Op → State
  | .configure a => s.configure rank a
  | .debugOn => s.debugOn rank
  | .debugOff => s.debugOff rank
  | .testing => s.testing rank
  | .enable n => s.enable n
  | .disable n => s.disable n

/-- a sequence of statements (logger.py:131-181) -/
def State.ops (rank : Nat) (s : State) (os : List Op) : State := os.foldl (State.op rank) s

/-- `logger.critical(...)` as a statement: the program ends or goes on (logger.py:120-124) -/
def critical (s : State) (mod : PyStr) : Py Unit := if (emit s mod .critical).2 then .error .abort else .ok ()

/-- `raise logger.critical(...)`: if the call returns, `raise None` is a `TypeError` (logger.py:120-124) -/
def raiseCritical {α : Type} (s : State) (mod : PyStr) : Py α :=
  match critical s mod with
  | .error e => .error e
  | .ok _ => .error .typeError

/-- the module of the configurations (terms.py:6) -/
def termsMod : PyStr := "ggce.engine.terms".toList
/-- the module of the model (model.py:7) -/
def modelMod : PyStr := "ggce.model".toList
/-- the module of the solvers (solvers.py:12) -/
def solversMod : PyStr := "ggce.executors.solvers".toList

/-- `_validate_config_is_legal` (terms.py:29-39, 140-150): every failed check is a `logger.critical`, after which
the function goes on -/
def validate (s : State) (a : Arr) : Py Unit := do
  if !a.valuesLegal then critical s termsMod
  if a.total = 0 then pure ()
  else do
    let e ← a.edgesLegal
    if e then pure () else critical s termsMod

/-- `Config.__init__` (terms.py:264-282) -/
def newConfig (s : State) (a : Arr) (maxMods : Nat := 1) (mods : Nat := 0) : Py Config := do
  validate s a
  pure ⟨a, maxMods, mods⟩

/-- `Config.remove_phonon_` (terms.py:372-400) with two indexes. Line 390 reads the entry again, so an index
that does not exist raises there if the program did not end. -/
def removePhonon (s : State) (c : Config) (t x : Int) : Py (Config × Int) := do
  if c.maxMods ≤ c.mods then critical s termsMod
  match Arr.npIndex c.arr.nTypes t, Arr.npIndex c.arr.len x with
  | some t', some x' =>
    let a := c.arr.bump t' x' (-1)
    if a.get t' x' < 0 then critical s termsMod
    let (a', shift) ← a.reduce
    pure (⟨a', c.maxMods, c.mods + 1⟩, shift)
  | _, _ =>
    critical s termsMod
    .error .indexError

/-- the setter of `SingleTerm.dag` (model.py:110-114) -/
def setDag (s : State) (x : PyStr) : Py PyStr :=
  if x = ['+'] ∨ x = ['-'] then .ok x else raiseCritical s modelMod

/-- the setters of `SingleTerm.psi` and `phi` (model.py:75-79, 92-96); `none` for a value that is not an array -/
def setPsi {α : Type} (s : State) (x : Option α) : Py (Option α) := do
  if x.isNone then critical s modelMod
  pure x

/-- the logging in `Solver.__init__` with a system (solvers.py:50-81): a warning without a root, the checkpoint
with the logger disabled, a message with a root. `checkpoint` is what the checkpoint does. -/
def solverInit (s : State) (root : Bool) (checkpoint : State → Py Unit × State) :
    Py Unit × State × List (Level × List Action) :=
  let shown := if root then [] else [(Level.warning, (emit s solversMod .warning).1)]
  let r := withDisabled checkpoint s
  match r.1 with
  | .error e => (.error e, r.2, shown)
  | .ok _ => (.ok (), r.2, shown ++ if root then [(Level.info, (emit r.2 solversMod .info).1)] else [])

end GGCE.Log
