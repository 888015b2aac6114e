import Verif.Proofs.Parallel
import Verif.Model.Interrupt

/-! A process that is alone does what the models of one process say. -/

set_option linter.unusedSectionVars false

namespace GGCE

namespace Todo
variable {S A α β : Type}

theorem alone_bind (x : Todo S A α) (f : α → Todo S A β) (s : S) : (x >>= f).alone s = match x.alone s with
    | (l, .ok a, s') => (l ++ ((f a).alone s').1, ((f a).alone s').2)
    | (l, .error e, s') => (l, .error e, s') := by
  rw [bind_def]
  induction x generalizing s with
  | stop r => cases r with
    | error e => rfl
    | ok a => simp [Todo.andThen, alone]
  | read g k ih => simp only [Todo.andThen, alone, ih]
  | write g k ih => simp only [Todo.andThen, alone, ih]
  | say a k ih =>
    simp only [Todo.andThen, alone, ih]
    rcases k.alone s with ⟨l, _ | a, s'⟩ <;> rfl

theorem alone_attempt (x : Todo S A α) (s : S) : x.attempt.alone s = ((x.alone s).1, .ok (x.alone s).2.1, (x.alone s).2.2) := by
  induction x generalizing s with
  | stop r => rfl
  | read g k ih => simp only [attempt, alone, ih]
  | write g k ih => simp only [attempt, alone, ih]
  | say a k ih => simp only [attempt, alone, ih]

end Todo

variable {R K : Type} [Field R] [LinearOrder R] [Field K]

namespace Act
open Todo
variable {α β : Type}

/-- alone on the disk `st`, `x` does what `y` does -/
def Acts (x : Act R K α) (y : Io R α) (st : Store R K) : Prop :=
  x.alone st = ([], (y st.fs).result, { st with fs := (y st.fs).fs })

theorem Acts.bind {x : Act R K α} {y : Io R α} {f : α → Act R K β} {g : α → Io R β} {st : Store R K} (h : Acts x y st)
    (hf : ∀ a, (y st.fs).result = .ok a → Acts (f a) (g a) { st with fs := (y st.fs).fs }) :
    Acts (x >>= f) (y >>= g) st := by
  unfold Acts at *
  rw [alone_bind, h]
  change _ = ([], (Io.andThen y g st.fs).result, { st with fs := (Io.andThen y g st.fs).fs })
  unfold Io.andThen
  cases hy : (y st.fs).result with
  | error e => rfl
  | ok a =>
    simp only
    rw [hf a hy]
    rfl

theorem Acts.pure (a : α) (st : Store R K) : Acts (Pure.pure a) (Pure.pure a : Io R α) st := rfl

theorem Acts.lift (r : Py α) (st : Store R K) : Acts (.stop r) (Io.lift r : Io R α) st := rfl

theorem mkdir_acts (r : String) (st : Store R K) : Acts (mkdir r) (Io.mkdir r) st := rfl

theorem put_put (fs : FS R) (r : String) (d d' : Dir R) : (fs.put r d).put r d' = fs.put r d' := by
  funext q
  simp only [FS.put]
  split <;> rfl

theorem put_at (fs : FS R) (r : String) (d : Dir R) : (fs.put r d).at r = d := by simp [FS.at, FS.put]

theorem writeFile_acts (r : String) (upd : File β → Dir R → Dir R) (b : β) (h : ∀ f f' d, upd f (upd f' d) = upd f d)
    (st : Store R K) : Acts (writeFile r upd b) (Io.write r upd b) st := by
  change (([], .ok (), ⟨(st.fs.put r (upd .torn (st.fs.at r))).put r (upd (.full b)
    ((st.fs.put r (upd .torn (st.fs.at r))).at r)), st.results⟩) :
      List (Py (Answer K)) × Py Unit × Store R K) = _
  rw [put_at, h, put_put]
  rfl

theorem load_acts (r : String) (get : Dir R → Option (File β)) (st : Store R K) :
    Acts (load r get) (Io.load (get (st.fs.at r))) st := by
  unfold Acts load look
  simp only [bind_def, Todo.andThen, alone]
  rcases hg : get (st.fs.at r) with _ | _ | a
  · rfl
  · simp only [Option.isNone_some, Bool.false_eq_true, if_false, alone, hg]; rfl
  · simp only [Option.isNone_some, Bool.false_eq_true, if_false, alone, hg]; rfl

theorem load_fs (f : Option (File β)) (fs : FS R) : (Io.load f fs).fs = fs := by
  rcases f with _ | _ | a <;> rfl

theorem saveModel_acts (s : Sys R) (st : Store R K) : Acts (saveModel s) s.saveModel st := by
  unfold saveModel Sys.saveModel
  cases s.root with
  | none => rfl
  | some r => exact writeFile_acts r (fun f d => { d with model := some f }) _ (fun _ _ _ => rfl) st

theorem saveAttr_acts (r : String) (get : Dir R → Option (File β)) (upd : File β → Dir R → Dir R) (obj : Option β)
    (h : ∀ f f' d, upd f (upd f' d) = upd f d) (st : Store R K) :
    Acts (saveAttr r get upd obj) (Sys.saveAttr r get upd obj) st := by
  cases obj with
  | none => rfl
  | some b =>
    unfold saveAttr Sys.saveAttr
    by_cases hg : (get (st.fs.at r)).isNone
    · have h1 : (look (K := K) r get >>= fun there => if there.isNone then writeFile r upd b else pure ()).alone st =
          (writeFile r upd b).alone st := by
        simp only [look, bind_def, Todo.andThen, alone, hg, if_true]
      have h2 : (Io.look r >>= fun d => if (get d).isNone then Io.write r upd b else pure ()) st.fs =
          ⟨(Io.write r upd b st.fs).result, (Io.write r upd b st.fs).fs, [] ++ (Io.write r upd b st.fs).states⟩ := by
        change Io.andThen _ _ _ = _
        simp only [Io.andThen, Io.look, hg, if_true]
      have h3 := writeFile_acts r upd b h st
      unfold Acts at h3 ⊢
      simp only
      rw [h1, h2, h3]
    · have h1 : (look (K := K) r get >>= fun there => if there.isNone then writeFile r upd b else pure ()).alone st =
          ([], .ok (), st) := by
        simp only [look, bind_def, Todo.andThen, alone, hg]; rfl
      have h2 : (Io.look r >>= fun d => if (get d).isNone then Io.write r upd b else pure ()) st.fs = ⟨.ok (), st.fs, []⟩ := by
        change Io.andThen _ _ _ = _
        simp only [Io.andThen, Io.look, hg]; rfl
      unfold Acts
      simp only
      rw [h1, h2]

theorem checkpoint_acts (s : Sys R) (st : Store R K) : Acts (checkpoint s) s.checkpoint st := by
  unfold checkpoint Sys.checkpoint
  cases s.root with
  | none => rfl
  | some r =>
    simp only
    split
    · rfl
    · exact Acts.bind (saveAttr_acts r _ (fun f d => { d with gens := some f }) _ (fun _ _ _ => rfl) st) (fun _ _ => Acts.bind
        (saveAttr_acts r _ (fun f d => { d with fargs := some f }) _ (fun _ _ _ => rfl) _) (fun _ _ =>
          saveAttr_acts r _ (fun f d => { d with eqs := some f }) _ (fun _ _ _ => rfl) _))

theorem prime_acts (σ : SetOrder) (s : Sys R) (st : Store R K) : Acts (prime σ s) (s.prime σ) st := by
  unfold prime Sys.prime
  refine Acts.bind (Acts.lift _ _) (fun s1 _ => Acts.bind (checkpoint_acts s1 _) (fun _ _ => Acts.bind (Acts.lift _ _)
    (fun s2 _ => Acts.bind (checkpoint_acts s2 _) (fun _ _ => ?_))))
  cases s2.eqs with
  | none => rfl
  | some e => exact Acts.bind (Acts.lift _ _) (fun _ _ => rfl)

theorem init_acts (σ : SetOrder) (s : Sys R) (st : Store R K) : Acts (init σ s) (s.init σ true) st := by
  unfold init Sys.init
  have key : ∀ st : Store R K, Acts (do saveModel s; prime σ s) (do s.saveModel; if true then s.prime σ else pure s) st :=
    fun st => Acts.bind (saveModel_acts s st) (fun _ _ => prime_acts σ s _)
  cases hr : s.root with
  | none => exact key st
  | some r => exact Acts.bind (mkdir_acts r st) (fun _ _ => key _)

theorem fromCheckpoint_acts (σ : SetOrder) (r : String) (st : Store R K) :
    Acts (fromCheckpoint σ r) (Sys.fromCheckpoint σ r) st := by
  have key : ∀ m : Model R, Acts (K := K) (do
      let g ← load r Dir.gens
      let f ← load r Dir.fargs
      let e ← load r Dir.eqs
      init σ ⟨some r, m, g, f, e, 1000000⟩) (do
      let g ← Io.load (st.fs.at r).gens
      let f ← Io.load (st.fs.at r).fargs
      let e ← Io.load (st.fs.at r).eqs
      Sys.init σ ⟨some r, m, g, f, e, 1000000⟩ true) st := by
    intro m
    refine Acts.bind (load_acts r Dir.gens st) (fun g _ => ?_)
    rw [load_fs]
    refine Acts.bind (load_acts r Dir.fargs st) (fun f _ => ?_)
    rw [load_fs]
    refine Acts.bind (load_acts r Dir.eqs st) (fun e _ => ?_)
    rw [load_fs]
    exact init_acts σ _ st
  have h2 : ∀ y : Dir R → Io R (Sys R), (Io.look r >>= y) st.fs =
      ⟨(y (st.fs.at r) st.fs).result, (y (st.fs.at r) st.fs).fs, [] ++ (y (st.fs.at r) st.fs).states⟩ := fun y => rfl
  unfold Acts fromCheckpoint Sys.fromCheckpoint look
  rw [h2]
  simp only [bind_def, Todo.andThen, alone]
  rcases hg : (st.fs.at r).model with _ | _ | m
  · rfl
  · simp only [Option.isNone_some, Bool.false_eq_true, if_false, alone, hg]; rfl
  · simp only [Option.isNone_some, Bool.false_eq_true, if_false, alone, hg]
    exact key m

theorem solverInit_acts (σ : SetOrder) (system : Option (Sys R)) (root : Option String) (st : Store R K) :
    Acts (solverInit σ system root) (GGCE.solverInit σ system root) st := by
  have key : ∀ (x : Act R K (Sys R)) (y : Io R (Sys R)) (st : Store R K), Acts x y st →
      Acts (do let s ← x; checkpoint s; pure s) (do let s ← y; s.checkpoint; pure s) st :=
    fun x y st h => Acts.bind h (fun s _ => Acts.bind (checkpoint_acts s _) (fun _ _ => rfl))
  unfold solverInit GGCE.solverInit
  cases root with
  | none =>
    cases system with
    | none => exact key _ _ st rfl
    | some s => exact key _ _ st rfl
  | some r =>
    refine Acts.bind (mkdir_acts r st) (fun _ _ => ?_)
    cases system with
    | none => exact key _ _ _ (fromCheckpoint_acts σ r _)
    | some s => exact key _ _ _ rfl

theorem io_assoc {γ : Type} (x : Io R α) (f : α → Io R β) (g : β → Io R γ) :
    (x >>= f) >>= g = x >>= fun a => f a >>= g := by
  funext fs
  change Io.andThen (Io.andThen x f) g fs = Io.andThen x (fun a => Io.andThen (f a) g) fs
  unfold Io.andThen
  cases (x fs).result with
  | error e => rfl
  | ok a =>
    simp only
    cases (f a (x fs).fs).result <;> simp

theorem newSolver_acts (σ : SetOrder) (kind : SolverKind K) (system : Option (Sys R)) (root : Option String)
    (st : Store R K) : Acts (newSolver σ kind system root) (SolverObj.new σ kind system root) st := by
  unfold newSolver SolverObj.new sparseInit denseInit
  cases kind with
  | sparse sp =>
    simp only [io_assoc]
    refine Acts.bind (solverInit_acts σ system root st) (fun s _ => ?_)
    cases s.eqs <;> rfl
  | dense =>
    simp only [io_assoc]
    refine Acts.bind (solverInit_acts σ system root st) (fun s _ => ?_)
    cases s.eqs <;> rfl

theorem construct_acts (m : Model R) (s : Script R K) (st : Store R K) : Acts (construct m s) (s.construct m) st := by
  unfold construct Script.construct
  cases s.source with
  | fresh sysRoot lim solverRoot =>
    exact Acts.bind (init_acts s.order _ st) (fun sys _ => newSolver_acts _ _ _ _ _)
  | resume r => exact newSolver_acts _ _ _ _ _

/-! ### the calls -/

variable [FloorRing R]

/-- alone on the disk `st`, `x` does what `y` does with the results directory -/
def Does (root : Option String) (x : Act R K α) (y : ResultDir (Option K) → Steps (Option K) α) (st : Store R K) : Prop :=
  x.alone st = ([], (y (root.map st.results)).result, st.putResults root (y (root.map st.results)).dir) ∧
    ((y (root.map st.results)).dir = none ↔ root = none)

theorem putResults_results (st : Store R K) (root : Option String) (d : ResultDir (Option K)) (h : d = none ↔ root = none) :
    root.map (st.putResults root d).results = d ∧ ∀ d', (d' = none ↔ root = none) →
      (st.putResults root d).putResults root d' = st.putResults root d' := by
  cases root with
  | none => exact ⟨(h.2 rfl).symm, fun _ _ => rfl⟩
  | some r =>
    cases d with
    | none => exact absurd (h.1 rfl) (by simp)
    | some d =>
      refine ⟨by simp [Store.putResults], fun d' hd' => ?_⟩
      cases d' with
      | none => exact absurd (hd'.1 rfl) (by simp)
      | some d' =>
        simp only [Store.putResults, Store.mk.injEq, true_and]
        funext q
        split <;> rfl

theorem putResults_none (st : Store R K) (root : Option String) : st.putResults root (root.map st.results) = st := by
  unfold Store.putResults
  cases root with
  | none => rfl
  | some r =>
    obtain ⟨fs, res⟩ := st
    simp only [Option.map_some, Store.mk.injEq, true_and]
    funext q
    split
    · rename_i h; rw [h]
    · rfl

theorem set_set {κ ν : Type} [DecidableEq κ] (d : Dict κ ν) (k : κ) (v v' : ν) : (d.set k v).set k v' = d.set k v' := by
  induction d with
  | nil => simp [Dict.set]
  | cons x d ih =>
    obtain ⟨k', w⟩ := x
    unfold Dict.set
    by_cases h : k' = k
    · simp [h, Dict.set]
    · simp only [h, if_false, Dict.set, ih]

theorem solve_does (raw : Point R → Py (Option K)) (root : Option String) (p : Point R) (st : Store R K) :
    Does root (solve raw root p) (fun d => solveSteps raw d p) st := by
  unfold Does solve solveSteps preRead
  cases root with
  | none => cases hr : raw p <;> simp [alone, Store.putResults]
  | some r =>
    have same := putResults_none st (some r)
    simp only [Option.map_some] at same
    simp only [Option.map_some, lookResult, bind_def, Todo.andThen, alone]
    rcases hg : (st.results r).get? (cacheKey p) with _ | _ | v
    · simp only [Option.isNone_none, if_true]
      cases hr : raw p with
      | error e =>
        refine ⟨?_, by simp⟩
        simp only [same]
        rfl
      | ok G =>
        refine ⟨?_, by simp⟩
        simp only [Todo.andThen, changeResult, alone, Store.putResults, pure_def, if_true, set_set, Prod.mk.injEq, true_and,
          Store.mk.injEq]
        funext q
        split <;> rfl
    · simp only [Option.isNone_some, Bool.false_eq_true, if_false, alone, hg, same]
      simp
    · simp only [Option.isNone_some, Bool.false_eq_true, if_false, alone, hg, same]
      simp [pure_def, alone]

theorem solveAll_does (raw : Point R → Py (Option K)) (root : Option String) (ps : List (Point R)) (st : Store R K) :
    Does root (solveAll raw root ps) (solveAllSteps raw ps) st := by
  induction ps generalizing st with
  | nil => exact ⟨by simp only [solveAllSteps, putResults_none]; rfl, by cases root <;> simp [solveAllSteps]⟩
  | cons p ps ih =>
    obtain ⟨h1, h2⟩ := solve_does raw root p st
    simp only at h1 h2
    obtain ⟨e1, e2⟩ := putResults_results st root _ h2
    unfold Does solveAll solveAllSteps
    rw [alone_bind, h1]
    cases hx : (solveSteps raw (root.map st.results) p).result with
    | error e => simp only [hx]; exact ⟨trivial, h2⟩
    | ok G =>
      obtain ⟨h3, h4⟩ := ih (st.putResults root (solveSteps raw (root.map st.results) p).dir)
      rw [e1] at h3 h4
      rw [e2 _ h4] at h3
      simp only [hx]
      rw [alone_bind, h3]
      refine ⟨?_, h4⟩
      cases (solveAllSteps raw ps (solveSteps raw (root.map st.results) p).dir).result <;> rfl

theorem call_does (raw : Point R → Py (Option K)) (root : Option String) (c : Call R) (st : Store R K) :
    Does root (call raw root c) (callSteps raw c) st := by
  cases c with
  | solve p =>
    obtain ⟨h1, h2⟩ := solve_does raw root p st
    simp only at h1 h2
    unfold Does call callSteps
    simp only
    rw [alone_bind, h1]
    refine ⟨?_, h2⟩
    cases (solveSteps raw (root.map st.results) p).result <;> rfl
  | grid k w eta =>
    have hn : root.map st.results = none ↔ root = none := by cases root <;> simp
    unfold Does call callSteps
    cases hk : floatToList k with
    | error e =>
      simp only [hk, putResults_none]
      exact ⟨rfl, hn⟩
    | ok ks =>
      cases hw : floatToList w with
      | error e =>
        simp only [hk, hw, putResults_none]
        exact ⟨rfl, hn⟩
      | ok ws =>
        obtain ⟨h1, h2⟩ := solveAll_does raw root ((jobList ks ws).map (fun j => (⟨j.1, j.2, eta⟩ : Point R))) st
        simp only [hk, hw]
        refine ⟨?_, h2⟩
        change (solveAll raw root _ >>= _).alone st = _
        rw [alone_bind, h1]
        cases (solveAllSteps raw ((jobList ks ws).map (fun j => (⟨j.1, j.2, eta⟩ : Point R))) (root.map st.results)).result with
        | error e => rfl
        | ok Gs =>
          simp only [Except.bind]
          cases reshapeGrid Gs ks.length ws.length <;> rfl

theorem calls_does (raw : Point R → Py (Option K)) (root : Option String) (cs : List (Call R)) (st : Store R K)
    (done : List (Py (Answer K))) : ∃ y,
      ((done, root.map st.results) :: callsLife raw cs done (root.map st.results)).getLast? = some y ∧
      (y.2 = none ↔ root = none) ∧ y.1 = done ++ ((calls raw root cs).alone st).1 ∧
      st.putResults root y.2 = ((calls raw root cs).alone st).2.2 := by
  induction cs generalizing st done with
  | nil =>
    refine ⟨(done, root.map st.results), rfl, by cases root <;> simp, ?_, ?_⟩
    · simp [calls, pure_def, alone]
    · simp [calls, pure_def, alone, putResults_none]
  | cons c cs ih =>
    obtain ⟨h1, h2⟩ := call_does raw root c st
    obtain ⟨e1, e2⟩ := putResults_results st root _ h2
    unfold calls callsLife
    rw [alone_bind, alone_attempt, h1]
    simp only
    rw [List.getLast?_cons, List.getLast?_append]
    cases hx : (callSteps raw c (root.map st.results)).result with
    | error e =>
      refine ⟨(done ++ [.error e], (callSteps raw c (root.map st.results)).dir), by simp, h2, ?_, ?_⟩
      · simp [alone]
      · simp [alone]
    | ok a =>
      obtain ⟨y, k1, k2, k3, k4⟩ := ih (st.putResults root (callSteps raw c (root.map st.results)).dir) (done ++ [.ok a])
      rw [e1] at k1
      rw [e2 _ k2] at k4
      simp only
      rw [k1]
      refine ⟨y, by simp, k2, ?_, ?_⟩
      · simp [alone, k3]
      · simp [alone, k4]

/-- a program that is alone: what it prints, and the disk in the end, are the last of its steps in Verif/Model/Interrupt.lean -/
theorem program_does (F : Phys R K) (m : Model R) (s : Script R K) (st : Store R K) :
    (s.life F m st).getLast? = some (((program F m s).alone st).1, ((program F m s).alone st).2.2) := by
  have h := construct_acts m s st
  unfold Acts at h
  unfold program Script.life
  rw [alone_bind, alone_attempt, h]
  simp only
  rw [List.getLast?_cons, List.getLast?_append]
  cases hc : (s.construct m st.fs).result with
  | error e => simp [alone]
  | ok o =>
    obtain ⟨y, k1, k2, k3, k4⟩ := calls_does (o.raw F) s.source.solverRoot s.calls { st with fs := (s.construct m st.fs).fs } []
    have e := putResults_none ({ st with fs := (s.construct m st.fs).fs } : Store R K) s.source.solverRoot
    simp only at k1 k3 k4 e ⊢
    have e' : (([] : List (Py (Answer K))), ({ st with fs := (s.construct m st.fs).fs } : Store R K)) =
        (fun x : List (Py (Answer K)) × ResultDir (Option K) =>
          (x.1, Store.putResults { st with fs := (s.construct m st.fs).fs } s.source.solverRoot x.2))
          ([], s.source.solverRoot.map st.results) := by
      simp only [e]
    rw [e', ← List.map_cons (f := fun x : List (Py (Answer K)) × ResultDir (Option K) =>
          (x.1, Store.putResults { st with fs := (s.construct m st.fs).fs } s.source.solverRoot x.2)), List.getLast?_map, k1]
    simp only [Option.map_some, Option.some_or, Option.getD_some, k3, k4, List.nil_append]

end Act
end GGCE
