import Verif.Spec.Inexact
import Verif.Model.Parallel

/-! Programs that run at the same time. -/

namespace GGCE.Spec
open GGCE.Props

/-- The disks and processes that programs for one model lead to, if they may be started at any moment and take their steps in
any order. Between the steps of one program others may take any number of steps. A process that is killed is one that
takes no more steps. `solvers` says which solvers the programs use. -/
inductive Reach (m : Model ℝ) (solvers : SolverKind ℂ → Prop) : Store ℝ ℂ → List (Running ℝ ℂ) → Prop
  | empty {st : Store ℝ ℂ} : Store.Empty st → Reach m solvers st []
  | start {st : Store ℝ ℂ} {ps : List (Running ℝ ℂ)} (s : Script ℝ ℂ) : Reach m solvers st ps → solvers s.kind →
      Reach m solvers st (ps ++ [⟨s, [], Act.program realPhys m s⟩])
  | step {st : Store ℝ ℂ} {ps : List (Running ℝ ℂ)} (i : ℕ) (p : Running ℝ ℂ) : Reach m solvers st ps → ps[i]? = some p →
      Reach m solvers (p.move st).1 (ps.set i (p.move st).2)

/-- a process after `n` steps, if the disk is `st 0` at its first step, `st 1` at its second, and so on -/
def Running.after (p : Running ℝ ℂ) (st : ℕ → Store ℝ ℂ) : ℕ → Running ℝ ℂ
  | 0 => p
  | n + 1 => Running.after (p.move (st 0)).2 (fun i => st (i + 1)) n

/-- a process and the disk after `n` steps of it, if no other process acts -/
def Running.solo {R K : Type} (p : Running R K) (st : Store R K) : ℕ → Store R K × Running R K
  | 0 => (st, p)
  | n + 1 => Running.solo (p.move st).2 (p.move st).1 n

/-- the points that a call asks for -/
def Call.points : Call ℝ → List (Point ℝ)
  | .solve p => [p]
  | .grid k w eta => ((gridPoints k).getD []).flatMap (fun x => ((gridPoints w).getD []).map (fun y => ⟨x, y, eta⟩))

/-- the result files of a program: those with the name `c` in the results directory of the root `r` -/
def Script.Uses (s : Script ℝ ℂ) (r : String) (c : PyStr) : Prop :=
  s.source.solverRoot = some r ∧ ∃ call ∈ s.calls, ∃ p ∈ Call.points call, cacheKey p = c

/-- A program that raises nothing if it runs alone on an empty disk: it constructs its system, its linear solver does not
raise, and its calls have proper arguments. -/
structure Steady (s : Script ℝ ℂ) : Prop where
  source : ∃ r lim r', s.source = .fresh r lim r'
  kind : KindAnswers s.kind
  calls : ∀ c ∈ s.calls, Call.Ok c

end GGCE.Spec
