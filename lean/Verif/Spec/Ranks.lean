import Verif.Spec.Parallel
import Verif.Model.Ranks

/-! Programs started with `mpirun`, while other programs may run. -/

namespace GGCE.Spec
open GGCE.Props

/-- The disks that the ranks of an MPI program and other programs for the same model lead to, with any order of the steps.
The program is started on a disk `st0` that other programs have used before. Some of these go on while it runs, the rest has
come to an end or was killed; others may be started later. -/
inductive RankReach (m : Model ℝ) (solvers : SolverKind ℂ → Prop) (size : ℕ) (order : ℕ → SetOrder) (s : Script ℝ ℂ)
    (st0 : Store ℝ ℂ) : Store ℝ ℂ → List (Running ℝ ℂ) → List (Rank ℝ ℂ) → Prop
  | start {before ps : List (Running ℝ ℂ)} : Reach m solvers st0 before → (∀ p ∈ ps, p ∈ before) → solvers s.kind →
      RankReach m solvers size order s st0 st0 ps (startRanks realPhys m size order s)
  | rank {st st' : Store ℝ ℂ} {ps : List (Running ℝ ℂ)} {ranks : List (Rank ℝ ℂ)} (i : ℕ) (p p' : Rank ℝ ℂ) :
      RankReach m solvers size order s st0 st ps ranks → ranks[i]? = some p → p.move ranks i st = some (st', p') →
      RankReach m solvers size order s st0 st' ps (ranks.set i p')
  | program {st : Store ℝ ℂ} {ps : List (Running ℝ ℂ)} {ranks : List (Rank ℝ ℂ)} (s' : Script ℝ ℂ) :
      RankReach m solvers size order s st0 st ps ranks → solvers s'.kind →
      RankReach m solvers size order s st0 st (ps ++ [⟨s', [], Act.program realPhys m s'⟩]) ranks
  | other {st : Store ℝ ℂ} {ps : List (Running ℝ ℂ)} {ranks : List (Rank ℝ ℂ)} (i : ℕ) (p : Running ℝ ℂ) :
      RankReach m solvers size order s st0 st ps ranks → ps[i]? = some p →
      RankReach m solvers size order s st0 (p.move st).1 (ps.set i (p.move st).2) ranks

/-- what a rank should print for a call: the answer; for a grid only on rank 0, else `None` -/
def RankExpected (m : Model ℝ) (ae : ℤ) (tol : ℝ → ℝ) (rank : ℕ) : Call ℝ → Option (Answer ℂ) → Prop
  | .solve p, some a => ExpectedTo m ae tol (.solve p) a
  | .grid k w eta, some a => rank = 0 ∧ ExpectedTo m ae tol (.grid k w eta) a
  | .grid _ _ _, none => rank ≠ 0
  | _, none => False

/-- The points of a call that rank `rank` of `size` treats: all for `solve`, its section of the points for a grid, where the
first ranks have one point more if the number of points is no multiple of `size`. -/
def Call.share (size rank : ℕ) (c : Call ℝ) : List (Point ℝ) := match c with
  | .solve p => [p]
  | .grid k w eta =>
    let ps := Call.points (.grid k w eta)
    let from_ := fun i => i * (ps.length / size) + min i (ps.length % size)
    (ps.drop (from_ rank)).take (from_ (rank + 1) - from_ rank)

/-- the result files of one rank -/
def RankUses (s : Script ℝ ℂ) (size rank : ℕ) (r : String) (c : PyStr) : Prop :=
  s.source.solverRoot = some r ∧ ∃ call ∈ s.calls, ∃ p ∈ Call.share size rank call, cacheKey p = c

/-- No result file is used by two ranks, or by a rank and another program that runs, and at the start none of them is an
incomplete file of a program that was killed. -/
structure Alone (s : Script ℝ ℂ) (size : ℕ) (st0 : Store ℝ ℂ) (ps : List (Running ℝ ℂ)) : Prop where
  ranks : ∀ i < size, ∀ j < size, i ≠ j → ∀ r c, RankUses s size i r c → ¬ RankUses s size j r c
  others : ∀ i < size, ∀ p ∈ ps, ∀ r c, RankUses s size i r c → ¬ Script.Uses p.script r c
  files : ∀ i < size, ∀ r c, RankUses s size i r c → (st0.results r).get? c ≠ some .torn

/-- the rank has come to its end -/
def Rank.Done (p : Rank ℝ ℂ) : Prop := ∃ r, p.rest = .stop r

/-- A step that a rank can take even if messages are not buffered: it is no call of `gather`, or rank 0 is in the same call of
`gather`. -/
def Rank.Ready (ranks : List (Rank ℝ ℂ)) (i : ℕ) (p : Rank ℝ ℂ) (st : Store ℝ ℂ) : Prop :=
  p.move ranks i st ≠ none ∧ ∀ msg k, p.rest = .gather msg k →
    ∃ p0 msg0 k0, ranks[0]? = some p0 ∧ p0.rest = .gather msg0 k0 ∧ p0.sent.length = p.sent.length

end GGCE.Spec
