import Verif.Spec.CacheAccuracy
import Verif.Spec.Linear
import Verif.Model.Script
import Verif.Props.Grid

/-!
What programs should print: the exact Green's function of the model, whatever was computed before.
-/

namespace GGCE.Spec
open GGCE.Props Arr
open scoped InnerProductSpace

/-- `G` is the matrix element of the resolvent of the Hamiltonian, at the point `p` -/
def ExactAt (m : Model ℝ) (ae : ℤ) (p : Point ℝ) (G : ℂ) : Prop :=
  ∃ H : States →L[ℂ] States, IsSelfAdjoint H ∧ (∀ f n, H f n = frame m ae p.k f n) ∧
    G = ⟪bare, resolvent H (energyAt p.w p.eta) bare⟫_ℂ

/-- a finite number within `ε` of the exact one -/
def AccurateTo (m : Model ℝ) (ae : ℤ) (ε : ℝ) (p : Point ℝ) (v : Option ℂ) : Prop :=
  ∃ G G', v = some G ∧ ExactAt m ae p G' ∧ ‖G - G'‖ ≤ ε

/-- how accurate a solver is: exact without a root, else as the names of the files allow -/
noncomputable def tolerance (m : Model ℝ) (root : Option String) (eta : ℝ) : ℝ := match root with
  | none => 0
  | some _ => decimals m eta

/-- The answer a user expects from a call. For a grid: one row per momentum with one number per frequency. -/
def Expected (m : Model ℝ) (ae : ℤ) (root : Option String) : Call ℝ → Answer ℂ → Prop
  | .solve p, .value v => AccurateTo m ae (tolerance m root p.eta) p v
  | .grid k w eta, .matrix M => ∃ ks ws, gridPoints k = some ks ∧ gridPoints w = some ws ∧
      List.Forall₂ (fun x row => List.Forall₂ (fun y v =>
        AccurateTo m ae (tolerance m root eta) ⟨x, y, eta⟩ v) ws row) ks M
  | _, _ => False

/-- a call with arguments as documented, and a broadening that the file names can hold -/
def Call.Ok : Call ℝ → Prop
  | .solve p => 4 / 10 ^ 10 ≤ p.eta
  | .grid k w eta => 4 / 10 ^ 10 ≤ eta ∧ gridPoints k ≠ none ∧ gridPoints w ≠ none

/-- linear systems are solved exactly -/
def KindExact : SolverKind ℂ → Prop
  | .sparse sp => Exact sp
  | .dense => True

/-- the directory in which a program constructs its system -/
def systemRoot : Source → List String
  | .fresh (some r) _ _ => [r]
  | _ => []

/-- A sequence of programs in which a system is only reloaded from a directory where one was constructed
before (`known` at the start). -/
def InOrder : List String → List (Script ℝ ℂ) → Prop
  | _, [] => True
  | known, s :: ss => (∀ r, s.source = .resume r → r ∈ known) ∧ InOrder (systemRoot s.source ++ known) ss

/-- every program solves exactly and makes proper calls -/
def AllProper (ss : List (Script ℝ ℂ)) : Prop := ∀ s ∈ ss, KindExact s.kind ∧ ∀ c ∈ s.calls, Call.Ok c

/-- a disk without anything of this package on it -/
def Machine.Empty (mach : Machine ℝ ℂ) : Prop := (∀ q, mach.fs.at q = {}) ∧ ∀ q, mach.results q = []

/-- the directories a program names -/
def rootsOf : Source → List String
  | .fresh r _ r' => r.toList ++ r'.toList
  | .resume r => [r]

/-- programs that name the same directory are for the same model -/
def SeparateRoots (ps : List (Model ℝ × Script ℝ ℂ)) : Prop :=
  ∀ p ∈ ps, ∀ q ∈ ps, ∀ r, r ∈ rootsOf p.2.source → r ∈ rootsOf q.2.source → p.1 = q.1

/-- the answers of a sequence of programs are those expected, each for its own model -/
def AllExpected (ps : List (Model ℝ × Script ℝ ℂ)) (outs : List (List (Py (Answer ℂ)))) : Prop :=
  List.Forall₂ (fun p out => List.Forall₂ (fun c r => ∃ a, r = .ok a ∧
    ∃ ae, WellFormed p.1 ae ∧ Expected p.1 ae p.2.source.solverRoot c a) p.2.calls out) ps outs

end GGCE.Spec
