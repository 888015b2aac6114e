import Verif.Spec.Script
import Verif.Model.Interrupt

/-!
Disks on which programs have run, some of which were killed.
-/

namespace GGCE.Spec
open GGCE.Props

/-- a disk without anything of this package on it -/
def Store.Empty (st : Store ℝ ℂ) : Prop := (∀ q, st.fs.at q = {}) ∧ ∀ q, st.results q = []

/-- What a disk can look like after any number of programs for the model `m`, each run to its end or killed at any
moment; `solvers` says which solvers they use. Programs need not be sensible: they may reload from directories where there is nothing, and call with any
arguments. -/
inductive History (m : Model ℝ) (solvers : SolverKind ℂ → Prop) : Store ℝ ℂ → Prop
  | empty {st : Store ℝ ℂ} : Store.Empty st → History m solvers st
  | program {st st' : Store ℝ ℂ} {out : List (Py (Answer ℂ))} (s : Script ℝ ℂ) : History m solvers st →
      solvers s.kind → (out, st') ∈ s.life realPhys m st → History m solvers st'

/-- the broadening in a call -/
def Call.eta : Call ℝ → ℝ
  | .solve p => p.eta
  | .grid _ _ eta => eta

/-- a disk as it is between programs that all ran to their end -/
def Store.ofMachine (mach : Machine ℝ ℂ) : Store ℝ ℂ :=
  ⟨mach.fs, fun q => (mach.results q).map (fun e => (e.1, File.full e.2))⟩

/-- The answer of a call, with numbers within `tol eta` of the exact ones. For a grid: one row per momentum with one
number per frequency. -/
def ExpectedTo (m : Model ℝ) (ae : ℤ) (tol : ℝ → ℝ) : Call ℝ → Answer ℂ → Prop
  | .solve p, .value v => AccurateTo m ae (tol p.eta) p v
  | .grid k w eta, .matrix M => ∃ ks ws, gridPoints k = some ks ∧ gridPoints w = some ws ∧
      List.Forall₂ (fun x row => List.Forall₂ (fun y v => AccurateTo m ae (tol eta) ⟨x, y, eta⟩ v) ws row) ks M
  | _, _ => False

end GGCE.Spec
