import Verif.Proofs.OneDim
import Verif.Proofs.Assembled
import Verif.Proofs.System
import Verif.Props.Exact

/-!
Property C92, one spatial dimension: the equations of the general model are those of the
one-dimensional model from which the system is built, for every coupling.
-/

set_option linter.unusedSectionVars false

namespace GGCE.Props
open Spec

variable {R : Type} [Field R] [LinearOrder R]

theorem holsteinShifts_assembled {P : Prims R} {hopping lattice T : R} {cap : Option Int} {dim : Nat}
    {as : List (AddArgs R)} {m : Model R}
    (h : (Model.fromParameters hopping lattice T cap dim).adds P as = .ok m) : HolsteinShifts m := by
  intro x hx hct
  obtain ⟨a, -, g, i, f, hxm⟩ := (adds_ctypes as h x hx).resolve_left
    (by simp [Model.fromParameters, Hamiltonian.new])
  rw [← (mem_termsOf hxm).2.2, hct] at hxm
  simp only [termsOf, List.mem_map] at hxm
  obtain ⟨s, hs, rfl⟩ := hxm
  simp [termShapes] at hs
  rcases hs with rfl | rfl <;> exact ⟨rfl, rfl⟩

/-- C92, one dimension: for every one-dimensional model assembled from calls of `add_` with any of
the couplings, and every cloud of its truncated space, the general and the one-dimensional model of
`Equation.from_config` both succeed and list the same terms in the same order. -/
theorem C92_equations_one_dimension (P : Prims R) (hopping lattice T : R) (cap : Option Int)
    (as : List (AddArgs R)) (m : Model R)
    (h : (Model.fromParameters hopping lattice T cap 1).adds P as = .ok m) (ae : Int)
    (hm : Sound m ae) (a : Arr) (ha : InTruncation m ae a) :
    ∃ e ns, mkEquation m a = .ok e ∧ mkEquationND m a.toND = .ok ns ∧
      List.Forall₂ SameTerm e.terms ns := by
  obtain ⟨-, -, hd, -⟩ := adds_fixed as h
  exact mkEquation_same hm hd (holsteinShifts_assembled h) ha

/-- C92, one dimension: the same for the equation of the Green's function. -/
theorem C92_green_one_dimension (P : Prims R) (hopping lattice T : R) (cap : Option Int)
    (as : List (AddArgs R)) (m : Model R)
    (h : (Model.fromParameters hopping lattice T cap 1).adds P as = .ok m)
    (hidx : ∀ h ∈ m.ham.terms, h.phononIndex < m.nTypes) :
    ∃ e ns, mkGreen m = .ok e ∧ mkGreenND m = .ok ns ∧ List.Forall₂ SameEom e.terms ns := by
  obtain ⟨-, -, hd, -⟩ := adds_fixed as h
  exact mkGreen_same hidx hd (holsteinShifts_assembled h)

/-! ### the hypotheses are met -/

/-- a Holstein–Peierls model: the equation of a cloud with one phonon, and the one of the Green's
function -/
example (σ : SetOrder) : ∃ m ae, (Model.fromParameters (1 : ℝ) 1 0 none 1).adds realPrims exCalls =
    .ok m ∧ (∃ e ns, mkEquation m (single m.nTypes 0) = .ok e ∧
      mkEquationND m (single m.nTypes 0).toND = .ok ns ∧ List.Forall₂ SameTerm e.terms ns) ∧
    (∃ e ns, mkGreen m = .ok e ∧ mkGreenND m = .ok ns ∧ List.Forall₂ SameEom e.terms ns) ∧
    Sound m ae := by
  obtain ⟨h1, h2, h3⟩ := exCalls_clean
  obtain ⟨m, b, k1, ⟨ae, k2⟩, -⟩ := C16_assembled σ realPrims C42_names 1 1 0 none (by simp) exCalls
    (by simp [exCalls]) h1 h2 (Or.inr h3)
  have hs : Sound m ae := k2.toShaped.toSound
  exact ⟨m, ae, k1, C92_equations_one_dimension realPrims 1 1 0 none exCalls m k1 ae hs _
    (single_truncation k2.toShaped k2.types),
    C92_green_one_dimension realPrims 1 1 0 none exCalls m k1 hs.index, hs⟩

end GGCE.Props
