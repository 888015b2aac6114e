import Verif.Spec.Space
import Verif.Model.Engine

/-!
What the right-hand side of an equation should contain, in terms of infinite-chain clouds: the
interaction `g Σ_i c†_i c_{i+ψ} b^d_{i+φ}` acts on a cloud by adding or removing one phonon at one
chain site. Shifts are doubled integers.
-/

namespace GGCE.Spec

variable {R : Type}

/-- change of the phonon number by `b†` or `b` -/
def Dag.delta : Dag → Int
  | .plus => 1
  | .minus => -1

/-- The cloud `b`, with its first site at chain site `o`, is the cloud `a` (first site at chain site
0) after acting with `b†` or `b` for type `t` at chain site `γ`. -/
def Acted (a : Arr) (d : Dag) (t : Nat) (γ : Int) (b : Arr) (o : Int) : Prop :=
  b.rows.length = a.rows.length ∧
  ∀ t' y, chain b t' (y - o) = chain a t' y + if t' = t ∧ y = γ then Dag.delta d else 0

/-- The Hamiltonian term `h` can act on `a` at chain site `γ` without leaving the truncated space
(the vacuum belongs to it); `b` must find a phonon there. -/
def Possible (m : Model R) (ae : Int) (a : Arr) (h : SingleTerm R) (γ : Int) : Prop :=
  (h.dag = .minus → 1 ≤ chain a h.phononIndex γ) ∧
  ∃ b o, Acted a h.dag h.phononIndex γ b o ∧ (Vacuum b ∨ InTruncation m ae b)

/-- energy of the phonons of `a`: `Σ_i Ω_i n_i` -/
def energy [Field R] (m : Model R) (a : Arr) : R :=
  ((List.range a.rows.length).map (fun i => m.ham.freqs.getD i 0 * ((typeTotal a i : Int) : R))).sum

/-- The term `t` is the one produced by `h` acting on `a` at chain site `γ` (eq. 22 of PRB 104,
035106): prefactor, propagator argument (relative to the equation's δ), cloud argument, phase and
energy. For a non-empty result the new origin `o` is the first site of the new cloud; the cloud
argument is `φ - γ + o` and the phase exponent `-o`. For the vacuum the argument is 0 and the phase
exponent `φ - γ`. -/
structure TermOk [Field R] (m : Model R) (ae : Int) (a : Arr) (h : SingleTerm R) (γ : Int)
    (t : Term R) : Prop where
  hterm : t.hterm = h
  kind : t.kind = match h.dag with | .plus => .cre | .minus => .ann
  pref : t.pref = match h.dag with
    | .plus => h.coupling
    | .minus => h.coupling * ((chain a h.phononIndex γ : Int) : R)
  gArg : ∃ g, t.gArg = some g ∧ g.tw = 2 * γ - h.phi.tw + h.psi.tw
  freq : t.freqShift = energy m a
  cloud :
    (InTruncation m ae t.config ∧ ∃ o, Acted a h.dag h.phononIndex γ t.config o ∧
      t.fArg.tw = h.phi.tw - 2 * γ + 2 * o ∧ t.expShift.tw = -(2 * o)) ∨
    (Vacuum t.config ∧ Acted a h.dag h.phononIndex γ t.config 0 ∧
      t.fArg.tw = 0 ∧ t.expShift.tw = h.phi.tw - 2 * γ)

/-- Conditions on a one-dimensional model that make the equations meaningful: one limit per phonon
type, one frequency per phonon type, and every Hamiltonian term acting on an existing type. -/
structure Sound (m : Model R) (ae : Int) : Prop extends ListsOk m where
  absExtent : m.absExtent = some ae
  freqs : m.nTypes ≤ m.ham.freqs.length
  index : ∀ h ∈ m.ham.terms, h.phononIndex < m.nTypes

end GGCE.Spec
