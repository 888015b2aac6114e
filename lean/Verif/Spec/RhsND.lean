import Verif.Spec.LatticeND
import Verif.Spec.Rhs
import Verif.Model.EngineND

/-!
Legality of a configuration and the right-hand side of an equation in `d` dimensions, in terms of
the occupations of the lattice ℤ^d. Shifts are doubled integers.
-/

namespace GGCE.Spec

variable {R : Type} {d : Nat}

/-- number of phonons of type `t`, counted over the box that contains the cloud -/
def typeTotalND (a : NArr d) (t : Nat) : Int :=
  ∑ i ∈ Fintype.piFinset (fun j => Finset.range (a.shape j)),
    lattice a t (fun j => ((i j : Nat) : Int))

/-- every site of every type carries at most `c` phonons -/
def CapOkND (c : Int) (a : NArr d) : Prop := ∀ t x, lattice a t x ≤ c

/-- the occupied span of type `t` along axis `j` is at most `m` (an empty type has span 0) -/
def SpanOkND (a : NArr d) (j : Fin d) (t : Nat) (m : Int) : Prop :=
  0 ≤ m ∧ ∀ x y, lattice a t x ≠ 0 → lattice a t y ≠ 0 → y j - x j + 1 ≤ m

/-- A configuration is legal with respect to the axes in `axes`: a cloud obeying all given limits,
the extent limits being imposed along those axes. -/
structure LegalND (axes : Fin d → Prop) (cap : Option Int) (extent number : Option (List Int))
    (a : NArr d) : Prop extends CloudND a where
  capOk : ∀ c, cap = some c → CapOkND c a
  extentOk : ∀ M, extent = some M → ∀ t, t < a.types →
    ∃ m, M[t]? = some m ∧ ∀ j, axes j → SpanOkND a j t m
  numberOk : ∀ N, number = some N → ∀ t, t < a.types →
    ∃ n, N[t]? = some n ∧ typeTotalND a t ≤ n

/-- the first spatial axis -/
def firstAxis (j : Fin d) : Prop := j.val = 0

/-- The clouds of a model with absolute extent `ae`, as the code limits them: at most `ae` sites
along every axis, one row per phonon type, legal with the extent limits along the first axis. -/
def InTruncationND (m : Model R) (ae : Int) (a : NArr d) : Prop :=
  (∀ j, (a.shape j : Int) ≤ ae) ∧ a.types = m.nTypes ∧
    LegalND firstAxis m.maxPerSite (some m.extent) (some m.number) a

/-- The cloud `b`, with its first site at the lattice site `o`, is the cloud `a` (first site at the
origin) after acting with `b†` or `b` for type `t` at the lattice site `γ`. -/
def ActedND (a : NArr d) (dg : Dag) (t : Nat) (γ : Fin d → Int) (b : NArr d) (o : Fin d → Int) :
    Prop :=
  b.types = a.types ∧
  ∀ t' y, lattice b t' (fun j => y j - o j) =
    lattice a t' y + if t' = t ∧ y = γ then Dag.delta dg else 0

/-- The Hamiltonian term `h` can act on `a` at the lattice site `γ` without leaving the truncated
space (the vacuum belongs to it); `b` must find a phonon there. -/
def PossibleND (m : Model R) (ae : Int) (a : NArr d) (h : SingleTerm R) (γ : Fin d → Int) : Prop :=
  (h.dag = .minus → 1 ≤ lattice a h.phononIndex γ) ∧
  ∃ b o, ActedND a h.dag h.phononIndex γ b o ∧ (VacuumND b ∨ InTruncationND m ae b)

/-- energy of the phonons of `a`: `Σ_i Ω_i n_i` -/
def energyND [Field R] (m : Model R) (a : NArr d) : R :=
  ((List.range a.types).map (fun i => m.ham.freqs.getD i 0 * ((typeTotalND a i : Int) : R))).sum

/-- The term `t` is the one produced by the Holstein term `h` acting on `a` at the lattice site `γ`:
for a non-empty result the new origin `o` is the first site of the new cloud, the cloud argument is
`o - γ` and the phase exponent `-o`; for the vacuum the argument is 0 and the phase exponent `-γ`. -/
structure TermOkND [Field R] (m : Model R) (ae : Int) (a : NArr d) (h : SingleTerm R)
    (γ : Fin d → Int) (t : NTerm R d) : Prop where
  hterm : t.hterm.base = h
  kind : t.kind = match h.dag with | .plus => .cre | .minus => .ann
  pref : t.pref = match h.dag with
    | .plus => h.coupling
    | .minus => h.coupling * ((lattice a h.phononIndex γ : Int) : R)
  gArg : ∀ j, t.gArg.tw j = 2 * γ j
  freq : t.freqShift = energyND m a
  cloud :
    (InTruncationND m ae t.config ∧ ∃ o, ActedND a h.dag h.phononIndex γ t.config o ∧
      (∀ j, t.fArg.tw j = 2 * (o j - γ j)) ∧ ∀ j, t.expShift.tw j = -(2 * o j)) ∨
    (VacuumND t.config ∧ ActedND a h.dag h.phononIndex γ t.config (fun _ => 0) ∧
      (∀ j, t.fArg.tw j = 0) ∧ ∀ j, t.expShift.tw j = -(2 * γ j))

/-- A Holstein model in `d` dimensions: one limit and one frequency per phonon type, and every
Hamiltonian term acting on an existing type. -/
structure SoundND (m : Model R) (d : Nat) (ae : Int) : Prop extends Sound m ae where
  dimension : m.ham.dimension = d
  holstein : ∀ h ∈ m.ham.terms, h.ctype = "Holstein"

end GGCE.Spec
