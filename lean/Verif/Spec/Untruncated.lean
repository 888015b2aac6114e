import Verif.Spec.Operator

/-!
The Hamiltonian without any limit on the phonons, and its Green's function. Nothing here mentions an extent, a
number or a cap.
-/

namespace GGCE.Spec

/-- a phonon occupation of the model's types with finitely many phonons -/
structure Conceivable {R : Type} (m : Model R) (n : Occ) : Prop where
  nonneg : ∀ t x, 0 ≤ n t x
  types : ∀ t x, n t x ≠ 0 → t < m.nTypes
  finite : ∀ t, (Function.support (n t)).Finite

/-- the number of phonons -/
noncomputable def phononCount {R : Type} (m : Model R) (n : Occ) : ℤ := ∑ t ∈ Finset.range m.nTypes, ∑ᶠ x, n t x

open Complex Classical in
/-- The Hamiltonian `H` of the model at crystal momentum `k`, in the frame of the electron (see `frame`), acting
on all occupations with finitely many phonons. -/
noncomputable def frameAll (m : Model ℝ) (k : ℝ) (f : Occ → ℂ) (n : Occ) : ℂ :=
  occEnergy m n * f n -
    m.ham.hopping * (exp (I * (k * m.latticeConstant)) * f (n.shift 1) +
      exp (-(I * (k * m.latticeConstant))) * f (n.shift (-1))) +
    (m.ham.terms.map (fun h : SingleTerm ℝ => (h.coupling : ℂ) * (ladder h n : ℂ) *
      exp (-(I * (k * m.latticeConstant * electronSite h 0))) *
      if Conceivable m (jump h n) then f (jump h n) else 0)).sum

open Classical in
/-- `u = (w + i eta - H)⁻¹ |bare⟩` for the Hamiltonian without limits: a state with a finite mean square number of
phonons that solves the equation. -/
structure Untruncated (m : Model ℝ) (k w eta : ℝ) (u : States) : Prop where
  outside : ∀ n, ¬ Conceivable m n → u n = 0
  number : Summable (fun n => (phononCount m n : ℝ) ^ 2 * ‖u n‖ ^ 2)
  motion : ∀ n, Conceivable m n → energyAt w eta * u n - frameAll m k u n = if n = 0 then 1 else 0

/-- two models that differ in their limits only -/
structure SameSystem {R : Type} (m m' : Model R) : Prop where
  ham : m'.ham = m.ham
  lattice : m'.latticeConstant = m.latticeConstant
  types : m'.nTypes = m.nTypes

/-- all limits of the model are at least `B` -/
structure LimitsAtLeast {R : Type} (B : ℤ) (m : Model R) (ae : ℤ) : Prop where
  window : B ≤ ae
  extent : ∀ M ∈ m.extent, B ≤ M
  number : ∀ N ∈ m.number, B ≤ N
  cap : ∀ c, m.maxPerSite = some c → B ≤ c

/-- two calls of `add_` that differ in their limits only -/
structure SameCall {R : Type} (a a' : AddArgs R) : Prop where
  ctype : a'.ctype = a.ctype
  freq : a'.freq = a.freq
  g : a'.g = a.g
  lam : a'.lam = a.lam
  override : a'.override = a.override

/-- all limits of a call are at least `B` -/
structure CallAtLeast {R : Type} (B : ℤ) (a : AddArgs R) : Prop where
  M : B ≤ a.M
  N : B ≤ a.N
  Mtfd : ∀ x, a.Mtfd = some x → B ≤ x
  Ntfd : ∀ x, a.Ntfd = some x → B ≤ x

end GGCE.Spec
