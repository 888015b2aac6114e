import Verif.Spec.Untruncated
import Verif.Spec.Residual
import Mathlib.Analysis.SpecialFunctions.Exp

/-!
The Hamiltonian with limits on the numbers of phonons but none on where they are, and how far a limit on where they are
can move the Green's function.
-/

namespace GGCE.Spec

/-- within the limits on the numbers of phonons (of each type, and per site), wherever the phonons are -/
structure Admitted {R : Type} (m : Model R) (n : Occ) : Prop extends Conceivable m n where
  cap : ∀ c, m.maxPerSite = some c → ∀ t x, n t x ≤ c
  number : ∀ t N, m.number[t]? = some N → ∑ᶠ x, n t x ≤ N

open Complex Classical in
/-- The Hamiltonian of the model at crystal momentum `k`, in the frame of the electron (see `frame`), acting on all
admitted occupations. Nothing here mentions an extent. -/
noncomputable def frameSpread (m : Model ℝ) (k : ℝ) (f : Occ → ℂ) (n : Occ) : ℂ :=
  occEnergy m n * f n -
    m.ham.hopping * (exp (I * (k * m.latticeConstant)) * f (n.shift 1) +
      exp (-(I * (k * m.latticeConstant))) * f (n.shift (-1))) +
    (m.ham.terms.map (fun h : SingleTerm ℝ => (h.coupling : ℂ) * (ladder h n : ℂ) *
      exp (-(I * (k * m.latticeConstant * electronSite h 0))) *
      if Admitted m (jump h n) then f (jump h n) else 0)).sum

open Classical in
/-- `u = (w + i eta - H)⁻¹ |bare⟩` for that Hamiltonian: the square-summable solution of the equation -/
structure Spread (m : Model ℝ) (k w eta : ℝ) (u : States) : Prop where
  outside : ∀ n, ¬ Admitted m n → u n = 0
  motion : ∀ n, Admitted m n → energyAt w eta * u n - frameSpread m k u n = if n = 0 then 1 else 0

/-- two models that differ in their extents only -/
structure SameNumbers {R : Type} (m m' : Model R) : Prop extends SameSystem m m' where
  number : m'.number = m.number
  cap : m'.maxPerSite = m.maxPerSite

/-- all extents of the model are at least `B` -/
structure ExtentsAtLeast {R : Type} (B : ℤ) (m : Model R) (ae : ℤ) : Prop where
  window : B ≤ ae
  extent : ∀ M ∈ m.extent, B ≤ M

/-- two calls of `add_` that differ in their extents only -/
structure SameNumbersCall {R : Type} (a a' : AddArgs R) : Prop extends SameCall a a' where
  N : a'.N = a.N
  Ntfd : a'.Ntfd = a.Ntfd

/-- all extents of a call are at least `B` -/
structure CallExtentsAtLeast {R : Type} (B : ℤ) (a : AddArgs R) : Prop where
  M : B ≤ a.M
  Mtfd : ∀ x, a.Mtfd = some x → B ≤ x

/-- `α` is an admissible rate of decay per site at broadening `eta`: at most `3/20`, and at most `η / (6 (2|t| + V))`
with `V = Σ_h |g_h| √N_h` -/
structure SiteRate (m : Model ℝ) (eta α : ℝ) : Prop where
  pos : 0 < α
  le : α ≤ 3 / 20
  slow : 6 * α * (2 * |m.ham.hopping| + interaction m) ≤ eta

/-- `4 V / η² · exp(-α (B - 2))` -/
noncomputable def extentBar (m : Model ℝ) (eta α : ℝ) (B : ℤ) : ℝ :=
  4 * interaction m / eta ^ 2 * Real.exp (-(α * ((B : ℝ) - 2)))

end GGCE.Spec
