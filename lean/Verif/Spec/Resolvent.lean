import Verif.Spec.Rhs
import Verif.Model.Solver
import Mathlib.Analysis.SpecialFunctions.Exp
import Mathlib.Algebra.BigOperators.Finprod
import Mathlib.Analysis.Complex.Basic

/-!
The exact problem behind a model, without clouds, identifiers or equations: one electron on the infinite
chain, any number of phonons of each type on each site, and the Hamiltonian

  `H = -t Σ_i (c†_i c_{i+1} + h.c.) + Σ_{T,x} Ω_T b†_{T,x} b_{T,x} + Σ_h g_h Σ_i c†_i c_{i+ψ} b^d_{i+φ}`

restricted to the phonon occupations inside the limits. Shifts are doubled integers; when the `φ` are
half-integers the phonon site `x` stands for the bond at `x + 1/2`.
-/

namespace GGCE.Spec

/-- Occupations of the infinite chain: the number of phonons of each type on each site. -/
abbrev Occ := ℕ → ℤ → ℤ

/-- all phonons moved by `s` sites -/
def Occ.shift (n : Occ) (s : ℤ) : Occ := fun t x => n t (x - s)

/-- one phonon of type `t` at site `x` added (`b†`) or removed (`b`) -/
def Occ.act (n : Occ) (d : Dag) (t : ℕ) (x : ℤ) : Occ :=
  fun t' y => n t' y + if t' = t ∧ y = x then Dag.delta d else 0

/-- Inside the limits of the model: cap per site, absolute extent, extent and number of each type. -/
structure Allowed {R : Type} (m : Model R) (ae : ℤ) (n : Occ) : Prop where
  nonneg : ∀ t x, 0 ≤ n t x
  types : ∀ t x, n t x ≠ 0 → t < m.nTypes
  cap : ∀ c, m.maxPerSite = some c → ∀ t x, n t x ≤ c
  window : ∀ t x t' y, n t x ≠ 0 → n t' y ≠ 0 → y - x + 1 ≤ ae
  extent : ∀ t M, m.extent[t]? = some M → ∀ x y, n t x ≠ 0 → n t y ≠ 0 → y - x + 1 ≤ M
  number : ∀ t N, m.number[t]? = some N → ∑ᶠ x, n t x ≤ N

/-- energy of the phonons -/
noncomputable def occEnergy (m : Model ℝ) (n : Occ) : ℝ :=
  ∑ t ∈ Finset.range m.nTypes, m.ham.freqs.getD t 0 * ((∑ᶠ x, n t x : ℤ) : ℝ)

/-- the matrix element of `b†` or `b` between (unnormalised) states `Π (b†)^n |0⟩` -/
def occFactor (d : Dag) (n : Occ) (t : ℕ) (x : ℤ) : ℤ :=
  match d with
  | .plus => 1
  | .minus => n t x

/-- the phonon site on which `h` acts when the electron leaves site `e` -/
def bosonSite {R : Type} (h : SingleTerm R) (e : ℤ) : ℤ := (2 * e - h.psi.tw + h.phi.tw) / 2

/-- the site to which `h` moves the electron from site `e` -/
def electronSite {R : Type} (h : SingleTerm R) (e : ℤ) : ℤ := e - h.psi.tw / 2

open Complex

/-- `Ψ n e` is the amplitude `⟨k| (ω + iη - H)⁻¹ c†_e Π (b†)^n |0⟩` of the Hamiltonian restricted to the
allowed occupations, `⟨k|` being the plane wave `Σ_e exp(-i k a e) ⟨0| c_e`. It is the bounded solution, with
crystal momentum `k`, of the equation of motion with the plane wave as source. -/
structure Resolvent (m : Model ℝ) (ae : ℤ) (p : Point ℝ) (Ψ : Occ → ℤ → ℂ) : Prop where
  /-- moving everything by `s` sites is a phase -/
  bloch : ∀ n e s, Ψ (n.shift s) (e + s) = exp (-(I * (p.k * m.latticeConstant * s))) * Ψ n e
  bounded : ∀ n, ∃ C, ∀ e, ‖Ψ n e‖ ≤ C
  outside : ∀ n, ¬ Allowed m ae n → ∀ e, Ψ n e = 0
  motion : ∀ n, Allowed m ae n → ∀ e,
    (p.w + I * p.eta - occEnergy m n) * Ψ n e + m.ham.hopping * (Ψ n (e - 1) + Ψ n (e + 1)) -
      (m.ham.terms.map (fun h : SingleTerm ℝ => (h.coupling : ℂ) *
        (occFactor h.dag n h.phononIndex (bosonSite h e) : ℂ) *
        Ψ (n.act h.dag h.phononIndex (bosonSite h e)) (electronSite h e))).sum =
      open Classical in if n = 0 then exp (-(I * (p.k * m.latticeConstant * e))) else 0

end GGCE.Spec
