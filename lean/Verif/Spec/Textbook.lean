import Verif.Spec.Resolvent
import Verif.Spec.Variance
import Verif.Spec.Modes
import Mathlib.LinearAlgebra.Finsupp.LSum

/-!
The Hamiltonians of the literature, written with the operators of the literature: `c†_i c_j` moves the electron
from site `j` to site `i`, `b†` and `b` create and annihilate a phonon of a branch on a site (for BondPeierls: on
the bond from that site to the next one). Nothing here refers to the terms the program builds.
-/

namespace GGCE.Spec
open Complex

/-- One electron on a site of the chain, and the phonons: the vector `c†_e Π (b†_{T,x})^{n T x} |0⟩`. -/
abbrev Ket := ℤ × Occ

/-- finite superpositions -/
abbrev Fock := Ket →₀ ℂ

/-- the vector `c†_e Π (b†)^n |0⟩` -/
noncomputable def ket (e : ℤ) (n : Occ) : Fock := Finsupp.single (e, n) 1

/-- the operator with given values on the basis -/
noncomputable def onKets (f : ℤ → Occ → Fock) : Fock →ₗ[ℂ] Fock :=
  Finsupp.linearCombination ℂ (fun s : Ket => f s.1 s.2)

/-- one phonon of branch `T` at `x` -/
def quantum (T : ℕ) (x : ℤ) : Occ := fun T' y => if T' = T ∧ y = x then 1 else 0

/-- `c†_i c_j` -/
noncomputable def transfer (i j : ℤ) : Fock →ₗ[ℂ] Fock := onKets fun e n => if e = j then ket i n else 0

/-- `b†_{T,x}` -/
noncomputable def creation (T : ℕ) (x : ℤ) : Fock →ₗ[ℂ] Fock := onKets fun e n => ket e (n + quantum T x)

/-- `b_{T,x}` -/
noncomputable def annihilation (T : ℕ) (x : ℤ) : Fock →ₗ[ℂ] Fock :=
  onKets fun e n => (n T x : ℂ) • ket e (n - quantum T x)

/-- `Σ_i A_i` over all sites of the chain: on every vector of the basis only finitely many summands act. -/
noncomputable def latticeSum (A : ℤ → Fock →ₗ[ℂ] Fock) : Fock →ₗ[ℂ] Fock := onKets fun e n => ∑ᶠ i, A i (ket e n)

/-- `-t Σ_⟨ij⟩ c†_i c_j` -/
noncomputable def kineticEnergy (t : ℝ) : Fock →ₗ[ℂ] Fock :=
  latticeSum fun i => (-t : ℂ) • (transfer i (i + 1) + transfer (i + 1) i)

/-- `Ω Σ_i b†_i b_i` -/
noncomputable def phononEnergy (Ω : ℝ) (T : ℕ) : Fock →ₗ[ℂ] Fock :=
  latticeSum fun i => (Ω : ℂ) • (creation T i ∘ₗ annihilation T i)

/-- The electron–phonon couplings by name:

* Holstein: `g Σ_i c†_i c_i (b†_i + b_i)`,
* EdwardsFermionBoson: `g Σ_⟨ij⟩ c†_i c_j (b†_j + b_i)` (docs/source/tutorials/introduction.rst:22),
* BondPeierls: `g Σ_i (c†_i c_{i+1} + h.c.) (b†_{i+1/2} + b_{i+1/2})`,
* Peierls: `g Σ_i (c†_i c_{i+1} + h.c.) (b†_{i+1} + b_{i+1} - b†_i - b_i)`. -/
noncomputable def couplingEnergy (name : String) (g : ℝ) (T : ℕ) : Fock →ₗ[ℂ] Fock :=
  if name = "Holstein" then
    latticeSum fun i => (g : ℂ) • (transfer i i ∘ₗ (creation T i + annihilation T i))
  else if name = "EdwardsFermionBoson" then
    latticeSum fun i => (g : ℂ) • (transfer i (i + 1) ∘ₗ (creation T (i + 1) + annihilation T i) +
      transfer (i + 1) i ∘ₗ (creation T i + annihilation T (i + 1)))
  else if name = "BondPeierls" then
    latticeSum fun i => (g : ℂ) • ((transfer i (i + 1) + transfer (i + 1) i) ∘ₗ (creation T i + annihilation T i))
  else if name = "Peierls" then
    latticeSum fun i => (g : ℂ) • ((transfer i (i + 1) + transfer (i + 1) i) ∘ₗ
      (creation T (i + 1) + annihilation T (i + 1) - creation T i - annihilation T i))
  else 0

/-- A branch of phonons: the name of its coupling, its frequency and its coupling constant. -/
structure Branch where
  name : String
  Ω : ℝ
  g : ℝ

/-- The Hamiltonian with hopping `t` and the given branches of phonons. -/
noncomputable def textbook (t : ℝ) (bs : List Branch) : Fock →ₗ[ℂ] Fock :=
  kineticEnergy t + (bs.zipIdx.map fun q => phononEnergy q.1.Ω q.2 + couplingEnergy q.1.name q.1.g q.2).sum

/-- all of the chain moved by `s` sites -/
noncomputable def translation (s : ℤ) : Fock →ₗ[ℂ] Fock := onKets fun e n => ket (e + s) (n.shift s)

/-- The occupations that a user has asked to keep: at most `cap` phonons of a branch on a site; for every branch at
most `N` phonons within at most `M` neighbouring sites; and all of them within the largest `M`. -/
structure Permitted (cap : Option ℤ) (ms : List (Mode ℝ)) (n : Occ) : Prop where
  nonneg : ∀ T x, 0 ≤ n T x
  branch : ∀ T x, n T x ≠ 0 → T < ms.length
  cap : ∀ c, cap = some c → ∀ T x, n T x ≤ c
  window : ∀ T x T' y, n T x ≠ 0 → n T' y ≠ 0 → ∃ a ∈ ms, y - x + 1 ≤ a.M
  extent : ∀ T a, ms[T]? = some a → ∀ x y, n T x ≠ 0 → n T y ≠ 0 → y - x + 1 ≤ a.M
  number : ∀ T a, ms[T]? = some a → ∑ᶠ x, n T x ≤ a.N

/-- `F` is `⟨k| (ω + iη - H)⁻¹` on the space spanned by the kept occupations (`keep`), where `⟨k|` is the plane wave
`Σ_e exp(-i k a e) ⟨0| c_e`: the bounded functional with crystal momentum `k` for which
`F (ω + iη - H) = ⟨k|` on that space, and which vanishes outside. -/
structure Propagator (H : Fock →ₗ[ℂ] Fock) (keep : Occ → Prop) (a : ℝ) (p : Point ℝ) (F : Fock →ₗ[ℂ] ℂ) : Prop where
  bloch : ∀ v s, F (translation s v) = exp (-(I * (p.k * a * s))) * F v
  bounded : ∀ n, ∃ C, ∀ e, ‖F (ket e n)‖ ≤ C
  outside : ∀ n, ¬ keep n → ∀ e, F (ket e n) = 0
  motion : ∀ n, keep n → ∀ e, F ((p.w + I * p.eta : ℂ) • ket e n - H (ket e n)) =
    open Classical in if n = 0 then exp (-(I * (p.k * a * e))) else 0

/-- finitely many phonons, in the first `K` branches -/
structure FinitelyMany (K : ℕ) (n : Occ) : Prop where
  nonneg : ∀ T x, 0 ≤ n T x
  branch : ∀ T x, n T x ≠ 0 → T < K
  finite : ∀ T, (Function.support (n T)).Finite

/-- the number of phonons in the first `K` branches -/
noncomputable def phononNumber (K : ℕ) (n : Occ) : ℤ := ∑ T ∈ Finset.range K, ∑ᶠ x, n T x

/-- the squared length of `c†_e Π (b†)^n |0⟩` -/
noncomputable def lengthSq (n : Occ) : ℕ := ∏ᶠ q : ℕ × ℤ, (n q.1 q.2).toNat.factorial

/-- `F` is `⟨k| (ω + iη - H)⁻¹` for the Hamiltonian with all phonons: `F (ω + iη - H) = ⟨k|` on all vectors with
finitely many phonons, with crystal momentum `k`, finite length and finite mean square number of phonons (per site of
the electron, hence the electron at the origin in `number`). -/
structure ExactPropagator (H : Fock →ₗ[ℂ] Fock) (K : ℕ) (a : ℝ) (p : Point ℝ) (F : Fock →ₗ[ℂ] ℂ) : Prop where
  bloch : ∀ v s, F (translation s v) = exp (-(I * (p.k * a * s))) * F v
  outside : ∀ n, ¬ FinitelyMany K n → ∀ e, F (ket e n) = 0
  number : Summable (fun n : Occ => (1 + (phononNumber K n : ℝ) ^ 2) * (‖F (ket 0 n)‖ ^ 2 / lengthSq n))
  motion : ∀ n, FinitelyMany K n → ∀ e, F ((p.w + I * p.eta : ℂ) • ket e n - H (ket e n)) =
    open Classical in if n = 0 then exp (-(I * (p.k * a * e))) else 0

/-- What the calls ask for: name, frequency and square of the coupling constant of every branch. At zero temperature
one branch for each call; at a finite temperature the thermofield double, in which `g²` is divided among the phonons
and the fictitious ones as `1 + n` and `n`, with the Bose factor `n`. -/
noncomputable def requests (hopping T : ℝ) (as : List (AddArgs ℝ)) : List (String × ℝ × ℝ) :=
  as.flatMap fun a =>
    if 0 < T then [(a.ctype, a.freq, strengthSq hopping a * (1 + thermal T a.freq)),
      (a.ctype, -a.freq, strengthSq hopping a * thermal T a.freq)]
    else [(a.ctype, a.freq, strengthSq hopping a)]

/-- Branches as asked for, the signs of the coupling constants being free. -/
def Requested (hopping T : ℝ) (as : List (AddArgs ℝ)) (bs : List Branch) : Prop :=
  List.Forall₂ (fun r b => b.name = r.1 ∧ b.Ω = r.2.1 ∧ b.g ^ 2 = r.2.2) (requests hopping T as) bs

end GGCE.Spec
