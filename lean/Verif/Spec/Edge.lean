import Verif.Spec.Operator

/-! Where the spectral function begins, and which of two models binds the electron more strongly. -/

namespace GGCE.Spec

/-- The Green's function `F w eta` has no spectral weight below the energy `e`: up to there, for every broadening, its
spectral function is at most the tail of a single level of weight one at `e`. -/
def EmptyBelow (F : ℝ → ℝ → ℂ) (e : ℝ) : Prop :=
  ∀ w ≤ e, ∀ eta : ℝ, 0 < eta → -(F w eta).im / Real.pi ≤ eta / (Real.pi * ((e - w) ^ 2 + eta ^ 2))

/-- `e` is the lower edge of the spectral function of `F`: the largest energy with no weight below it. -/
def Edge (F : ℝ → ℝ → ℂ) (e : ℝ) : Prop := EmptyBelow F e ∧ ∀ e', EmptyBelow F e' → e' ≤ e

/-- The model `m'` binds more strongly than `m`: it has at least the hopping, the couplings and the limits of `m` and at
most its phonon frequencies; it may have further phonon types. -/
structure Stronger (m m' : Model ℝ) (ae ae' : ℤ) : Prop where
  types : m.nTypes ≤ m'.nTypes
  cap : ∀ c', m'.maxPerSite = some c' → ∃ c, m.maxPerSite = some c ∧ c ≤ c'
  window : ae ≤ ae'
  extent : ∀ t M', t < m.nTypes → m'.extent[t]? = some M' → ∃ M, m.extent[t]? = some M ∧ M ≤ M'
  number : ∀ t N', t < m.nTypes → m'.number[t]? = some N' → ∃ N, m.number[t]? = some N ∧ N ≤ N'
  hopping : |m.ham.hopping| ≤ m'.ham.hopping
  freqs : ∀ t, t < m.nTypes → m'.ham.freqs.getD t 0 ≤ m.ham.freqs.getD t 0
  terms : ∃ l, l.Sublist m'.ham.terms ∧ List.Forall₂ (fun h h' : SingleTerm ℝ => h'.psi = h.psi ∧ h'.phi = h.phi ∧
    h'.dag = h.dag ∧ h'.phononIndex = h.phononIndex ∧ |h.coupling| ≤ |h'.coupling|) m.ham.terms l

/-- The terms acting on one type of phonons have coupling constants of one sign. -/
def OneSign (m : Model ℝ) : Prop :=
  ∀ h ∈ m.ham.terms, ∀ h' ∈ m.ham.terms, h.phononIndex = h'.phononIndex → 0 ≤ h.coupling * h'.coupling

/-- The call `a'` of `add_` asks for a phonon of the same kind as `a`, with at least the coupling and the limits and at
most the frequency. -/
structure Surpassed (a a' : AddArgs ℝ) : Prop where
  ctype : a'.ctype = a.ctype
  g : ∃ g g', a.g = some g ∧ a'.g = some g' ∧ |g| ≤ |g'|
  freq : a'.freq ≤ a.freq
  M : a.M ≤ a'.M
  N : a.N ≤ a'.N

/-- The call `a'` of `add_` differs from `a` only by larger limits. -/
structure Enlarged (a a' : AddArgs ℝ) : Prop where
  ctype : a'.ctype = a.ctype
  freq : a'.freq = a.freq
  g : a'.g = a.g
  lam : a'.lam = a.lam
  M : a.M ≤ a'.M
  N : a.N ≤ a'.N
  Mtfd : a.Mtfd.getD 0 ≤ a'.Mtfd.getD 0
  Ntfd : a.Ntfd.getD 0 ≤ a'.Ntfd.getD 0

/-- The limit `cap'` on the phonons per site is not stricter than `cap`. -/
def Looser (cap cap' : Option Int) : Prop := ∀ c', cap' = some c' → ∃ c, cap = some c ∧ c ≤ c'

end GGCE.Spec
