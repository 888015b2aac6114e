import Verif.Model.Model

/-! What `Model.add_` is documented to accept (model.py:847-888), and Hermitian conjugation of
interaction terms. -/

namespace GGCE.Spec

/-- exactly one of the two coupling strengths is given -/
def OneStrength {R : Type} (a : AddArgs R) : Prop :=
  (∃ g, a.g = some g ∧ a.lam = none) ∨ (∃ l, a.lam = some l ∧ a.g = none)

/-- Parameters documented as acceptable at temperature `T`, apart from the coupling type. -/
structure Valid {R : Type} [Zero R] [LT R] (T : R) (a : AddArgs R) : Prop where
  extent : 1 ≤ a.M
  number : 1 ≤ a.N
  extentTfd : ∀ x, a.Mtfd = some x → 1 ≤ x
  numberTfd : ∀ x, a.Ntfd = some x → 1 ≤ x
  tfd : 0 < T → (∃ x, a.Mtfd = some x) ∧ ∃ y, a.Ntfd = some y
  strength : OneStrength a
  override : 0 < T → ∀ i, a.override = some i → Even i

/-- the available coupling types (model.py:207-208) -/
def Known (ct : String) : Prop :=
  ct = "Holstein" ∨ ct = "EdwardsFermionBoson" ∨ ct = "BondPeierls" ∨ ct = "Peierls"

/-- The strength conversion knows exactly the available coupling types: `model_coupling_map`
(model.py:10-49) raises `RuntimeError` for other names and only for them. -/
structure Names {R : Type} (P : Prims R) : Prop where
  known : ∀ ct t w l, Known ct → P.couplingMap ct t w l ≠ .error .runtimeError
  unknown : ∀ ct t w l, ¬ Known ct → P.couplingMap ct t w l = .error .runtimeError

/-- Hermitian conjugate of `g Σ_i c†_i c_{i+ψ} b^d_{i+φ}` for real `g`:
`g Σ_i c†_{i+ψ} c_i b^{d†}_{i+φ}`, which with `j = i + ψ` is
`g Σ_j c†_j c_{j-ψ} b^{d†}_{j+φ-ψ}`. -/
def adjoint {R : Type} (h : SingleTerm R) : SingleTerm R :=
  { h with
    psi := ⟨h.psi.flt, -h.psi.tw⟩
    phi := ⟨h.phi.flt, h.phi.tw - h.psi.tw⟩
    dag := match h.dag with | .plus => .minus | .minus => .plus }

/-- A phonon mode as requested by the user: frequency, extent, number. -/
structure Mode (R : Type) where
  freq : R
  M : Int
  N : Int

/-- The modes a call registers: the real one, and at finite temperature also the fictitious one with
the opposite frequency. -/
def modesAt {R : Type} [Zero R] [LT R] [Neg R] [DecidableLT R] (T : R) (a : AddArgs R) :
    List (Mode R) :=
  if 0 < T then [⟨a.freq, a.M, a.N⟩, ⟨-a.freq, a.Mtfd.getD 0, a.Ntfd.getD 0⟩]
  else [⟨a.freq, a.M, a.N⟩]

open Classical in
/-- The modes registered by a history of calls: those of the acceptable calls, in order. -/
noncomputable def modes {R : Type} [Zero R] [LT R] [Neg R] [DecidableLT R] (T : R) (as : List (AddArgs R)) :
    List (Mode R) :=
  (as.filter (fun a => decide (Valid T a))).flatMap (modesAt T)

/-- the coupling strength of a call is defined (for a given dimensionless strength the conversion
succeeds), for the real and the fictitious mode -/
def Defined {R : Type} [Neg R] (P : Prims R) (hopping : R) (a : AddArgs R) : Prop :=
  ∀ l, a.lam = some l → (∃ g, P.couplingMap a.ctype hopping a.freq l = .ok g) ∧
    ∃ g, P.couplingMap a.ctype hopping (-a.freq) l = .ok g

/-- A history of acceptable calls without overrides: known coupling types, defined strengths. -/
structure Clean {R : Type} [Zero R] [LT R] [Neg R] (P : Prims R) (hopping T : R) (as : List (AddArgs R)) : Prop where
  valid : ∀ a ∈ as, Valid T a
  known : ∀ a ∈ as, Known a.ctype
  noOverride : ∀ a ∈ as, a.override = none
  defined : ∀ a ∈ as, Defined P hopping a

end GGCE.Spec
