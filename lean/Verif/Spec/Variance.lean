import Verif.Spec.Powers
import Verif.Spec.AtomicLimit
import Verif.Spec.Calls

/-! The width of the spectral function: its textbook second moment. -/

namespace GGCE.Spec

/-- the square of the coupling strength of a call: `g²`, or what the dimensionless coupling `λ` means for it -/
noncomputable def strengthSq (hopping : ℝ) (a : AddArgs ℝ) : ℝ :=
  match a.lam with
  | some l =>
    if a.ctype = "Holstein" then 2 * hopping * |a.freq| * l
    else if a.ctype = "Peierls" then hopping * |a.freq| * l / 2
    else if a.ctype = "BondPeierls" then hopping * |a.freq| * l
    else l ^ 2
  | none => a.g.getD 0 ^ 2

/-- `1/2π ∫ dq V(k,q)²/g²`, the mean square of the vertex over the momenta of the scattered electron -/
noncomputable def spread (ctype : String) (x : ℝ) : ℝ :=
  if ctype = "Holstein" then 1
  else if ctype = "Peierls" then 2 + 4 * Real.sin x ^ 2
  else 2

/-- the same for the absorption of a phonon: `1/2π ∫ dq V(q,k)²/g²`, the momenta of the electron exchanged -/
noncomputable def spreadIn (ctype : String) (x : ℝ) : ℝ :=
  if ctype = "EdwardsFermionBoson" then 4 * Real.cos x ^ 2 else spread ctype x

/-- the textbook variance of the spectral function at momentum `x` (in units of the inverse lattice constant): emission
of a phonon, `n + 1` times the mean square vertex, and absorption, `n` times the mean square vertex of absorption -/
noncomputable def textbookVariance (hopping T x : ℝ) (as : List (AddArgs ℝ)) : ℝ :=
  (as.map (fun a => strengthSq hopping a *
    (spread a.ctype x * (thermal T a.freq + 1) + spreadIn a.ctype x * thermal T a.freq))).sum

/-- `2 n + 1` times the mean square vertex of emission. This is the textbook variance if emission and absorption have the
same mean square vertex, that is for all couplings except EdwardsFermionBoson, and at zero temperature. -/
noncomputable def variance (hopping T x : ℝ) (as : List (AddArgs ℝ)) : ℝ :=
  (as.map (fun a => spread a.ctype x * strengthSq hopping a * (2 * thermal T a.freq + 1))).sum

end GGCE.Spec
