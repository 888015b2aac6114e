import Verif.Spec.SecondOrder
import Verif.Spec.Variance
import Verif.Spec.Stability

/-!
Second-order perturbation theory for a history of calls, at any temperature: every call contributes to the self-energy
the emission of one of its phonons and, at a temperature above zero, the absorption of one.
-/

namespace GGCE.Spec

/-- The self-energy of second-order perturbation theory at momentum `x` (in units of the inverse lattice constant) and
complex energy `z`. A phonon of energy `Omega` is emitted, `1 + n` times the self-energy for `Omega`, or absorbed, `n`
times the self-energy for `-Omega`. (For EdwardsFermionBoson at a temperature above zero the textbook has the momenta of
the electron exchanged in the vertex of absorption; see `variance`.) -/
noncomputable def secondOrderSum (hopping T x : ℝ) (z : ℂ) (as : List (AddArgs ℝ)) : ℂ :=
  (as.map (fun a => (strengthSq hopping a : ℂ) *
    ((1 + thermal T a.freq) * secondOrderSelf a.ctype 1 hopping a.freq x z +
      thermal T a.freq * secondOrderSelf a.ctype 1 hopping (-a.freq) x z))).sum

/-- the Green's function with this self-energy -/
noncomputable def secondOrderGreen (hopping T x : ℝ) (z : ℂ) (as : List (AddArgs ℝ)) : ℂ :=
  1 / (z + 2 * hopping * Real.cos x - secondOrderSum hopping T x z as)

/-- the sum of the strengths of all coupling terms: each call has 2, 4, 4 or 8 of them, of strength `|g| √(1 + n)` for the
phonons and `|g| √n` for the fictitious ones -/
noncomputable def couplingSum (hopping T : ℝ) (as : List (AddArgs ℝ)) : ℝ :=
  (as.map (fun a => termCount a.ctype * (√(strengthSq hopping a) *
    (√(1 + thermal T a.freq) + √(thermal T a.freq))))).sum

/-- a call with its `phonon_coupling` multiplied by `s` -/
noncomputable def scaledCall (s : ℝ) (a : AddArgs ℝ) : AddArgs ℝ := { a with g := a.g.map (fun g => s * g) }

end GGCE.Spec
