import Verif.Spec.Resolvent
import Mathlib.Analysis.SpecialFunctions.Pow.NNReal
import Mathlib.Analysis.InnerProductSpace.l2Space
import Mathlib.Analysis.InnerProductSpace.Adjoint

/-!
The same Hamiltonian in the frame of the electron. Acting on states of crystal momentum `k`, a state is given
by one number for every phonon occupation, the electron being at the origin.
-/

namespace GGCE.Spec

/-- the phonons as seen from the electron, after `h` acted and moved it away from the origin -/
def jump {R : Type} (h : SingleTerm R) (n : Occ) : Occ :=
  (n.act h.dag h.phononIndex (bosonSite h 0)).shift (-(electronSite h 0))

/-- the matrix element of `b†` or `b` between normalised states: `√(n+1)` or `√n` -/
noncomputable def ladder {R : Type} (h : SingleTerm R) (n : Occ) : ℝ :=
  match h.dag with
  | .plus => Real.sqrt (n h.phononIndex (bosonSite h 0) + 1)
  | .minus => Real.sqrt (n h.phononIndex (bosonSite h 0))

open Complex Classical in
/-- The Hamiltonian restricted to the allowed occupations, at crystal momentum `k`, acting on the amplitudes
`f n` of the normalised states with phonons `n` and the electron at the origin. Moving the electron by `s` sites
is moving the phonons by `-s` sites and a phase. -/
noncomputable def frame (m : Model ℝ) (ae : ℤ) (k : ℝ) (f : Occ → ℂ) (n : Occ) : ℂ :=
  if Allowed m ae n then
    occEnergy m n * f n -
      m.ham.hopping * (exp (I * (k * m.latticeConstant)) * f (n.shift 1) +
        exp (-(I * (k * m.latticeConstant))) * f (n.shift (-1))) +
      (m.ham.terms.map (fun h : SingleTerm ℝ => (h.coupling : ℂ) * (ladder h n : ℂ) *
        exp (-(I * (k * m.latticeConstant * electronSite h 0))) *
        if Allowed m ae (jump h n) then f (jump h n) else 0)).sum
  else 0

/-- the Hilbert space of the states of one crystal momentum: square-summable amplitudes -/
noncomputable abbrev States : Type := ↥(lp (fun _ : Occ => ℂ) 2)

open Classical in
/-- the state without phonons -/
noncomputable def bare : States := lp.single 2 0 1

open Complex in
/-- `w + i eta` -/
noncomputable def energyAt (w eta : ℝ) : ℂ := w + I * eta

end GGCE.Spec
