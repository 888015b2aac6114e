import Mathlib.Data.Int.Interval
import Mathlib.Data.Finset.Prod
import Mathlib.Data.List.Dedup
import Verif.Spec.Space

/-! How large a linear system may be, in terms of the model alone. -/

namespace GGCE.Spec

variable {R : Type}

/-- how many Hamiltonian terms create (or destroy) a phonon -/
def dagCount (m : Model R) (d : Dag) : Nat := (m.ham.terms.filter (fun h => h.dag = d)).length

/-- The arguments (doubled) that a cloud of at most `ae` sites can have: a shift `φ` of a Hamiltonian term, moved by
fewer than `ae` sites. -/
def argSet (m : Model R) (ae : Int) : Finset Int :=
  ((m.ham.terms.map (fun h => h.phi.tw)).toFinset ×ˢ Finset.Icc (1 - ae) (ae - 1)).image (fun q => q.1 + 2 * q.2)

/-- the largest number of entries in a row: the diagonal, one per site and destruction term, one per site
within `ae - 1` of the cloud and creation term -/
def rowBound (m : Model R) (ae : Int) : Nat :=
  1 + dagCount m .minus * ae.toNat + dagCount m .plus * (2 * ae - 1).toNat

/-- The arguments (doubled) of a cloud, for one phonon type with limits `M` and `N` and no cap: `φ - y` for a creation
term and an occupied site `y`; `φ - y` for a destruction term and a site `y` where a phonon can be added. -/
def oneArgs (hs : List (SingleTerm R)) (M N : Int) (a : Arr) : List Int :=
  (hs.flatMap (fun h => match h.dag with
    | .plus => ((List.range a.len).filter (fun x : Nat => 1 ≤ chain a 0 x)).map (fun x : Nat => h.phi.tw - 2 * (x : Int))
    | .minus => if typeTotal a 0 + 1 ≤ N then
        (List.range (2 * M - a.len).toNat).map (fun i : Nat => h.phi.tw - 2 * ((i : Int) + a.len - M)) else [])).dedup

/-- arguments of one cloud of extent `M`, for each coupling type -/
def argTable (ct : String) (M : Nat) : Nat :=
  if ct = "Holstein" then 2 * M - 1 else if ct = "BondPeierls" then 2 * M else 2 * M + 1

/-- entries of one row, for each coupling type -/
def rowTable (ct : String) (M : Nat) : Nat :=
  if ct = "Holstein" then 3 * M else if ct = "Peierls" then 12 * M - 3 else 6 * M - 1

end GGCE.Spec
