import Verif.Proofs.SparseLin
import Verif.Proofs.Twin

/-! The values the sparse solver may return, in terms of the equations. -/

set_option linter.unusedSectionVars false

namespace GGCE
open Spec Arr Dict

variable {R K : Type} [Field R] [LinearOrder R] [Field K]
variable {m : Model R} {eqs : Dict Nat (List (Equation R))}

theorem Ready.green_ix_eq (h : Ready m eqs) : ixOf eqs "{G}[0.0]".toList = (allEqs eqs).length - 1 := by
  obtain ⟨e, k1, k2⟩ := h.last
  rw [List.getLast?_eq_getElem?] at k1
  rw [← k2]; exact h.ix_get k1

theorem Ready.greenValue_iff (h : Ready m eqs) (F : Phys R K) (p : Point R) (g : K) :
    GreenValue F m p eqs g ↔ ∃ U, SolvesAll (coefV F m p) (fun e => e.bias F m p) (allEqs eqs) U ∧
      U "{G}[0.0]".toList = g := by
  obtain ⟨T, h1, h2, h3, h4, h5⟩ := h.sparse F p
  have hs := h.scaffold F p h1
  constructor
  · rintro ⟨ls, x, k1, k2, k3⟩
    rw [hs] at k1
    simp only [Except.ok.injEq] at k1
    subst k1
    refine ⟨fun id => x (ixOf eqs id), (h.solves_iff F p h5 x _ (fun e he => rfl)).1 k2, ?_⟩
    show x (ixOf eqs _) = g
    rw [← k3, h.green_ix_eq]
  · rintro ⟨U, k1, k2⟩
    let x : Nat → K := fun i => ((allEqs eqs)[i]?.map (fun e => U e.id)).getD 0
    refine ⟨_, x, hs, (h.solves_iff F p h5 x U ?_).2 k1, ?_⟩
    · intro e he
      simp only [x, h.get_ix he, Option.map_some, Option.getD_some]
    · obtain ⟨e, k3, k4⟩ := h.last
      rw [List.getLast?_eq_getElem?] at k3
      simp only [x, k3, Option.map_some, Option.getD_some]
      rw [k4, k2]

theorem Twin.greenValue {F : Phys R K} {s : Nat → K} {m' : Model R} {p p' : Point R}
    {τ : Term R → Term R} (ht : Twin F s m m' p p' τ eqs) (hr : Ready m eqs)
    (hr' : Ready m' (mapEqs τ eqs)) (g : K) :
    GreenValue F m' p' (mapEqs τ eqs) g ↔ GreenValue F m p eqs g := by
  rw [hr.greenValue_iff, hr'.greenValue_iff]
  have hG : levelOf eqs "{G}[0.0]".toList = 0 := by
    obtain ⟨e, -, k1, k2, k3, -⟩ := hr.vals_zero
    rw [← k3, hr.level k1, hr.notGreen e k1 k2]
    rfl
  have hsg : ∀ U : PyStr → K,
      s 0 * s (levelOf eqs "{G}[0.0]".toList) * U "{G}[0.0]".toList = U "{G}[0.0]".toList := by
    intro U; rw [hG, ht.sq, one_mul]
  constructor
  · rintro ⟨U, k1, k2⟩
    rw [← ht.signed U] at k1
    exact ⟨_, (ht.solves hr _).1 k1, (hsg U).trans k2⟩
  · rintro ⟨U, k1, k2⟩
    exact ⟨_, (ht.solves hr U).2 k1, (hsg U).trans k2⟩

end GGCE
