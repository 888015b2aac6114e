import Verif.Model.Setters
import Verif.Model.Solver
import Verif.Proofs.Ids
import Verif.Proofs.Modes

/-! Lemmas for assignments to the properties of a model and for full identifiers. -/

set_option linter.unusedSectionVars false

namespace GGCE
open Spec Arr

variable {R K : Type} [Field R] [LinearOrder R] [Field K]

/-- the model at another temperature -/
def withTemperature (m : Model R) (T : R) : Model R := { m with temperature := T }

theorem initTerms_withTemperature (m : Model R) (T : R) (c : Arr) (hs : List (SingleTerm R)) :
    initTerms (withTemperature m T) c hs = initTerms m c hs := by
  induction hs with
  | nil => rfl
  | cons h hs ih => simp only [initTerms, ih]; rfl

theorem buildSystem_withTemperature (σ : SetOrder) (m : Model R) (T : R) :
    buildSystem σ (withTemperature m T) = buildSystem σ m := by
  have h1 : ∀ c, mkEquation (withTemperature m T) c = mkEquation m c := by
    intro c; unfold mkEquation; rw [initTerms_withTemperature]; rfl
  have h2 : initGeneralized σ (withTemperature m T) = initGeneralized σ m := by
    funext confs; unfold initGeneralized; simp only [h1]; rfl
  unfold buildSystem
  rw [h2]; rfl

theorem sparseSolve_withTemperature (F : Phys R K) (m : Model R) (T : R) (p : Point R)
    (basis : Dict PyStr Nat) (eqs : Dict Nat (List (Equation R))) (spsolve : LinSys K → Py (Nat → K)) :
    sparseSolve F (withTemperature m T) p basis eqs spsolve = sparseSolve F m p basis eqs spsolve := rfl

theorem denseR_withTemperature (F : Phys R K) (m : Model R) (T : R) (p : Point R)
    (basis : Dict Nat (Dict PyStr Nat)) (eqs : Dict Nat (List (Equation R))) (s n : Nat) :
    denseR F (withTemperature m T) p basis eqs s n = denseR F m p basis eqs s n := by
  induction s generalizing n with
  | zero => rfl
  | succ s ih => simp only [denseR, ih]; rfl

theorem denseSolve_withTemperature (F : Phys R K) (m : Model R) (T : R) (p : Point R)
    (basis : Dict Nat (Dict PyStr Nat)) (eqs : Dict Nat (List (Equation R))) :
    denseSolve F (withTemperature m T) p basis eqs = denseSolve F m p basis eqs := by
  unfold denseSolve
  simp only [denseR_withTemperature]
  rfl

/-- without a positive temperature `add_` does not look at its value -/
theorem add_withTemperature {P : Prims R} (m : Model R) {T : R} (h : ¬ 0 < m.temperature) (hT : ¬ 0 < T)
    (a : AddArgs R) : (withTemperature m T).add P a = (m.add P a).map (fun x => withTemperature x T) := by
  have e1 : (withTemperature m T).addRejected a = m.addRejected a := by
    simp [Model.addRejected, withTemperature, h, hT]
  have e2 : (withTemperature m T).tfdPrefactors P a.freq = m.tfdPrefactors P a.freq := by
    simp [Model.tfdPrefactors, withTemperature, h, hT]
  unfold Model.add
  rw [e1]
  by_cases hr : m.addRejected a = true
  · simp [hr, Except.map]
  · simp only [hr, if_false, e2]
    have e3 : (withTemperature m T).callIndex a = m.callIndex a := rfl
    have e4 : (withTemperature m T).ham = m.ham := rfl
    have e5 : (withTemperature m T).temperature = T := rfl
    rw [e3, e4]
    cases m.ham.add P a.ctype (m.callIndex a) a.freq a.g a.lam (m.tfdPrefactors P a.freq).1 with
    | error e => simp [Except.map]
    | ok H1 => simp [Except.map, e5, h, hT]; rfl

theorem adds_withTemperature {P : Prims R} (as : List (AddArgs R)) (m : Model R) {T : R}
    (h : ¬ 0 < m.temperature) (hT : ¬ 0 < T) :
    (withTemperature m T).adds P as = (m.adds P as).map (fun x => withTemperature x T) := by
  induction as generalizing m with
  | nil => rfl
  | cons a as ih =>
    unfold Model.adds
    rw [add_withTemperature m h hT]
    cases h1 : m.add P a with
    | error e => rfl
    | ok m1 =>
      simp only [Except.map]
      exact ih m1 (by rw [(add_fixed h1).1]; exact h)

theorem halfList_inj {x y : Num} {r s : PyStr}
    (h : listStr [halfStr x.tw] ++ r = listStr [halfStr y.tw] ++ s) : x.tw = y.tw ∧ r = s := by
  simp only [listStr, commaJoin, List.cons_append, List.cons.injEq, true_and, List.append_assoc] at h
  obtain ⟨h1, h2⟩ := halfStr_inj h
  simpa [h1] using h2

theorem fArgId_append_inj {f g : Option Num} {r s : PyStr} (h : fArgId f ++ r = fArgId g ++ s) :
    f.map Num.tw = g.map Num.tw ∧ r = s := by
  cases f with
  | none =>
    cases g with
    | none => simpa [fArgId] using h
    | some g => simp [fArgId, listStr] at h
  | some f =>
    cases g with
    | none => simp [fArgId, listStr] at h
    | some g =>
      obtain ⟨h1, h2⟩ := halfList_inj h
      exact ⟨by simp [h1], h2⟩

theorem gArgId_append_inj {f g : Option Num} {r s : PyStr} (h : gArgId f ++ r = gArgId g ++ s) :
    f.map Num.tw = g.map Num.tw ∧ r = s := by
  cases f with
  | none =>
    cases g with
    | none => simpa [gArgId] using h
    | some g => simp [gArgId, listStr] at h
  | some f =>
    cases g with
    | none => simp [gArgId, listStr] at h
    | some g =>
      obtain ⟨h1, h2⟩ := halfList_inj h
      exact ⟨by simp [h1], h2⟩

theorem halfStr_head (n : Int) : ∃ c cs, halfStr n = c :: cs ∧ c ≠ '!' := by
  unfold halfStr
  split
  · exact ⟨_, _, rfl, by decide⟩
  · cases hs : natStr (n.natAbs / 2) with
    | nil => exact absurd hs (natStr_ne_nil _)
    | cons c cs =>
      refine ⟨c, _, rfl, ?_⟩
      rintro rfl
      have := natStr_digits (n.natAbs / 2) '!' (by rw [hs]; simp)
      revert this; decide

theorem expId_inj {f g : Option Num} (h : expId f = expId g) : f.map Num.tw = g.map Num.tw := by
  cases f with
  | none =>
    cases g with
    | none => rfl
    | some g =>
      exfalso
      obtain ⟨c, cs, h1, h2⟩ := halfStr_head g.tw
      simp only [expId, listStr, commaJoin, h1, List.cons_append, List.cons.injEq, true_and] at h
      exact h2 h.1.symm
  | some f =>
    cases g with
    | none =>
      exfalso
      obtain ⟨c, cs, h1, h2⟩ := halfStr_head f.tw
      simp only [expId, listStr, commaJoin, h1, List.cons_append, List.cons.injEq, true_and] at h
      exact h2 h.1
    | some g =>
      have := halfList_inj (r := []) (s := []) (x := f) (y := g) (by simpa [expId] using h)
      simp [this.1]

end GGCE
