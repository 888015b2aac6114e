import Verif.Proofs.Setters
import Verif.Props.Model
import Verif.Props.Parameters

/-!
C76: full identifiers of terms. C77: values accepted by the setters of a model. C78: when the temperature
takes effect.
-/

set_option linter.unusedSectionVars false

namespace GGCE.Props
open Spec Arr

variable {R K : Type} [Field R] [LinearOrder R] [Field K]

/-! ### C76 -/

/-- C76: two terms have the same full identifier exactly when they have the same cloud (all zero-phonon
configurations count as one), the same `f_arg`, the same `g_arg` and the same `exp_shift`, a missing value
being different from every value. -/
theorem C76_full_id {a b : Arr} (ha : a.WF) (hb : b.WF) (f f' g g' c c' : Option Num) :
    fullTermId a f g c = fullTermId b f' g' c' ↔
      ((a.total = 0 ∧ b.total = 0) ∨ a = b) ∧ f.map Num.tw = f'.map Num.tw ∧
        g.map Num.tw = g'.map Num.tw ∧ c.map Num.tw = c'.map Num.tw := by
  unfold fullTermId termId
  constructor
  · intro h
    rw [List.append_assoc, List.append_assoc] at h
    obtain ⟨h1, h2⟩ := configId_inj ha hb h
    obtain ⟨h3, h4⟩ := fArgId_append_inj h2
    obtain ⟨h5, h6⟩ := gArgId_append_inj h4
    exact ⟨h1.imp id (fun h => h.2), h3, h5, expId_inj h6⟩
  · rintro ⟨h1, h2, h3, h4⟩
    have e1 : gArgId g = gArgId g' := by
      cases g <;> cases g' <;> simp_all [gArgId]
    have e2 : expId c = expId c' := by
      cases c <;> cases c' <;> simp_all [expId]
    rw [(configId_eq_iff ha hb).2 h1, fArgId_inj.2 h2, e1, e2]

example : Arr.WF ⟨[[1, 1]], 2⟩ ∧ Arr.WF ⟨[[1], [1]], 1⟩ ∧
    fullTermId ⟨[[1, 1]], 2⟩ (some ⟨false, 2⟩) none (some ⟨true, -1⟩) =
      ['{', '[', '1', ',', ' ', '1', ']', '(', '1', ',', ' ', '2', ')', '}', '[', '1', '.', '0', ']', '<', '!', '>',
        '[', '-', '0', '.', '5', ']'] := by decide +kernel

/-! ### C77 -/

/-- C77, proved part: whatever is assigned to the properties of a model and whichever couplings are added,
the temperature stays non-negative and the lattice constant positive, if they are so at the start. Missing:
the constructors do not check them (`C77_unchecked`). -/
theorem C77_kept_partial (P : Prims R) (os : List (ModelOp R)) (m m' : Model R) (hT : 0 ≤ m.temperature)
    (ha : 0 < m.latticeConstant) (h : m.run P os = .ok m') :
    0 ≤ m'.temperature ∧ 0 < m'.latticeConstant := by
  induction os generalizing m with
  | nil => cases h; exact ⟨hT, ha⟩
  | cons o os ih =>
    unfold Model.run at h
    cases h1 : m.step P o with
    | error e => rw [h1] at h; cases h
    | ok m1 =>
      rw [h1] at h
      refine ih m1 ?_ ?_ h
      · cases o with
        | add a => rw [(add_fixed h1).1]; exact hT
        | temperature x =>
          cases x with
          | none => cases h1; exact hT
          | some x =>
            cases h1
            unfold Model.setTemperature
            split
            · exact hT
            · exact not_lt.1 ‹_›
        | latticeConstant x =>
          cases x with
          | none => cases h1; exact hT
          | some x => cases h1; unfold Model.setLatticeConstant; split <;> exact hT
        | absExtent x => cases h1; unfold Model.setAbsExtent; split <;> exact hT
        | maxPerSite x => cases x <;> cases h1; exact hT
        | extent b => cases b <;> cases h1; exact hT
        | number b => cases b <;> cases h1; exact hT
      · cases o with
        | add a => rw [(add_fixed h1).2.2.2.2.2]; exact ha
        | temperature x =>
          cases x with
          | none => cases h1; exact ha
          | some x => cases h1; unfold Model.setTemperature; split <;> exact ha
        | latticeConstant x =>
          cases x with
          | none => cases h1; exact ha
          | some x =>
            cases h1
            unfold Model.setLatticeConstant
            split
            · exact ha
            · exact not_le.1 ‹_›
        | absExtent x => cases h1; unfold Model.setAbsExtent; split <;> exact ha
        | maxPerSite x => cases x <;> cases h1; exact ha
        | extent b => cases b <;> cases h1; exact ha
        | number b => cases b <;> cases h1; exact ha

example : ∃ m, (Model.fromParameters (1 : ℚ) 1 0 none 1).run exPrims
    [.temperature (some (-1)), .latticeConstant (some 0), .temperature (some 1), .add exHolstein] = .ok m ∧
      m.temperature = 1 ∧ m.latticeConstant = 1 ∧ m.nTypes = 2 := by
  have h : (match (Model.fromParameters (1 : ℚ) 1 0 none 1).run exPrims
    [.temperature (some (-1)), .latticeConstant (some 0), .temperature (some 1), .add exHolstein] with
    | .ok m => some (m.temperature, m.latticeConstant, m.nTypes)
    | _ => none) = some (1, 1, 2) := by decide +kernel
  split at h
  · rename_i m hm
    simp only [Option.some.injEq, Prod.mk.injEq] at h
    exact ⟨m, hm, h⟩
  · cases h

/-- C77 fails for `from_parameters`, which keeps a negative temperature and a non-positive lattice
constant. -/
theorem C77_unchecked : ¬ ∀ hopping lattice T : ℚ,
    0 ≤ (Model.fromParameters hopping lattice T none 1).temperature ∧
      0 < (Model.fromParameters hopping lattice T none 1).latticeConstant := by
  intro h
  exact absurd (h 1 1 (-1)).1 (by decide)

/-- A negative temperature given to `from_parameters` acts like zero: the same calls succeed and give the
same model, the same system and the same results. -/
theorem C77_negative (σ : SetOrder) (P : Prims R) (F : Phys R K) (hopping lattice T : R) (hT : T < 0)
    (cap : Option Int) (dim : Nat) (as : List (AddArgs R)) (m : Model R)
    (h : (Model.fromParameters hopping lattice 0 cap dim).adds P as = .ok m) :
    ∃ m', (Model.fromParameters hopping lattice T cap dim).adds P as = .ok m' ∧
      buildSystem σ m' = buildSystem σ m ∧
      (∀ p basis eqs spsolve, sparseSolve F m' p basis eqs spsolve = sparseSolve F m p basis eqs spsolve) ∧
      ∀ p basis eqs, denseSolve F m' p basis eqs = denseSolve F m p basis eqs := by
  have h1 := adds_withTemperature (P := P) as (Model.fromParameters hopping lattice 0 cap dim) (T := T)
    (lt_irrefl _) hT.not_gt
  rw [h] at h1
  exact ⟨_, h1, buildSystem_withTemperature σ m T,
    fun p basis eqs spsolve => sparseSolve_withTemperature F m T p basis eqs spsolve,
    fun p basis eqs => denseSolve_withTemperature F m T p basis eqs⟩

/-! ### C78 -/

/-- C78: assigning a temperature after the last `add_` call changes neither the system nor any result. -/
theorem C78_late (σ : SetOrder) (F : Phys R K) (m : Model R) (T : R) :
    buildSystem σ (m.setTemperature T) = buildSystem σ m ∧
    (∀ p basis eqs spsolve, sparseSolve F (m.setTemperature T) p basis eqs spsolve =
      sparseSolve F m p basis eqs spsolve) ∧
    ∀ p basis eqs, denseSolve F (m.setTemperature T) p basis eqs = denseSolve F m p basis eqs := by
  unfold Model.setTemperature
  split
  · exact ⟨rfl, fun _ _ _ _ => rfl, fun _ _ _ => rfl⟩
  · exact ⟨buildSystem_withTemperature σ m T,
      fun p basis eqs spsolve => sparseSolve_withTemperature F m T p basis eqs spsolve,
      fun p basis eqs => denseSolve_withTemperature F m T p basis eqs⟩

/-- C78: assigning an admissible temperature before the first `add_` call is the same as giving it to
`from_parameters`. -/
theorem C78_early (hopping lattice T T' : R) (hT : 0 ≤ T') (cap : Option Int) (dim : Nat) :
    (Model.fromParameters hopping lattice T cap dim).setTemperature T' =
      Model.fromParameters hopping lattice T' cap dim := by
  unfold Model.setTemperature
  rw [if_neg hT.not_gt]
  rfl

open Classical in
/-- The modes registered by a program: every acceptable `add_` call registers those for the temperature
last assigned before it. -/
noncomputable def runModes : R → List (ModelOp R) → List (Mode R)
  | _, [] => []
  | T, .add a :: os => (if Valid T a then modesAt T a else []) ++ runModes T os
  | T, .temperature (some x) :: os => runModes (if x < 0 then T else x) os
  | T, _ :: os => runModes T os

/-- statements that do not throw away the recorded limits -/
def Keeps : ModelOp R → Prop
  | .extent _ => False
  | .number _ => False
  | _ => True

/-- C78: for any interleaving of assignments and `add_` calls, each acceptable call registers one mode at
temperature zero and a real and a fictitious one at positive temperature, according to the temperature at the
time of the call. -/
theorem C78_interleaved (P : Prims R) (os : List (ModelOp R)) (hos : ∀ o ∈ os, Keeps o)
    (hopping lattice T : R) (cap : Option Int) (dim : Nat) (m : Model R)
    (h : (Model.fromParameters hopping lattice T cap dim).run P os = .ok m) :
    m.extent = (runModes T os).map (·.M) ∧ m.number = (runModes T os).map (·.N) ∧
      m.nTypes = (runModes T os).length := by
  have key : ∀ (os : List (ModelOp R)), (∀ o ∈ os, Keeps o) → ∀ (m m' : Model R) (ms : List (Mode R)),
      Records m ms → m.run P os = .ok m' → Records m' (ms ++ runModes m.temperature os) := by
    intro os
    induction os with
    | nil => intro _ m m' ms hr h; cases h; simpa [runModes] using hr
    | cons o os ih =>
      intro hk m m' ms hr h
      have hk' : ∀ o ∈ os, Keeps o := fun o ho => hk o (List.mem_cons_of_mem _ ho)
      unfold Model.run at h
      cases h1 : m.step P o with
      | error e => rw [h1] at h; cases h
      | ok m1 =>
        rw [h1] at h
        simp only at h
        cases o with
        | add a =>
          have hT := (add_fixed h1).1
          unfold runModes
          by_cases hv : Valid m.temperature a
          · rw [if_pos hv, ← List.append_assoc]
            have := ih hk' m1 m' _ (records_add hr h1 hv) h
            rwa [hT] at this
          · rw [if_neg hv, List.nil_append]
            have e : m1 = m := by
              have h1' : m.add P a = .ok m1 := h1
              rw [add_rejected P m a hv] at h1'; cases h1'; rfl
            subst e
            exact ih hk' m1 m' _ hr h
        | temperature x =>
          cases x with
          | none => cases h1; exact ih hk' m m' ms hr h
          | some x =>
            cases h1
            have := ih hk' (m.setTemperature x) m' ms (by
              unfold Model.setTemperature
              split
              · exact hr
              · exact ⟨hr.extent, hr.number, hr.nTypes, hr.extPos, hr.numPos⟩) h
            have e : (m.setTemperature x).temperature = if x < 0 then m.temperature else x := by
              unfold Model.setTemperature; split <;> rfl
            rw [e] at this
            exact this
        | latticeConstant x =>
          cases x with
          | none => cases h1; exact ih hk' m m' ms hr h
          | some x =>
            cases h1
            have := ih hk' (m.setLatticeConstant x) m' ms (by
              unfold Model.setLatticeConstant
              split
              · exact hr
              · exact ⟨hr.extent, hr.number, hr.nTypes, hr.extPos, hr.numPos⟩) h
            have e : (m.setLatticeConstant x).temperature = m.temperature := by
              unfold Model.setLatticeConstant; split <;> rfl
            rw [e] at this
            exact this
        | absExtent x =>
          cases h1
          have := ih hk' (m.setAbsExtent x) m' ms (by
            unfold Model.setAbsExtent
            split
            · exact hr
            · exact ⟨hr.extent, hr.number, hr.nTypes, hr.extPos, hr.numPos⟩) h
          have e : (m.setAbsExtent x).temperature = m.temperature := by
            unfold Model.setAbsExtent; split <;> rfl
          rw [e] at this
          exact this
        | maxPerSite x =>
          cases x with
          | none => cases h1
          | some x =>
            cases h1
            exact ih hk' { m with maxPerSite := x } m' ms
              ⟨hr.extent, hr.number, hr.nTypes, hr.extPos, hr.numPos⟩ h
        | extent b => exact (hk (.extent b) (by simp)).elim
        | number b => exact (hk (.number b) (by simp)).elim
  have hr := key os hos _ m [] (records_new hopping lattice T cap dim) h
  simp only [List.nil_append, Model.fromParameters] at hr
  exact ⟨hr.extent, hr.number, hr.nTypes⟩

/-- C78, a concrete program: a coupling added at temperature zero keeps its single mode although the
temperature is raised before the next coupling. -/
example : ∃ m, (Model.fromParameters (1 : ℚ) 1 0 none 1).run exPrims
    [.add exHolstein, .temperature (some 1), .add exPeierls] = .ok m ∧
      m.extent = [2, 3, 1] ∧ m.nTypes = 3 := by
  have h : (match (Model.fromParameters (1 : ℚ) 1 0 none 1).run exPrims
    [.add exHolstein, .temperature (some 1), .add exPeierls] with
    | .ok m => some (m.extent, m.nTypes)
    | _ => none) = some ([2, 3, 1], 3) := by decide +kernel
  split at h
  · rename_i m hm
    simp only [Option.some.injEq, Prod.mk.injEq] at h
    exact ⟨m, hm, h⟩
  · cases h

end GGCE.Props
