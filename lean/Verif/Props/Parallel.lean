import Verif.Props.Inexact
import Verif.Proofs.ParallelAlone
import Verif.Spec.Parallel

/-!
Property C109: programs that run at the same time on one disk.
-/

set_option linter.unusedSectionVars false

namespace GGCE.Props
open Spec Todo

/-- the results directories of the whole disk are sound -/
def SoundAll (m : Model ℝ) (ae : Int) (acc : ℝ → ℝ) (res : String → Dict PyStr (File (Option ℂ))) : Prop :=
  ∀ q, SoundFiles m ae acc (res q)

section
variable {m : Model ℝ} {ae : Int} (hm : WellFormed m ae) (hp : Physical m)
  {acc : ℝ → ℝ} (hacc : Falls acc) {raw : Point ℝ → Py (Option ℂ)}
  (hraw : ∀ p v, 0 < p.eta → raw p = .ok v → AccurateTo m ae (acc p.eta) p v) (σ0 : SetOrder) {E : Err → Prop}

theorem lookResult_quiet (root : String) (c : PyStr) :
    Quiet (Act.FineAll m (SoundAll m ae acc)) E (fun x => ∃ d, SoundFiles m ae acc d ∧ d.get? c = x)
      (Act.lookResult (R := ℝ) root c) :=
  fun _ _ h => ⟨rfl, _, h.2 root, rfl⟩

theorem changeResult_quiet (root : String) (c : PyStr) (f : File (Option ℂ))
    (h : ∀ d, SoundFiles m ae acc d → SoundFiles m ae acc (d.set c f)) :
    Quiet (Act.FineAll m (SoundAll m ae acc)) E (fun _ => True) (Act.changeResult (R := ℝ) root c f) := by
  refine fun _ => ⟨fun st hs => ⟨hs.1, fun q => ?_⟩, rfl, trivial⟩
  by_cases e : q = root
  · simp only [e, if_true]; exact h _ (hs.2 root)
  · simp only [e, if_false]; exact hs.2 q

include hm hp hacc hraw σ0

theorem solve_quiet (root : Option String) (p : Point ℝ) (hE : (∀ e, E e) ∨ (root = none ∧ ∃ v, raw p = .ok v)) :
    Quiet (Act.FineAll m (SoundAll m ae acc)) E (fun v => 4 / 10 ^ 10 ≤ p.eta →
      AccurateTo m ae (tolAcc m acc root.isSome p.eta) p v) (Act.solve raw root p) := by
  have key : ∀ d : Dict PyStr (File (Option ℂ)), SoundFiles m ae acc d → ∀ v,
      (solveSteps raw (some d) p).result = .ok v → 4 / 10 ^ 10 ≤ p.eta →
        AccurateTo m ae (tolAcc m acc true p.eta) p v := fun d hd =>
    (solveSteps_safe hm (builds hm) hp hacc hraw σ0 (dir := some d) (fun d' h => by cases h; exact hd) p).2.2.2
  unfold Act.solve
  cases root with
  | none =>
    refine Quiet.stop (fun v hv h4 => ?_) (fun e he => ?_)
    · simpa [tolAcc] using hraw p v (lt_of_lt_of_le (by positivity) h4) hv
    · rcases hE with h | ⟨-, v, h⟩
      · exact h e
      · rw [h] at he; cases he
  | some r =>
    have hE : ∀ e, E e := hE.elim id (fun h => by cases h.1)
    refine Quiet.bind (lookResult_quiet r _) (fun there _ => ?_)
    split
    · refine Quiet.bind (Q := fun G => raw p = .ok G) (Quiet.stop (fun a ha => ha) (fun e _ => hE e)) (fun G hG => ?_)
      refine Quiet.bind (changeResult_quiet r _ _ (fun d hd c v hv => ?_)) (fun _ _ => ?_)
      · rw [Dict.get?_set] at hv
        split at hv
        · cases hv
        · exact hd c v hv
      refine Quiet.bind (changeResult_quiet r _ _ (fun d hd c v hv => ?_)) (fun _ _ => Quiet.pure (fun h4 => ?_))
      · rw [Dict.get?_set] at hv
        split at hv
        · rename_i hc
          cases hv
          exact ⟨p, hc, fun h0 => hraw p G h0 hG⟩
        · exact hd c v hv
      · refine key [] (fun c v hv => by cases hv) G ?_ h4
        simp [solveSteps, preRead, Dict.get?, hG]
    · refine Quiet.bind (lookResult_quiet r _) (fun x hx => ?_)
      match x, hx with
      | none, _ => exact Quiet.stop (fun a ha => by cases ha) (fun e _ => hE e)
      | some .torn, _ => exact Quiet.stop (fun a ha => by cases ha) (fun e _ => hE e)
      | some (.full G), ⟨d, hd, hg⟩ =>
        refine Quiet.pure (fun h4 => key d hd G ?_ h4)
        simp [solveSteps, preRead, hg]

theorem solveAll_quiet (root : Option String) (ps : List (Point ℝ))
    (hE : (∀ e, E e) ∨ (root = none ∧ ∀ p ∈ ps, ∃ v, raw p = .ok v)) :
    Quiet (Act.FineAll m (SoundAll m ae acc)) E (fun vs => List.Forall₂ (fun (p : Point ℝ) v => 4 / 10 ^ 10 ≤ p.eta →
      AccurateTo m ae (tolAcc m acc root.isSome p.eta) p v) ps vs) (Act.solveAll raw root ps) := by
  induction ps with
  | nil => exact Quiet.pure .nil
  | cons p ps ih =>
    refine Quiet.bind (solve_quiet hm hp hacc hraw σ0 root p (hE.imp id (fun h => ⟨h.1, h.2 p (by simp)⟩))) (fun v hv => ?_)
    refine Quiet.bind (ih (hE.imp id (fun h => ⟨h.1, fun q hq => h.2 q (by simp [hq])⟩))) (fun vs hvs => ?_)
    exact Quiet.pure (.cons hv hvs)

theorem call_quiet (root : Option String) (c : Call ℝ)
    (hE : (∀ e, E e) ∨ (root = none ∧ Call.Ok c ∧ ∀ p, 0 < p.eta → ∃ v, raw p = .ok v)) :
    Quiet (Act.FineAll m (SoundAll m ae acc)) E (fun a => 4 / 10 ^ 10 ≤ Call.eta c →
      ExpectedTo m ae (tolAcc m acc root.isSome) c a) (Act.call raw root c) := by
  cases c with
  | solve p =>
    refine Quiet.bind (solve_quiet hm hp hacc hraw σ0 root p (hE.imp id (fun h =>
      ⟨h.1, h.2.2 p (lt_of_lt_of_le (by positivity) h.2.1)⟩))) (fun v hv => Quiet.pure hv)
  | grid k w eta =>
    refine Quiet.bind (Q := fun ks => floatToList k = .ok ks) (Quiet.stop (fun a ha => ha) (fun e he => ?_)) (fun ks hk => ?_)
    · rcases hE with h | ⟨-, h, -⟩
      · exact h e
      · obtain ⟨ks, -, k2⟩ := floatToList_points h.2.1
        rw [k2] at he; cases he
    refine Quiet.bind (Q := fun ws => floatToList w = .ok ws) (Quiet.stop (fun a ha => ha) (fun e he => ?_)) (fun ws hw => ?_)
    · rcases hE with h | ⟨-, h, -⟩
      · exact h e
      · obtain ⟨ws, -, k2⟩ := floatToList_points h.2.2
        rw [k2] at he; cases he
    refine Quiet.bind (solveAll_quiet hm hp hacc hraw σ0 root _ (hE.imp id (fun h => ⟨h.1, fun p hp => ?_⟩))) (fun vs hvs => ?_)
    · obtain ⟨j, -, rfl⟩ := List.mem_map.1 hp
      exact h.2.2 _ (lt_of_lt_of_le (by positivity) h.2.1.1)
    have hl : vs.length = ks.length * ws.length := by
      rw [← hvs.length_eq, List.length_map, jobList_length]
    refine Quiet.bind (Q := fun M => reshapeGrid vs ks.length ws.length = .ok M) (Quiet.stop (fun a ha => ha) (fun e he => ?_))
      (fun M hM => Quiet.pure (fun h4 => ?_))
    · simp [reshapeGrid, if_pos hl] at he
    · exact grid_answer hk hw hvs (by simp [Except.bind, hM, Except.map]) h4

/-- what is required of answer number `j` of a program -/
def Fit (m : Model ℝ) (ae : Int) (acc : ℝ → ℝ) (E : Err → Prop) (root : Option String) (cs : List (Call ℝ)) (j : Nat)
    (x : Py (Answer ℂ)) : Prop := match x with
  | .ok a => ∀ c, cs[j]? = some c → 4 / 10 ^ 10 ≤ Call.eta c → ExpectedTo m ae (tolAcc m acc root.isSome) c a
  | .error e => E e

theorem calls_safe (root : Option String) (all : List (Call ℝ)) (n : Nat) (cs : List (Call ℝ)) (h : all.drop n = cs)
    (hn : n ≤ all.length)
    (hE : (∀ e, E e) ∨ (root = none ∧ (∀ c ∈ cs, Call.Ok c) ∧ ∀ p, 0 < p.eta → ∃ v, raw p = .ok v)) :
    Safe (Act.FineAll m (SoundAll m ae acc)) (Fit m ae acc E root all) E (fun n' _ => n' = all.length) n
      (Act.calls raw root cs) := by
  induction cs generalizing n with
  | nil =>
    have : all.length ≤ n := List.drop_eq_nil_iff.1 h
    exact le_antisymm hn this
  | cons c cs ih =>
    have hc : all[n]? = some c := by
      have := congrArg (fun l => l[0]?) h
      simpa using this
    have hlt : n < all.length := (List.getElem?_eq_some_iff.1 hc).1
    have hd : all.drop (n + 1) = cs := by
      rw [List.drop_eq_getElem_cons hlt] at h
      exact (List.cons.inj h).2
    have h1 := call_quiet hm hp hacc hraw σ0 root c (hE.imp id (fun h => ⟨h.1, h.2.1 c (by simp), h.2.2⟩))
    refine Safe.bind (h1.attempt n) ?_
    rintro n' r ⟨rfl, hr⟩
    cases r with
    | error e => exact ⟨hr, hr⟩
    | ok a =>
      refine ⟨fun c' hc' => ?_, ih (n' + 1) hd hlt (hE.imp id (fun h => ⟨h.1, fun c' h' => h.2.1 c' (by simp [h']), h.2.2⟩))⟩
      rw [hc] at hc'
      cases hc'
      exact hr

end

theorem program_safe {m : Model ℝ} {ae : Int} (hm : WellFormed m ae) (hp : Physical m) {acc : ℝ → ℝ} (hacc : Falls acc)
    (s : Script ℝ ℂ) (hk : Good m ae acc s.kind) {E : Err → Prop} (hE : ∀ e, E e) :
    Safe (Act.FineAll m (SoundAll m ae acc)) (Fit m ae acc E s.source.solverRoot s.calls) E
      (fun n _ => n = s.calls.length) 0 (Act.program realPhys m s) := by
  unfold Act.program
  refine Safe.bind ((Act.construct_quiet (J := SoundAll m ae acc) (E := E) (builds hm) s
    (Or.inl hE)).attempt 0) ?_
  rintro n' r ⟨rfl, hr⟩
  cases r with
  | error e => exact ⟨hr, hr⟩
  | ok o =>
    exact calls_safe hm hp hacc (hk o hr) s.order _ s.calls 0 s.calls (by simp) (by simp) (Or.inl hE)

/-- a process is where `program_safe` wants it -/
structure OnTrack (m : Model ℝ) (ae : Int) (acc : ℝ → ℝ) (p : Running ℝ ℂ) : Prop where
  said : ∀ j x, p.said[j]? = some x → Fit m ae acc (fun _ => True) p.script.source.solverRoot p.script.calls j x
  rest : Safe (Act.FineAll m (SoundAll m ae acc)) (Fit m ae acc (fun _ => True) p.script.source.solverRoot p.script.calls) (fun _ => True)
    (fun n _ => n = p.script.calls.length) p.said.length p.rest

theorem OnTrack.move {m : Model ℝ} {ae : Int} {acc : ℝ → ℝ} {p : Running ℝ ℂ} (h : OnTrack m ae acc p)
    {st : Store ℝ ℂ} (hst : Act.FineAll m (SoundAll m ae acc) st) :
    OnTrack m ae acc (p.move st).2 ∧ Act.FineAll m (SoundAll m ae acc) (p.move st).1 := by
  obtain ⟨h1, h2⟩ := h
  unfold Running.move
  cases hr : p.rest with
  | stop r => rw [hr] at h2; exact ⟨⟨h1, h2⟩, hst⟩
  | read f k => rw [hr] at h2; exact ⟨⟨h1, h2 st hst⟩, hst⟩
  | write f k => rw [hr] at h2; exact ⟨⟨h1, h2.2⟩, h2.1 st hst⟩
  | say a k =>
    rw [hr] at h2
    refine ⟨⟨fun j x hx => ?_, by simpa using h2.2⟩, hst⟩
    rw [List.getElem?_append] at hx
    split at hx
    · exact h1 j x hx
    · rename_i hj
      have : j = p.said.length := by
        by_contra hne
        have : j - p.said.length ≠ 0 := by omega
        obtain ⟨i, hi⟩ := Nat.exists_eq_succ_of_ne_zero this
        rw [hi] at hx
        simp at hx
      subst this
      simp at hx
      subst hx
      exact h2.1

theorem reach_track {m : Model ℝ} {ae : Int} (hm : WellFormed m ae) (hp : Physical m) {acc : ℝ → ℝ} (hacc : Falls acc)
    {solvers : SolverKind ℂ → Prop} (hs : ∀ k, solvers k → Good m ae acc k) {st : Store ℝ ℂ} {ps : List (Running ℝ ℂ)}
    (h : Reach m solvers st ps) : Act.FineAll m (SoundAll m ae acc) st ∧ ∀ p ∈ ps, OnTrack m ae acc p := by
  induction h with
  | empty h => exact ⟨⟨fun q => by rw [h.1]; exact FineDir.empty m, fun q => by rw [h.2]; intro c v hv; cases hv⟩, by simp⟩
  | start s h hk ih =>
    refine ⟨ih.1, fun p hp' => ?_⟩
    rcases List.mem_append.1 hp' with h' | h'
    · exact ih.2 p h'
    · rw [List.mem_singleton.1 h']
      exact ⟨by simp, program_safe hm hp hacc s (hs _ hk) (fun _ => trivial)⟩
  | step i p h hi ih =>
    have h1 := ih.2 p (List.mem_of_getElem? hi)
    refine ⟨(h1.move ih.1).2, fun q hq => ?_⟩
    rcases List.mem_or_eq_of_mem_set hq with h' | rfl
    · exact ih.2 q h'
    · exact (h1.move ih.1).1

/-- **C109**, accuracy. Programs for one model run at the same time on one disk, started at any moment and taking their steps
in any order; some may be killed. They use the dense solver or a sparse solver whose residuals are at most `ρ` times the
right-hand side. Every number that any of them has printed for a call with a broadening of at least `4e-10` is as accurate as
C108 says for a program that runs alone. -/
theorem C109_accuracy (m : Model ℝ) (ae : Int) (hm : WellFormed m ae) (hp : Physical m) (ρ : ℝ) (hρ : 0 ≤ ρ)
    (st : Store ℝ ℂ) (ps : List (Running ℝ ℂ)) (h : Reach m (KindRelative ρ) st ps) (p : Running ℝ ℂ) (hmem : p ∈ ps)
    (j : Nat) (c : Call ℝ) (a : Answer ℂ) (hc : p.script.calls[j]? = some c) (ha : p.said[j]? = some (.ok a))
    (h4 : 4 / 10 ^ 10 ≤ Call.eta c) : ExpectedTo m ae (toleranceTo m ρ p.script.source.solverRoot) c a := by
  have := ((reach_track hm hp (falls_residual m hρ) (good_relative hm hp hρ) h).2 p hmem).said j _ ha c hc h4
  have e : tolAcc m (residualError m ρ) p.script.source.solverRoot.isSome = toleranceTo m ρ p.script.source.solverRoot := by
    funext eta
    cases p.script.source.solverRoot <;> simp [tolAcc, toleranceTo]
  rwa [e] at this

/-- **C109**, end. Every process comes to an end, whatever others do to the disk between its steps. -/
theorem C109_terminates (p : Running ℝ ℂ) (st : ℕ → Store ℝ ℂ) : ∃ n r, (Running.after p st n).rest = .stop r := by
  obtain ⟨s, said, rest⟩ := p
  induction rest generalizing said st with
  | stop r => exact ⟨0, r, rfl⟩
  | read f k ih =>
    obtain ⟨n, r, h⟩ := ih (f (st 0)) (fun i => st (i + 1)) said
    exact ⟨n + 1, r, h⟩
  | write f k ih =>
    obtain ⟨n, r, h⟩ := ih (fun i => st (i + 1)) said
    exact ⟨n + 1, r, h⟩
  | say a k ih =>
    obtain ⟨n, r, h⟩ := ih (fun i => st (i + 1)) (said ++ [a])
    exact ⟨n + 1, r, h⟩

theorem solo_alone {R K : Type} (s : Script R K) (x : Act R K Unit) (said : List (Py (Answer K))) (st : Store R K) :
    ∃ n, Running.solo ⟨s, said, x⟩ st n = ((x.alone st).2.2, ⟨s, said ++ (x.alone st).1, .stop (x.alone st).2.1⟩) := by
  induction x generalizing said st with
  | stop r => exact ⟨0, by simp [Running.solo, alone]⟩
  | read f k ih =>
    obtain ⟨n, h⟩ := ih (f st) said st
    exact ⟨n + 1, h⟩
  | write f k ih =>
    obtain ⟨n, h⟩ := ih said (f st)
    exact ⟨n + 1, h⟩
  | say a k ih =>
    obtain ⟨n, h⟩ := ih (said ++ [a]) st
    exact ⟨n + 1, by simpa [Running.solo, Running.move, alone] using h⟩

/-- **C109**, one process. A process that is alone comes to its end after some number of steps. What it has printed then, and
what is on the disk, is what the model of one process says (Verif/Model/Interrupt.lean, C107), for any disk, model and
program. -/
theorem C109_alone {R K : Type} [Field R] [LinearOrder R] [FloorRing R] [Field K] (F : Phys R K) (m : Model R)
    (s : Script R K) (st : Store R K) :
    ∃ n st' out r, Running.solo ⟨s, [], Act.program F m s⟩ st n = (st', ⟨s, out, .stop r⟩) ∧
      (s.life F m st).getLast? = some (out, st') := by
  obtain ⟨n, h⟩ := solo_alone s (Act.program F m s) [] st
  exact ⟨n, _, _, _, h, Act.program_does F m s st⟩

/-! ### programs that are not disturbed -/

/-- the result files of a program -/
abbrev View (s : Script ℝ ℂ) : Type := {x : String × PyStr // Script.Uses s x.1 x.2} → Option (File (Option ℂ))

/-- the result files of a program, on a disk -/
def view (s : Script ℝ ℂ) (res : String → Dict PyStr (File (Option ℂ))) : View s := fun x => (res x.1.1).get? x.1.2

/-- none of them is incomplete -/
def Clean {s : Script ℝ ℂ} (w : View s) : Prop := ∀ x, w x ≠ some .torn

theorem view_apart {s : Script ℝ ℂ} {r : String} {c : PyStr} (h : ¬ Script.Uses s r c) : Act.Apart (view s) r c := by
  intro res f
  funext ⟨⟨r', c'⟩, hx⟩
  simp only [view]
  split
  · rename_i e
    subst e
    rw [Dict.get?_set, if_neg]
    rintro rfl
    exact h hx
  · rfl

theorem view_set {s : Script ℝ ℂ} {r : String} {c : PyStr} (res : String → Dict PyStr (File (Option ℂ))) (f : File (Option ℂ))
    (x : {x : String × PyStr // Script.Uses s x.1 x.2}) :
    view s (fun q => if q = r then (res r).set c f else res q) x = if x.1 = (r, c) then some f else view s res x := by
  obtain ⟨⟨r', c'⟩, hx⟩ := x
  simp only [view, Prod.mk.injEq]
  by_cases h1 : r' = r
  · subst h1
    simp only [if_true, true_and, Dict.get?_set, eq_comm]
  · simp [h1]

theorem solve_own (s : Script ℝ ℂ) (I : Store ℝ ℂ → Prop) {raw : Point ℝ → Py (Option ℂ)} (p : Point ℝ) (root : Option String)
    (hu : ∀ r, root = some r → Script.Uses s r (cacheKey p)) {v : Option ℂ} (hv : raw p = .ok v) (n : Nat) :
    Own (fun st => view s st.results) I (fun _ _ => False) (fun _ => False) (fun n' _ => n' = n) Clean Clean n
      (Act.solve raw root p) := by
  unfold Act.solve
  cases root with
  | none => simp only [hv]; exact ⟨rfl, fun _ h => h⟩
  | some r =>
    have hu := hu r rfl
    intro st _ hc
    cases hg : (st.results r).get? (cacheKey p) with
    | none =>
      simp only [Todo.andThen, hg, Option.isNone_none, if_true, hv]
      refine ⟨fun w => ∀ x, x.1 ≠ (r, cacheKey p) → w x ≠ some .torn, fun st' _ hst' x hx => ?_, ?_⟩
      · refine (view_set st'.results .torn x).trans_ne ?_
        rw [if_neg hx, show view s st'.results = view s st.results from hst']
        exact hc x
      · refine ⟨Clean, fun st' _ hst' x => ?_, rfl, fun _ h => h⟩
        refine (view_set st'.results (.full v) x).trans_ne ?_
        split
        · simp
        · rename_i hx; exact hst' x hx
    | some f =>
      simp only [Todo.andThen, hg, Option.isNone_some, Bool.false_eq_true, if_false]
      intro st' _ hc'
      have h1 : (st'.results r).get? (cacheKey p) = some f := by
        have := congrFun hc' ⟨(r, cacheKey p), hu⟩
        simpa [view, hg] using this
      simp only [Todo.andThen, h1]
      cases f with
      | torn => exact absurd hg (hc ⟨(r, cacheKey p), hu⟩)
      | full G =>
        refine ⟨rfl, fun w hw => ?_⟩
        rw [hw]
        exact (show view s st'.results = view s st.results from hc') ▸ hc

theorem solveAll_own (s : Script ℝ ℂ) (I : Store ℝ ℂ → Prop) {raw : Point ℝ → Py (Option ℂ)} (root : Option String)
    (ps : List (Point ℝ)) (hu : ∀ r, root = some r → ∀ p ∈ ps, Script.Uses s r (cacheKey p))
    (hv : ∀ p ∈ ps, ∃ v, raw p = .ok v) (n : Nat) :
    Own (fun st => view s st.results) I (fun _ _ => False) (fun _ => False) (fun n' vs => n' = n ∧ vs.length = ps.length)
      Clean Clean n (Act.solveAll raw root ps) := by
  induction ps with
  | nil => exact ⟨⟨rfl, rfl⟩, fun _ h => h⟩
  | cons p ps ih =>
    obtain ⟨v, hp⟩ := hv p (by simp)
    refine Own.bind (solve_own s I p root (fun r hr => hu r hr p (by simp)) hp n) ?_
    rintro _ G rfl
    refine Own.bind (ih (fun r hr q hq => hu r hr q (by simp [hq])) (fun q hq => hv q (by simp [hq]))) ?_
    rintro _ Gs ⟨rfl, hl⟩
    exact ⟨⟨rfl, by simp [hl]⟩, fun _ h => h⟩

theorem call_points {k w : GridArg ℝ} {eta : ℝ} {ks ws : List ℝ} (hk : floatToList k = .ok ks) (hw : floatToList w = .ok ws) :
    (jobList ks ws).map (fun j => (⟨j.1, j.2, eta⟩ : Point ℝ)) = Call.points (.grid k w eta) := by
  have points : ∀ {k : GridArg ℝ} {ks}, floatToList k = .ok ks → gridPoints k = some ks := by
    intro k ks h
    cases k with
    | float x => cases h; rfl
    | int n => cases h
    | seq xs => cases h; rfl
  simp [Call.points, points hk, points hw, jobList, List.map_flatMap, Function.comp_def]

theorem call_own (s : Script ℝ ℂ) (I : Store ℝ ℂ → Prop) {raw : Point ℝ → Py (Option ℂ)} (root : Option String)
    (c : Call ℝ) (hc : Call.Ok c) (hu : ∀ r, root = some r → ∀ p ∈ Call.points c, Script.Uses s r (cacheKey p))
    (hv : ∀ p, 0 < p.eta → ∃ v, raw p = .ok v) (n : Nat) :
    Own (fun st => view s st.results) I (fun _ _ => False) (fun _ => False) (fun n' _ => n' = n)
      Clean Clean n (Act.call raw root c) := by
  cases c with
  | solve p =>
    obtain ⟨v, hp⟩ := hv p (lt_of_lt_of_le (by positivity) hc)
    refine Own.bind (solve_own s I p root (fun r hr => hu r hr p (by simp [Call.points])) hp n) ?_
    rintro _ G rfl
    exact ⟨rfl, fun _ h => h⟩
  | grid k w eta =>
    obtain ⟨ks, -, hk⟩ := floatToList_points hc.2.1
    obtain ⟨ws, -, hw⟩ := floatToList_points hc.2.2
    simp only [Act.call, hk, hw]
    change Own _ _ _ _ _ _ _ _ (Act.solveAll raw root _ >>= _)
    refine Own.bind (solveAll_own s I root _ ?_ ?_ n) ?_
    · intro r hr p hp
      rw [call_points hk hw] at hp
      exact hu r hr p hp
    · intro p hp
      obtain ⟨j, -, rfl⟩ := List.mem_map.1 hp
      exact hv _ (lt_of_lt_of_le (by positivity) hc.1)
    · rintro _ Gs ⟨rfl, hl⟩
      rw [List.length_map, jobList_length] at hl
      simp only [reshapeGrid, if_pos hl]
      exact ⟨rfl, fun _ h => h⟩

theorem calls_own (s : Script ℝ ℂ) (I : Store ℝ ℂ → Prop) {raw : Point ℝ → Py (Option ℂ)} (root : Option String)
    (hv : ∀ p, 0 < p.eta → ∃ v, raw p = .ok v) (cs : List (Call ℝ)) (hc : ∀ c ∈ cs, Call.Ok c)
    (hu : ∀ r, root = some r → ∀ c ∈ cs, ∀ p ∈ Call.points c, Script.Uses s r (cacheKey p)) (n : Nat) :
    Own (fun st => view s st.results) I (fun _ x => ∃ a, x = .ok a) (fun _ => False) (fun n' _ => n' = n + cs.length)
      Clean Clean n (Act.calls raw root cs) := by
  induction cs generalizing n with
  | nil => exact ⟨rfl, fun _ h => h⟩
  | cons c cs ih =>
    refine Own.bind (call_own s I root c (hc c (by simp)) (fun r hr => hu r hr c (by simp)) hv n).attempt ?_
    rintro n' _ ⟨a, rfl, hn⟩
    subst hn
    refine ⟨⟨a, rfl⟩, ?_⟩
    have := ih (fun c' h => hc c' (by simp [h])) (fun r hr c' h => hu r hr c' (by simp [h])) (n' + 1)
    simpa [Nat.add_assoc, Nat.add_comm 1] using this

theorem program_own {m : Model ℝ} {ae : Int} (hm : WellFormed m ae) (hp : Physical m)
    {J : (String → Dict PyStr (File (Option ℂ))) → Prop} (s : Script ℝ ℂ) (hs : Steady s) :
    Own (fun st => view s st.results) (Act.FineAll m J) (fun _ x => ∃ a, x = .ok a) (fun _ => False)
      (fun n _ => n = s.calls.length) Clean Clean 0 (Act.program realPhys m s) := by
  unfold Act.program
  refine Own.bind (Own.of_safe ((Act.construct_quiet (J := J) (E := fun _ => False) (builds hm) s
    (Or.inr hs.source)).attempt 0) (Act.construct_keeps m s).attempt) ?_
  rintro n r ⟨rfl, hr⟩
  cases r with
  | error e => exact hr.elim
  | ok o =>
    have := calls_own s (Act.FineAll m J) s.source.solverRoot (fun p h0 => (good_answers hm hp _ hs.kind o hr p h0).imp'
      some (fun _ h => h)) s.calls hs.calls (fun r hr c hc p hp => ⟨hr, c, hc, p, hp, rfl⟩) 0
    simpa using this

/-- a program leaves the files of others alone -/
theorem program_keeps {m : Model ℝ} (s s' : Script ℝ ℂ) (h : ∀ r c, Script.Uses s r c → ¬ Script.Uses s' r c) :
    Keeps (fun st => view s' st.results) (Act.program realPhys m s) := by
  have key : ∀ (raw : Point ℝ → Py (Option ℂ)) (cs : List (Call ℝ)), (∀ c ∈ cs, c ∈ s.calls) →
      Keeps (fun st => view s' st.results) (Act.calls raw s.source.solverRoot cs) := by
    intro raw cs hcs
    induction cs with
    | nil => trivial
    | cons c cs ih =>
      have hu : ∀ r, s.source.solverRoot = some r → ∀ p ∈ Call.points c, Act.Apart (view s') r (cacheKey p) :=
        fun r hr p hp => view_apart (h r _ ⟨hr, c, hcs c (by simp), p, hp, rfl⟩)
      refine Keeps.bind (Keeps.attempt ?_) (fun r => ?_)
      · cases c with
        | solve p =>
          exact Keeps.bind (Act.solve_keeps raw _ p (fun r hr => hu r hr p (by simp [Call.points]))) (fun _ => trivial)
        | grid k w eta =>
          cases hk : floatToList k with
          | error e => simp only [Act.call, hk]; trivial
          | ok ks =>
            cases hw : floatToList w with
            | error e => simp only [Act.call, hk, hw]; trivial
            | ok ws =>
              simp only [Act.call, hk, hw]
              change Keeps _ (Act.solveAll raw s.source.solverRoot _ >>= _)
              rw [call_points hk hw]
              exact Keeps.bind (Act.solveAll_keeps raw _ _ hu) (fun _ => Keeps.bind trivial (fun _ => trivial))
      · cases r with
        | error e => trivial
        | ok a => exact ih (fun c' h => hcs c' (by simp [h]))
  unfold Act.program
  refine Keeps.bind (Act.construct_keeps m s).attempt (fun r => ?_)
  cases r with
  | error e => trivial
  | ok o => exact key _ _ (fun c h => h)

/-- no common result files -/
def Disjoint (s s' : Script ℝ ℂ) : Prop := ∀ r c, Script.Uses s r c → ¬ Script.Uses s' r c

theorem move_script (p : Running ℝ ℂ) (st : Store ℝ ℂ) : (p.move st).2.script = p.script := by
  unfold Running.move
  cases p.rest <;> rfl

theorem move_keeps {W : Type} {V : Store ℝ ℂ → W} {p : Running ℝ ℂ} (h : Keeps V p.rest) (st : Store ℝ ℂ) :
    Keeps V (p.move st).2.rest ∧ V (p.move st).1 = V st := by
  unfold Running.move
  cases hr : p.rest with
  | stop r => exact ⟨trivial, rfl⟩
  | read f k => rw [hr] at h; exact ⟨h _, rfl⟩
  | write f k => rw [hr] at h; exact ⟨h.2, h.1 st⟩
  | say a k => rw [hr] at h; exact ⟨h, rfl⟩

/-- processes leave the files of others alone -/
theorem reach_keeps {m : Model ℝ} {solvers : SolverKind ℂ → Prop} {st : Store ℝ ℂ} {ps : List (Running ℝ ℂ)}
    (h : Reach m solvers st ps) (s : Script ℝ ℂ) :
    (∀ p ∈ ps, Disjoint p.script s → Keeps (fun st => view s st.results) p.rest) ∧
      ((∀ p ∈ ps, Disjoint p.script s) → ∀ x, view s st.results x = none) := by
  induction h with
  | empty h => exact ⟨by simp, fun _ x => by simp [view, h.2, Dict.get?]⟩
  | start s' h hk ih =>
    refine ⟨fun p hp hd => ?_, fun hd => ih.2 (fun p hp => hd p (by simp [hp]))⟩
    rcases List.mem_append.1 hp with h' | h'
    · exact ih.1 p h' hd
    · rw [List.mem_singleton.1 h'] at hd ⊢
      exact program_keeps s' s hd
  | @step st ps i p h hi ih =>
    have hmem := List.mem_of_getElem? hi
    refine ⟨fun q hq hd => ?_, fun hd x => ?_⟩
    · rcases List.mem_or_eq_of_mem_set hq with h' | rfl
      · exact ih.1 q h' hd
      · rw [move_script] at hd
        exact (move_keeps (ih.1 p hmem hd) st).1
    · have hd' : ∀ q ∈ ps, Disjoint q.script s := by
        intro q hq
        obtain ⟨j, hj⟩ := List.getElem?_of_mem hq
        by_cases e : j = i
        · subst e
          rw [hi] at hj
          cases hj
          have := hd (p.move st).2 (List.mem_of_getElem? (i := j) (by simp [(List.getElem?_eq_some_iff.1 hi).1]))
          rwa [move_script] at this
        · exact hd q (List.mem_of_getElem? (i := j) (by rw [List.getElem?_set_ne (Ne.symm e), hj]))
      rw [(move_keeps (ih.1 p hmem (hd' p hmem)) st).2]
      exact ih.2 hd' x

/-- where an undisturbed process is -/
theorem reach_own {m : Model ℝ} {ae : Int} (hm : WellFormed m ae) (hp : Physical m) {acc : ℝ → ℝ} (hacc : Falls acc)
    {solvers : SolverKind ℂ → Prop} (hs : ∀ k, solvers k → Good m ae acc k) {st : Store ℝ ℂ} {ps : List (Running ℝ ℂ)}
    (h : Reach m solvers st ps) (i : ℕ) (p : Running ℝ ℂ) (hi : ps[i]? = some p) (hst : Steady p.script)
    (hd : ∀ j q, j ≠ i → ps[j]? = some q → Disjoint q.script p.script) :
    (∀ x ∈ p.said, ∃ a, x = .ok a) ∧ ∃ C : View p.script → Prop, C (view p.script st.results) ∧
      Own (fun st => view p.script st.results) (Act.FineAll m (SoundAll m ae acc)) (fun _ x => ∃ a, x = .ok a) (fun _ => False)
        (fun n _ => n = p.script.calls.length) Clean C p.said.length p.rest := by
  induction h generalizing i p with
  | empty h => simp at hi
  | @start st ps s h hk ih =>
    by_cases hl : i < ps.length
    · rw [List.getElem?_append_left hl] at hi
      refine ih i p hi hst (fun j q hj hq => hd j q hj ?_)
      rw [List.getElem?_append_left (List.getElem?_eq_some_iff.1 hq).1, hq]
    · have hil : i = ps.length := by
        have := (List.getElem?_eq_some_iff.1 hi).1
        simp at this
        omega
      subst hil
      simp at hi
      subst hi
      refine ⟨by simp, Clean, fun x => ?_, program_own hm hp s hst⟩
      rw [(reach_keeps h s).2 (fun q hq => ?_) x]
      · simp
      · obtain ⟨j, hj⟩ := List.getElem?_of_mem hq
        have hjl := (List.getElem?_eq_some_iff.1 hj).1
        exact hd j q (by omega) (by rw [List.getElem?_append_left hjl, hj])
  | @step st ps j q h hj ih =>
    have hfine := (reach_track hm hp hacc hs h).1
    by_cases e : i = j
    · subst e
      rw [List.getElem?_set_self (List.getElem?_eq_some_iff.1 hj).1] at hi
      cases hi
      rw [move_script] at hst hd ⊢
      obtain ⟨h1, C, h2, h3⟩ := ih i q hj hst (fun k r hk hr => hd k r hk (by rw [List.getElem?_set_ne (Ne.symm hk), hr]))
      unfold Running.move
      cases hr : q.rest with
      | stop r => rw [hr] at h3; exact ⟨h1, C, h2, h3⟩
      | read f k => rw [hr] at h3; exact ⟨h1, fun w => w = view q.script st.results, rfl, h3 st hfine h2⟩
      | write f k =>
        rw [hr] at h3
        obtain ⟨C', h4, h5⟩ := h3
        exact ⟨h1, C', h4 st hfine h2, h5⟩
      | say a k =>
        rw [hr] at h3
        refine ⟨fun x hx => ?_, C, h2, by simpa using h3.2⟩
        rcases List.mem_append.1 hx with h' | h'
        · exact h1 x h'
        · rw [List.mem_singleton.1 h']; exact h3.1
    · rw [List.getElem?_set_ne (Ne.symm e)] at hi
      have hq : Disjoint q.script p.script := by
        have := hd j (q.move st).2 (Ne.symm e) (by rw [List.getElem?_set_self (List.getElem?_eq_some_iff.1 hj).1])
        rwa [move_script] at this
      obtain ⟨h1, C, h2, h3⟩ := ih i p hi hst (fun k r hk hr => by
        by_cases e' : k = j
        · subst e'
          rw [hj] at hr
          cases hr
          exact hq
        · exact hd k r hk (by rw [List.getElem?_set_ne (Ne.symm e'), hr]))
      refine ⟨h1, C, ?_, h3⟩
      rw [(move_keeps ((reach_keeps h p.script).1 q (List.mem_of_getElem? hj) hq) st).2]
      exact h2

/-- **C109**, undisturbed programs. Let a program construct its system (`System(model, root=...)`, in a directory that others
may use at the same time), let its linear solver not raise and its calls have proper arguments, and let no other program
have a result file in common with it. Then it raises nothing, whatever the others do, and when it has come to its end it has
printed an answer of the accuracy of C108 for each of its calls. -/
theorem C109_undisturbed_partial (m : Model ℝ) (ae : Int) (hm : WellFormed m ae) (hp : Physical m) (ρ : ℝ) (hρ : 0 ≤ ρ)
    (st : Store ℝ ℂ) (ps : List (Running ℝ ℂ)) (h : Reach m (KindRelative ρ) st ps) (i : ℕ) (p : Running ℝ ℂ)
    (hi : ps[i]? = some p) (hs : Steady p.script) (hd : ∀ j q, j ≠ i → ps[j]? = some q →
      ∀ r c, Script.Uses q.script r c → ¬ Script.Uses p.script r c) :
    (∀ x ∈ p.said, ∃ a, x = .ok a) ∧ ∀ r, p.rest = .stop r → r = .ok () ∧
      List.Forall₂ (fun c x => ∃ a, x = .ok a ∧ ExpectedTo m ae (toleranceTo m ρ p.script.source.solverRoot) c a)
        p.script.calls p.said := by
  obtain ⟨h1, C, h2, h3⟩ := reach_own hm hp (falls_residual m hρ) (good_relative hm hp hρ) h i p hi hs hd
  refine ⟨h1, fun r hr => ?_⟩
  rw [hr] at h3
  cases r with
  | error e => exact h3.elim
  | ok u =>
    refine ⟨rfl, List.forall₂_iff_get.2 ⟨h3.1.symm, fun j hj hj' => ?_⟩⟩
    obtain ⟨a, ha⟩ := h1 (p.said.get ⟨j, hj'⟩) (List.get_mem _ _)
    refine ⟨a, ha, C109_accuracy m ae hm hp ρ hρ st ps h p (List.mem_of_getElem? hi) j _ a (List.getElem?_eq_getElem hj) ?_ ?_⟩
    · rw [List.getElem?_eq_getElem hj']
      exact congrArg some ha
    · have := hs.calls _ (List.getElem_mem hj)
      rw [List.get_eq_getElem]
      revert this
      cases p.script.calls[j] with
      | solve q => exact id
      | grid k w eta => exact fun h => h.1

/-! ### programs that are disturbed -/

theorem set_same {α : Type 1} {l : List α} {i : ℕ} {a : α} (h : l[i]? = some a) : l.set i a = l := by
  apply List.ext_getElem?
  intro j
  rw [List.getElem?_set]
  split
  · rename_i e
    subst e
    rw [if_pos (List.getElem?_eq_some_iff.1 h).1, h]
  · rfl

/-- a process may go on alone to the end of a part of it that prints nothing and raises nothing -/
theorem drive {m : Model ℝ} {solvers : SolverKind ℂ → Prop} {st : Store ℝ ℂ} {ps : List (Running ℝ ℂ)}
    (h : Reach m solvers st ps) {i : ℕ} {s : Script ℝ ℂ} {said : List (Py (Answer ℂ))} {α : Type} {x : Act ℝ ℂ α}
    {g : α → Act ℝ ℂ Unit} (hi : ps[i]? = some ⟨s, said, x >>= g⟩) {I : Store ℝ ℂ → Prop} (hI : I st) {Q : Nat → α → Prop}
    {n : Nat} (hx : Safe I (fun _ _ => False) (fun _ => False) Q n x) :
    ∃ st' a, Reach m solvers st' (ps.set i ⟨s, said, g a⟩) ∧ I st' ∧ ∃ n', Q n' a := by
  rw [bind_def] at hi
  induction x generalizing st ps with
  | stop r => cases r with
    | error e => exact hx.elim
    | ok a =>
      refine ⟨st, a, ?_, hI, n, hx⟩
      have e : ps.set i ⟨s, said, g a⟩ = ps := set_same hi
      rw [e]
      exact h
  | read f k ih =>
    have hl := (List.getElem?_eq_some_iff.1 hi).1
    have h' := Reach.step i _ h hi
    obtain ⟨st', a, h1, h2, h3⟩ := ih (f st) h' (by simp [hl, Running.move, Todo.andThen]) hI (hx st hI)
    exact ⟨st', a, by simpa using h1, h2, h3⟩
  | write f k ih =>
    have hl := (List.getElem?_eq_some_iff.1 hi).1
    have h' := Reach.step i _ h hi
    obtain ⟨st', a, h1, h2, h3⟩ := ih h' (by simp [hl, Running.move, Todo.andThen]) (hx.1 st hI) hx.2
    exact ⟨st', a, by simpa using h1, h2, h3⟩
  | say a k ih => exact hx.1.elim

/-- a program with one call, after the second look at the result file -/
def afterRead : Option (File (Option ℂ)) → Act ℝ ℂ Unit
  | none => .say (.error .fileNotFound) (.stop (.error .fileNotFound))
  | some .torn => .say (.error .eofError) (.stop (.error .eofError))
  | some (.full G) => .say (.ok (.value G)) (.stop (.ok ()))

/-- a program with one call, after the first look at the result file -/
noncomputable def afterLook (v : Option ℂ) (r : String) (p : Point ℝ) : Option (File (Option ℂ)) → Act ℝ ℂ Unit
  | none =>
    .write (fun st => { st with results := fun q => if q = r then (st.results r).set (cacheKey p) .torn else st.results q })
      (.write (fun st => { st with results := fun q => if q = r then (st.results r).set (cacheKey p) (.full v) else st.results q })
        (.say (.ok (.value v)) (.stop (.ok ()))))
  | some _ => .read (fun st => (st.results r).get? (cacheKey p)) (fun x => afterRead x)

theorem calls_one {raw : Point ℝ → Py (Option ℂ)} {p : Point ℝ} {v : Option ℂ} (h : raw p = .ok v) (r : String) :
    Act.calls raw (some r) [.solve p] = .read (fun st => (st.results r).get? (cacheKey p)) (fun there =>
      afterLook v r p there) := by
  simp only [Act.calls, Act.call, Act.solve, h]
  refine congrArg (Todo.read _) (funext fun there => ?_)
  cases there with
  | none => rfl
  | some f =>
    refine congrArg (Todo.read _) (funext fun x => ?_)
    rcases x with _ | _ | _ <;> rfl

/-- **C109** fails for programs with common result files: two copies of a program, each of which runs to its end if it is
alone, are started, and one of them raises because it finds a result file that the other has just opened. -/
theorem C109_result_race_fails (m : Model ℝ) (ae : Int) (hm : WellFormed m ae) (hp : Physical m) (σ : SetOrder) (p : Point ℝ)
    (hq : 4 / 10 ^ 10 ≤ p.eta) : ∃ s : Script ℝ ℂ, Steady s ∧ ∃ st rest rest', Reach m (KindRelative 0) st
      [⟨s, [], rest⟩, ⟨s, [.error .eofError], rest'⟩] := by
  let s : Script ℝ ℂ := ⟨σ, .dense, .fresh none 0 (some "b"), [.solve p]⟩
  have hs : Steady s := ⟨⟨none, 0, some "b", rfl⟩, trivial, fun c hc => by rw [List.mem_singleton.1 hc]; exact hq⟩
  have quiet : ∀ J, Quiet (Act.FineAll m J) (fun _ => False) (GoodObj m s.kind) (Act.construct m s) := fun J =>
    Act.construct_quiet (builds hm) s (Or.inr hs.source)
  refine ⟨s, hs, ?_⟩
  have h0 : Reach m (KindRelative 0) ⟨fun _ => none, fun _ => []⟩ [⟨s, [], Act.program realPhys m s⟩,
      ⟨s, [], Act.program realPhys m s⟩] :=
    Reach.start s (Reach.start s (Reach.empty ⟨fun _ => rfl, fun _ => rfl⟩) trivial) trivial
  obtain ⟨st1, r, h1, i1, n1, -, q1⟩ := drive h0 (i := 0) rfl (I := Act.FineAll m (fun res => res "b" = []))
    ⟨fun q => FineDir.empty m, rfl⟩ ((quiet _).attempt 0)
  cases r with
  | error e => exact q1.elim
  | ok o =>
    obtain ⟨G, hG⟩ := good_answers hm hp _ hs.kind o q1 p (lt_of_lt_of_le (by positivity) hq)
    have h1' : Reach m (KindRelative 0) st1 [⟨s, [], .read (fun st => (st.results "b").get? (cacheKey p)) (fun there =>
        afterLook (some G) "b" p there)⟩, ⟨s, [], Act.program realPhys m s⟩] := by
      rw [← calls_one hG]
      exact h1
    have h2 := Reach.step 0 _ h1' rfl
    have h3 : Reach m (KindRelative 0) st1 [⟨s, [], afterLook (some G) "b" p none⟩, ⟨s, [], Act.program realPhys m s⟩] := by
      have e : (st1.results "b").get? (cacheKey p) = none := by rw [i1.2]; rfl
      rw [← e]
      exact h2
    have h4 := Reach.step 0 _ h3 rfl
    obtain ⟨st2, r, h5, i2, n2, -, q2⟩ := drive h4 (i := 1) rfl
      (I := Act.FineAll m (fun res => (res "b").get? (cacheKey p) = some .torn))
      ⟨i1.1, by simp [afterLook, Running.move, Dict.get?_set]⟩ ((quiet _).attempt 0)
    cases r with
    | error e => exact q2.elim
    | ok o' =>
      obtain ⟨G', hG'⟩ := good_answers hm hp _ hs.kind o' q2 p (lt_of_lt_of_le (by positivity) hq)
      let r0 : Act ℝ ℂ Unit := (Running.move (⟨s, [], afterLook (some G) "b" p none⟩ : Running ℝ ℂ) st1).2.rest
      have h6 : Reach m (KindRelative 0) st2 [⟨s, [], r0⟩, ⟨s, [], .read (fun st => (st.results "b").get? (cacheKey p))
          (fun there => afterLook (some G') "b" p there)⟩] := by
        rw [← calls_one hG']
        exact h5
      have h7 := Reach.step 1 _ h6 rfl
      have h8 : Reach m (KindRelative 0) st2 [⟨s, [], r0⟩, ⟨s, [], afterLook (some G') "b" p (some .torn)⟩] := by
        rw [← i2.2]
        exact h7
      have h9 := Reach.step 1 _ h8 rfl
      have h10 : Reach m (KindRelative 0) st2 [⟨s, [], r0⟩, ⟨s, [], .say (.error .eofError) (.stop (.error .eofError))⟩] := by
        have e : Todo.say (.error .eofError) (.stop (.error .eofError)) = afterRead ((st2.results "b").get? (cacheKey p)) := by
          rw [i2.2]; rfl
        rw [e]
        exact h9
      exact ⟨st2, r0, _, Reach.step 1 _ h10 rfl⟩

/-- **C109** fails for programs that reload a checkpoint: a program has constructed a system in a directory and has come to
its end, so the checkpoint is complete. The same program is started again, and at the same time one that reloads the
checkpoint. The second raises `JSONDecodeError` (a `ValueError`), because the first writes `model.json` anew. -/
theorem C109_resume_race_fails (m : Model ℝ) (ae : Int) (hm : WellFormed m ae) (σ : SetOrder) (cs : List (Call ℝ)) :
    ∃ s : Script ℝ ℂ, s = ⟨σ, .dense, .fresh (some "a") 1000000 none, []⟩ ∧ Steady s ∧
      (∃ st, Reach m (KindRelative 0) st [⟨s, [], .stop (.ok ())⟩]) ∧
      ∃ st rest rest', Reach m (KindRelative 0) st [⟨s, [], .stop (.ok ())⟩, ⟨s, [], rest⟩,
        ⟨⟨σ, .dense, .resume "a", cs⟩, [.error .valueError], rest'⟩] := by
  let s : Script ℝ ℂ := ⟨σ, .dense, .fresh (some "a") 1000000 none, []⟩
  let s' : Script ℝ ℂ := ⟨σ, .dense, .resume "a", cs⟩
  have hs : Steady s := ⟨⟨some "a", 1000000, none, rfl⟩, trivial, fun c hc => by cases hc⟩
  have h0 : Reach m (KindRelative 0) ⟨fun _ => none, fun _ => []⟩ [⟨s, [], Act.program realPhys m s⟩] :=
    Reach.start s (Reach.empty ⟨fun _ => rfl, fun _ => rfl⟩) trivial
  obtain ⟨st1, r, h1, i1, n1, -, q1⟩ := drive h0 (i := 0) rfl (I := Act.FineAll m (fun _ => True))
    ⟨fun q => FineDir.empty m, trivial⟩ ((Act.construct_quiet (E := fun _ => False) (builds hm) s (Or.inr hs.source)).attempt 0)
  cases r with
  | error e => exact q1.elim
  | ok o =>
    have h1' : Reach m (KindRelative 0) st1 [⟨s, [], .stop (.ok ())⟩] := h1
    refine ⟨s, rfl, hs, ⟨st1, h1'⟩, ?_⟩
    have h2 : Reach m (KindRelative 0) st1 [⟨s, [], .stop (.ok ())⟩, ⟨s, [], Act.program realPhys m s⟩,
        ⟨s', [], Act.program realPhys m s'⟩] := Reach.start s' (Reach.start s h1' trivial) trivial
    let mk : Store ℝ ℂ → Store ℝ ℂ := fun st => { st with fs := st.fs.put "a" (st.fs.at "a") }
    let torn : Store ℝ ℂ → Store ℝ ℂ := fun st =>
      { st with fs := st.fs.put "a" ({ st.fs.at "a" with model := some .torn } : Dir ℝ) }
    obtain ⟨k1, e1⟩ : ∃ k, Act.program realPhys m s = .write mk (.write torn k) := ⟨_, rfl⟩
    obtain ⟨k2, k3, e2, e3, e4⟩ : ∃ k k', Act.program realPhys m s' = .write mk (.read (fun st => (st.fs.at "a").model) k) ∧
        k (some .torn) = .read (fun st => (st.fs.at "a").model) k' ∧
        k' (some .torn) = .say (.error .valueError) (.stop (.error .valueError)) := ⟨_, _, rfl, rfl, rfl⟩
    rw [e1, e2] at h2
    obtain ⟨st4, hst4⟩ : ∃ st4, mk (torn (mk st1)) = st4 := ⟨_, rfl⟩
    have ht : (st4.fs.at "a").model = some .torn := by
      rw [← hst4]
      simp [mk, torn, FS.at, FS.put]
    have h5 : Reach m (KindRelative 0) st4 [⟨s, [], .stop (.ok ())⟩, ⟨s, [], k1⟩,
        ⟨s', [], .read (fun st => (st.fs.at "a").model) k2⟩] := by
      rw [← hst4]
      exact Reach.step 2 _ (Reach.step 1 _ (Reach.step 1 _ h2 rfl) rfl) rfl
    have h6 : Reach m (KindRelative 0) st4 [⟨s, [], .stop (.ok ())⟩, ⟨s, [], k1⟩, ⟨s', [], k2 (some .torn)⟩] := by
      rw [← ht]
      exact Reach.step 2 _ h5 rfl
    rw [e3] at h6
    have h7 : Reach m (KindRelative 0) st4 [⟨s, [], .stop (.ok ())⟩, ⟨s, [], k1⟩, ⟨s', [], k3 (some .torn)⟩] := by
      rw [← ht]
      exact Reach.step 2 _ h6 rfl
    rw [e4] at h7
    exact ⟨st4, k1, _, Reach.step 2 _ h7 rfl⟩

/-- a process may go on alone to its end -/
theorem finish {m : Model ℝ} {solvers : SolverKind ℂ → Prop} {st : Store ℝ ℂ} {ps : List (Running ℝ ℂ)}
    (h : Reach m solvers st ps) {i : ℕ} {s : Script ℝ ℂ} {said : List (Py (Answer ℂ))} {x : Act ℝ ℂ Unit}
    (hi : ps[i]? = some ⟨s, said, x⟩) : ∃ st' said' r, Reach m solvers st' (ps.set i ⟨s, said', .stop r⟩) := by
  induction x generalizing st ps said with
  | stop r => exact ⟨st, said, r, by rw [set_same hi]; exact h⟩
  | read f k ih =>
    obtain ⟨st', said', r, h1⟩ := ih (f st) (Reach.step i _ h hi)
      (by simp [(List.getElem?_eq_some_iff.1 hi).1, Running.move]; rfl)
    exact ⟨st', said', r, by simpa using h1⟩
  | write f k ih =>
    obtain ⟨st', said', r, h1⟩ := ih (Reach.step i _ h hi)
      (by simp [(List.getElem?_eq_some_iff.1 hi).1, Running.move]; rfl)
    exact ⟨st', said', r, by simpa using h1⟩
  | say a k ih =>
    obtain ⟨st', said', r, h1⟩ := ih (Reach.step i _ h hi)
      (by simp [(List.getElem?_eq_some_iff.1 hi).1, Running.move]; rfl)
    exact ⟨st', said', r, by simpa using h1⟩

/-- the hypotheses are met, as with two MPI ranks: two programs construct the same system in one directory and put their
results in one directory, each for its own frequency; both print their number -/
example (m : Model ℝ) (ae : Int) (hm : WellFormed m ae) (hp : Physical m) (σ σ' : SetOrder) :
    ∃ st p p' G G', Reach m (KindRelative 0) st [p, p'] ∧ p.script = ⟨σ, .dense, .fresh (some "a") 1000000 (some "a"), [.solve ⟨0, 0, 1⟩]⟩ ∧
      p'.script = ⟨σ', .dense, .fresh (some "a") 1000000 (some "a"), [.solve ⟨0, 1, 1⟩]⟩ ∧
      p.said = [.ok (.value (some G))] ∧ p'.said = [.ok (.value (some G'))] := by
  let s : Script ℝ ℂ := ⟨σ, .dense, .fresh (some "a") 1000000 (some "a"), [.solve ⟨0, 0, 1⟩]⟩
  let s' : Script ℝ ℂ := ⟨σ', .dense, .fresh (some "a") 1000000 (some "a"), [.solve ⟨0, 1, 1⟩]⟩
  have hs : Steady s := ⟨⟨_, _, _, rfl⟩, trivial, fun c hc => by
    rw [List.mem_singleton.1 hc]; change (4 : ℝ) / 10 ^ 10 ≤ 1; norm_num⟩
  have hs' : Steady s' := ⟨⟨_, _, _, rfl⟩, trivial, fun c hc => by
    rw [List.mem_singleton.1 hc]; change (4 : ℝ) / 10 ^ 10 ≤ 1; norm_num⟩
  have key : cacheKey (⟨0, 0, 1⟩ : Point ℝ) ≠ cacheKey (⟨0, 1, 1⟩ : Point ℝ) := by
    intro h
    have := (C31_key_near _ _ h).2.1
    norm_num at this
  have hd : Disjoint s s' := by
    rintro r c ⟨-, c1, h1, p1, h2, rfl⟩ ⟨-, c2, h3, p2, h4, h5⟩
    rw [List.mem_singleton.1 h1] at h2
    rw [List.mem_singleton.1 h3] at h4
    rw [List.mem_singleton.1 h2, List.mem_singleton.1 h4] at h5
    exact key h5.symm
  have h0 : Reach m (KindRelative 0) ⟨fun _ => none, fun _ => []⟩ [⟨s, [], Act.program realPhys m s⟩,
      ⟨s', [], Act.program realPhys m s'⟩] :=
    Reach.start s' (Reach.start s (Reach.empty ⟨fun _ => rfl, fun _ => rfl⟩) trivial) trivial
  obtain ⟨st1, out, r, h1⟩ := finish h0 (i := 0) rfl
  obtain ⟨st2, out', r', h2⟩ := finish h1 (i := 1) rfl
  have h3 : Reach m (KindRelative 0) st2 [⟨s, out, .stop r⟩, ⟨s', out', .stop r'⟩] := h2
  obtain ⟨-, e1⟩ := C109_undisturbed_partial m ae hm hp 0 le_rfl st2 _ h3 0 _ rfl hs (by
    intro j q hj hq
    match j, hq with
    | 1, hq => cases hq; exact fun r c h h' => hd r c h' h
    | 0, _ => exact absurd rfl hj)
  obtain ⟨-, e2⟩ := C109_undisturbed_partial m ae hm hp 0 le_rfl st2 _ h3 1 _ rfl hs' (by
    intro j q hj hq
    match j, hq with
    | 0, hq => cases hq; exact fun r c h h' => hd r c h h'
    | 1, _ => exact absurd rfl hj)
  have val : ∀ {p : Point ℝ} {out : List (Py (Answer ℂ))} {tol : ℝ → ℝ}, List.Forall₂ (fun c x => ∃ a, x = .ok a ∧
      ExpectedTo m ae tol c a) [.solve p] out → ∃ G, out = [.ok (.value (some G))] := by
    intro p out tol h
    simp only [List.forall₂_cons_left_iff, List.forall₂_nil_left_iff] at h
    obtain ⟨_, _, ⟨a, rfl, ha⟩, rfl, rfl⟩ := h
    cases a with
    | matrix M => exact ha.elim
    | value v =>
      obtain ⟨G, -, rfl, -⟩ := ha
      exact ⟨G, rfl⟩
  obtain ⟨G, rfl⟩ := val (e1 r rfl).2
  obtain ⟨G', rfl⟩ := val (e2 r' rfl).2
  exact ⟨st2, _, _, G, G', h3, rfl, rfl, rfl, rfl⟩

end GGCE.Props
