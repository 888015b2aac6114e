import Verif.Props.CacheAccuracy
import Verif.Props.Disk
import Verif.Proofs.Script
import Verif.Spec.Script

/-!
Property C105: whole programs, one after the other on one disk, print the exact Green's function.
-/

set_option linter.unusedSectionVars false

namespace GGCE.Props
open Spec Arr
open scoped InnerProductSpace

theorem sparseSolve_jsonRT {R K : Type} [Field R] [LinearOrder R] [Field K] (F : Phys R K) (m : Model R) (p : Point R)
    (basis : Dict PyStr Nat) (eqs : Dict Nat (List (Equation R))) (sp : LinSys K → Py (Nat → K)) :
    sparseSolve F m.jsonRT p basis eqs sp = sparseSolve F m p basis eqs sp := rfl

/-! ### the exact number -/

theorem exact_returned {σ : SetOrder} {m : Model ℝ} {ae : Int} (hm : WellFormed m ae) {b : Built ℝ}
    (hb : buildSystem σ m = .ok b) (hp : Physical m) {p : Point ℝ} (h0 : 0 < p.eta) {G : ℂ} (h : ExactAt m ae p G) :
    Returned m b p G := by
  obtain ⟨H, -, h2, rfl⟩ := h
  obtain ⟨H', -, k2, k3⟩ := C56_operator σ m ae hm b hb hp p.k
  have : H = H' := by
    ext f n
    rw [h2, k2]
  subst this
  exact Or.inr (k3 p.w p.eta h0).2.2

theorem raw_exact {m : Model ℝ} {ae : Int} (hm : WellFormed m ae) (hp : Physical m) {kind : SolverKind ℂ}
    (hk : KindExact kind) {o : SolverObj ℝ ℂ} (ho : GoodObj m kind o) (p : Point ℝ) (h0 : 0 < p.eta) :
    ∃ G, o.raw realPhys p = .ok (some G) ∧ ExactAt m ae p G := by
  obtain ⟨k, w, eta⟩ := p
  cases o with
  | sparse s basis sp =>
    obtain ⟨rfl, hs, hbs⟩ := ho
    obtain ⟨σ, b, hb, he⟩ := hs.eqs
    obtain ⟨H, h1, h2, h3⟩ := C56_operator σ m ae hm b hb hp k
    refine ⟨_, ?_, H, h1, h2, rfl⟩
    have h4 := (h3 w eta h0).2.1 sp hk
    have h5 : sparseSolve realPhys s.model ⟨k, w, eta⟩ (fullBasis b.eqs) b.eqs sp =
        sparseSolve realPhys m ⟨k, w, eta⟩ (fullBasis b.eqs) b.eqs sp := by
      rcases hs.model with e | e
      · rw [e]
      · rw [e, sparseSolve_jsonRT]
    simp only [SolverObj.raw, he, hbs _ he, h5, h4]
    rfl
  | dense s basis =>
    obtain ⟨rfl, hs, hbs⟩ := ho
    obtain ⟨σ, b, hb, he⟩ := hs.eqs
    obtain ⟨H, h1, h2, h3⟩ := C56_operator σ m ae hm b hb hp k
    refine ⟨_, ?_, H, h1, h2, rfl⟩
    have h4 := (h3 w eta h0).2.2
    have h5 : denseSolve realPhys s.model ⟨k, w, eta⟩ (localBasis b.eqs) b.eqs =
        denseSolve realPhys m ⟨k, w, eta⟩ (localBasis b.eqs) b.eqs := by
      rcases hs.model with e | e
      · rw [e]
      · rw [e, denseSolve_jsonRT]
    simp only [SolverObj.raw, he, hbs _ he, h5, h4]

/-! ### the results directory -/

/-- every file holds the exact number of a point with that name -/
def SoundDir (m : Model ℝ) (ae : Int) (d : Dict PyStr (Option ℂ)) : Prop :=
  ∀ c v, d.get? c = some v → ∃ p : Point ℝ, ∃ G, cacheKey p = c ∧ 0 < p.eta ∧ v = some G ∧ ExactAt m ae p G

/-- no file is lost or changed -/
def Extends (d d' : Dict PyStr (Option ℂ)) : Prop := ∀ c v, d.get? c = some v → d'.get? c = some v

/-- what a call does to the directory -/
def Step (m : Model ℝ) (ae : Int) (s s' : CacheState ℝ (Option ℂ)) : Prop := match s.dir with
  | none => s'.dir = none
  | some d => ∃ d', s'.dir = some d' ∧ SoundDir m ae d' ∧ Extends d d'

theorem Step.trans {m : Model ℝ} {ae : Int} {s s' s'' : CacheState ℝ (Option ℂ)} (h : Step m ae s s')
    (h' : Step m ae s' s'') : Step m ae s s'' := by
  unfold Step at *
  cases hd : s.dir with
  | none =>
    rw [hd] at h
    simp only at h
    rw [h] at h'
    exact h'
  | some d =>
    rw [hd] at h
    obtain ⟨d', e1, -, e3⟩ := h
    rw [e1] at h'
    obtain ⟨d'', f1, f2, f3⟩ := h'
    exact ⟨d'', f1, f2, fun c v hv => f3 c v (e3 c v hv)⟩

/-- the directory is sound, if there is one -/
def SoundState (m : Model ℝ) (ae : Int) (s : CacheState ℝ (Option ℂ)) : Prop := ∀ d, s.dir = some d → SoundDir m ae d

theorem Step.refl {m : Model ℝ} {ae : Int} {s : CacheState ℝ (Option ℂ)} (h : SoundState m ae s) : Step m ae s s := by
  unfold Step
  cases hd : s.dir with
  | none => rfl
  | some d => exact ⟨d, rfl, h d hd, fun _ _ hv => hv⟩

theorem Step.sound {m : Model ℝ} {ae : Int} {s s' : CacheState ℝ (Option ℂ)} (h : Step m ae s s') :
    SoundState m ae s' := by
  intro d hd
  unfold Step at h
  split at h
  · rw [h] at hd; cases hd
  · obtain ⟨d', e1, e2, -⟩ := h
    rw [e1] at hd; cases hd; exact e2

theorem Step.isSome {m : Model ℝ} {ae : Int} {s s' : CacheState ℝ (Option ℂ)} (h : Step m ae s s') :
    s'.dir.isSome = s.dir.isSome := by
  unfold Step at h
  split at h
  · rename_i e; rw [h, e]
  · rename_i e; obtain ⟨d', e1, -⟩ := h; rw [e1, e]; rfl

theorem Step.ext {m : Model ℝ} {ae : Int} {s s' : CacheState ℝ (Option ℂ)} (h : Step m ae s s') {d d'}
    (h1 : s.dir = some d) (h2 : s'.dir = some d') : Extends d d' := by
  unfold Step at h
  rw [h1] at h
  obtain ⟨d'', e1, -, e3⟩ := h
  rw [e1] at h2; cases h2; exact e3

/-- the accuracy of a call -/
noncomputable def tol (m : Model ℝ) (cached : Bool) (eta : ℝ) : ℝ := if cached then decimals m eta else 0

/-- accurate, and on disk if there is a directory -/
def Entry (m : Model ℝ) (ae : Int) (cached : Bool) (s : CacheState ℝ (Option ℂ)) (p : Point ℝ) (v : Option ℂ) : Prop :=
  AccurateTo m ae (tol m cached p.eta) p v ∧ ∀ d, s.dir = some d → d.get? (cacheKey p) = some v

theorem Entry.mono {m : Model ℝ} {ae : Int} {c : Bool} {s s' : CacheState ℝ (Option ℂ)} (h : Step m ae s s') {p v}
    (he : Entry m ae c s p v) : Entry m ae c s' p v := by
  refine ⟨he.1, fun d hd => ?_⟩
  have hi := h.isSome
  rw [hd] at hi
  obtain ⟨d0, h0⟩ := Option.isSome_iff_exists.1 hi.symm
  exact h.ext h0 hd _ _ (he.2 d0 h0)

section
variable {m : Model ℝ} {ae : Int} (hm : WellFormed m ae) (hbs : ∀ σ, ∃ b, buildSystem σ m = .ok b) (hp : Physical m)
  {raw : Point ℝ → Py (Option ℂ)} (hraw : ∀ p, 0 < p.eta → ∃ G, raw p = .ok (some G) ∧ ExactAt m ae p G)
  (negative : Option ℂ → Bool) (σ0 : SetOrder)
include hm hbs hp hraw σ0

theorem cachedSolve_entry {s : CacheState ℝ (Option ℂ)} (hs : SoundState m ae s) (p : Point ℝ)
    (h4 : 4 / 10 ^ 10 ≤ p.eta) : ∃ v s', cachedSolve raw negative s p = (.ok v, s') ∧ Step m ae s s' ∧
      Entry m ae s.dir.isSome s' p v := by
  have h0 : 0 < p.eta := lt_of_lt_of_le (by positivity) h4
  obtain ⟨G', e1, e2⟩ := hraw p h0
  obtain ⟨b, hb⟩ := hbs σ0
  unfold cachedSolve preSolve
  cases hd : s.dir with
  | none =>
    simp only [e1]
    refine ⟨some G', _, rfl, ?_, ⟨G', G', rfl, e2, by simp [tol]⟩, ?_⟩
    · unfold Step; rw [hd]; simp [postSolve, hd]
    · intro d hd'; simp [postSolve, hd] at hd'
  | some d =>
    simp only
    cases hg : d.get? (cacheKey p) with
    | some v =>
      simp only
      obtain ⟨q, G, k1, k2, rfl, k4⟩ := hs d hd _ _ hg
      refine ⟨some G, s, rfl, Step.refl hs, ⟨G, G', rfl, e2, ?_⟩, ?_⟩
      · simp only [tol, Option.isSome_some, if_true]
        exact same_key_near σ0 m ae hm b hb hp k1 h4 (exact_returned hm hb hp k2 k4) (exact_returned hm hb hp h0 e2)
      · intro d' hd'; rw [hd] at hd'; cases hd'; exact hg
    | none =>
      simp only [e1]
      refine ⟨some G', _, rfl, ?_, ⟨G', G', rfl, e2, ?_⟩, ?_⟩
      · unfold Step
        rw [hd]
        refine ⟨d.set (cacheKey p) (some G'), by simp [postSolve, hd], ?_, ?_⟩
        · intro c v hv
          rw [Dict.get?_set] at hv
          split at hv
          · rename_i hc
            cases hv
            exact ⟨p, G', hc, h0, rfl, e2⟩
          · exact hs d hd c v hv
        · intro c v hv
          rw [Dict.get?_set]
          split
          · rename_i hc
            rw [← hc, hg] at hv
            cases hv
          · exact hv
      · simp only [tol, Option.isSome_some, if_true, sub_self, norm_zero]
        exact decimals_nonneg m p.eta
      · intro d' hd'
        simp only [postSolve, hd, Option.map_some, Option.some.injEq] at hd'
        rw [← hd', Dict.get?_set, if_pos rfl]

theorem solveAll_entry (ps : List (Point ℝ)) (h4 : ∀ p ∈ ps, 4 / 10 ^ 10 ≤ p.eta) {s : CacheState ℝ (Option ℂ)}
    (hs : SoundState m ae s) : ∃ vs s', solveAll raw negative ps s = (.ok vs, s') ∧ Step m ae s s' ∧
      List.Forall₂ (Entry m ae s.dir.isSome s') ps vs := by
  induction ps generalizing s with
  | nil => exact ⟨[], s, rfl, Step.refl hs, .nil⟩
  | cons p ps ih =>
    obtain ⟨v, s1, e1, e2, e3⟩ := cachedSolve_entry hm hbs hp hraw negative σ0 hs p (h4 p (by simp))
    obtain ⟨vs, s2, f1, f2, f3⟩ := ih (fun q hq => h4 q (by simp [hq])) e2.sound
    rw [e2.isSome] at f3
    exact ⟨v :: vs, s2, by simp only [solveAll, e1, f1], e2.trans f2, .cons (e3.mono f2) f3⟩

end

/-- blocks of a list -/
theorem forall₂_blocks {α β γ δ : Type} {P : γ → δ → Prop} (f : α → β → γ) (ws : List β) :
    ∀ (ks : List α) (vs : List δ), List.Forall₂ P (ks.flatMap (fun x => ws.map (f x))) vs →
      List.Forall₂ (fun x row => List.Forall₂ (fun y v => P (f x y) v) ws row) ks
        ((List.range ks.length).map (fun i => (vs.drop (i * ws.length)).take ws.length))
  | [], _, _ => .nil
  | x :: ks, vs, h => by
    rw [List.flatMap_cons] at h
    rw [List.length_cons, List.range_succ_eq_map, List.map_cons, List.map_map]
    refine .cons ?_ ?_
    · have h1 := List.forall₂_take_append vs _ _ h.flip
      rw [List.length_map] at h1
      rw [Nat.zero_mul, List.drop_zero]
      have := h1.flip
      rwa [List.forall₂_map_left_iff] at this
    · have h1 := (List.forall₂_drop_append vs _ _ h.flip).flip
      rw [List.length_map] at h1
      have := forall₂_blocks f ws ks _ h1
      have e : (fun i => (vs.drop (i * ws.length)).take ws.length) ∘ Nat.succ =
          fun i => ((vs.drop ws.length).drop (i * ws.length)).take ws.length := by
        funext i
        simp only [Function.comp, List.drop_drop, Nat.succ_mul]
        rw [Nat.add_comm]
      rw [e]
      exact this

/-- the answer is as found on disk -/
def Recorded (d : Dict PyStr (Option ℂ)) : Call ℝ → Answer ℂ → Prop
  | .solve p, .value v => d.get? (cacheKey p) = some v
  | .grid k w eta, .matrix M => ∃ ks ws, gridPoints k = some ks ∧ gridPoints w = some ws ∧
      List.Forall₂ (fun x row => List.Forall₂ (fun y v => d.get? (cacheKey (⟨x, y, eta⟩ : Point ℝ)) = some v) ws row) ks M
  | _, _ => False

theorem Recorded.mono {d d' : Dict PyStr (Option ℂ)} (h : Extends d d') {c : Call ℝ} {a : Answer ℂ}
    (hr : Recorded d c a) : Recorded d' c a := by
  cases c <;> cases a <;> simp only [Recorded] at hr ⊢
  · exact h _ _ hr
  · obtain ⟨ks, ws, h1, h2, h3⟩ := hr
    exact ⟨ks, ws, h1, h2, h3.imp (fun _ _ h4 => h4.imp (fun _ _ h5 => h _ _ h5))⟩

theorem forall₂_unique {α β : Type} {P : α → β → Prop} (h : ∀ a b c, P a b → P a c → b = c) :
    ∀ (l : List α) (l1 l2 : List β), List.Forall₂ P l l1 → List.Forall₂ P l l2 → l1 = l2
  | [], _, _, .nil, .nil => rfl
  | _ :: l, _, _, .cons a1 a2, .cons b1 b2 => by rw [h _ _ _ a1 b1, forall₂_unique h l _ _ a2 b2]

theorem Recorded.unique {d : Dict PyStr (Option ℂ)} {c : Call ℝ} {a a' : Answer ℂ} (h : Recorded d c a)
    (h' : Recorded d c a') : a = a' := by
  cases c <;> cases a <;> cases a' <;> simp only [Recorded] at h h'
  · rw [h] at h'; cases h'; rfl
  · obtain ⟨ks, ws, h1, h2, h3⟩ := h
    obtain ⟨ks', ws', k1, k2, k3⟩ := h'
    rw [h1] at k1; cases k1
    rw [h2] at k2; cases k2
    congr 1
    exact forall₂_unique (P := fun x row => List.Forall₂ (fun y v => d.get? (cacheKey (⟨x, y, _⟩ : Point ℝ)) = some v) ws
      row) (fun x r r' hr hr' => forall₂_unique (fun y v v' e e' => by rw [e] at e'; cases e'; rfl) _ _ _ hr hr')
      _ _ _ h3 k3

/-- a good answer -/
def GoodAnswer (m : Model ℝ) (ae : Int) (root : Option String) (s : CacheState ℝ (Option ℂ)) (c : Call ℝ)
    (a : Answer ℂ) : Prop := Expected m ae root c a ∧ ∀ d, s.dir = some d → Recorded d c a

theorem GoodAnswer.mono {m : Model ℝ} {ae : Int} {root : Option String} {s s' : CacheState ℝ (Option ℂ)}
    (h : Step m ae s s') {c a} (hg : GoodAnswer m ae root s c a) : GoodAnswer m ae root s' c a := by
  refine ⟨hg.1, fun d hd => ?_⟩
  have hi := h.isSome
  rw [hd] at hi
  obtain ⟨d0, h0⟩ := Option.isSome_iff_exists.1 hi.symm
  exact (hg.2 d0 h0).mono (h.ext h0 hd)

theorem tol_eq (m : Model ℝ) (root : Option String) (eta : ℝ) : tol m root.isSome eta = tolerance m root eta := by
  cases root <;> simp [tol, tolerance]

theorem floatToList_points {k : GridArg ℝ} (h : gridPoints k ≠ none) :
    ∃ ks, gridPoints k = some ks ∧ floatToList k = .ok ks := by
  cases k with
  | float x => exact ⟨_, rfl, rfl⟩
  | int n => exact absurd rfl h
  | seq xs => exact ⟨_, rfl, rfl⟩

section
variable {m : Model ℝ} {ae : Int} (hm : WellFormed m ae) (hbs : ∀ σ, ∃ b, buildSystem σ m = .ok b) (hp : Physical m)
  {raw : Point ℝ → Py (Option ℂ)} (hraw : ∀ p, 0 < p.eta → ∃ G, raw p = .ok (some G) ∧ ExactAt m ae p G)
  (negative : Option ℂ → Bool) (σ0 : SetOrder)
include hm hbs hp hraw σ0

theorem runCall_good (c : Call ℝ) (hc : Call.Ok c) {s : CacheState ℝ (Option ℂ)} (hs : SoundState m ae s)
    (root : Option String) (hr : root.isSome = s.dir.isSome) : ∃ a s', runCall raw negative c s = (.ok a, s') ∧
      Step m ae s s' ∧ GoodAnswer m ae root s' c a := by
  cases c with
  | solve p =>
    obtain ⟨v, s', e1, e2, e3⟩ := cachedSolve_entry hm hbs hp hraw negative σ0 hs p hc
    refine ⟨.value v, s', by simp [runCall, e1, Except.map], e2, ?_, e3.2⟩
    have := e3.1
    rw [← hr, tol_eq] at this
    exact this
  | grid k w eta =>
    obtain ⟨h1, h2, h3⟩ := hc
    obtain ⟨ks, k1, k2⟩ := floatToList_points h2
    obtain ⟨ws, w1, w2⟩ := floatToList_points h3
    obtain ⟨vs, s', e1, e2, e3⟩ := solveAll_entry hm hbs hp hraw negative σ0
      ((jobList ks ws).map (fun j => (⟨j.1, j.2, eta⟩ : Point ℝ))) (by
        intro p hp
        obtain ⟨j, -, rfl⟩ := List.mem_map.1 hp
        exact h1) hs
    have hl : vs.length = ks.length * ws.length := by
      rw [← e3.length_eq, List.length_map, jobList_length]
    have hj : (jobList ks ws).map (fun j => (⟨j.1, j.2, eta⟩ : Point ℝ)) =
        ks.flatMap (fun x => ws.map (fun y => (⟨x, y, eta⟩ : Point ℝ))) := by
      simp [jobList, List.map_flatMap, Function.comp_def]
    have e4 := e3
    rw [hj] at e4
    have e5 := forall₂_blocks (fun x y => (⟨x, y, eta⟩ : Point ℝ)) ws ks vs e4
    refine ⟨.matrix ((List.range ks.length).map (fun i => (vs.drop (i * ws.length)).take ws.length)), s', ?_, e2,
      ⟨ks, ws, k1, w1, ?_⟩, fun d hd => ⟨ks, ws, k1, w1, ?_⟩⟩
    · simp only [runCall, k2, w2, e1, Except.bind, reshapeGrid, if_pos hl, Except.map]
    · refine e5.imp (fun x row h => h.imp (fun y v h => ?_))
      have := h.1
      rw [← hr, tol_eq] at this
      exact this
    · exact e5.imp (fun x row h => h.imp (fun y v h => h.2 d hd))

theorem runCalls_good (cs : List (Call ℝ)) (hc : ∀ c ∈ cs, Call.Ok c) {s : CacheState ℝ (Option ℂ)}
    (hs : SoundState m ae s) (root : Option String) (hr : root.isSome = s.dir.isSome) :
    Step m ae s (runCalls raw negative cs s).2 ∧
      List.Forall₂ (fun c r => ∃ a, r = .ok a ∧ GoodAnswer m ae root (runCalls raw negative cs s).2 c a) cs
        (runCalls raw negative cs s).1 := by
  induction cs generalizing s with
  | nil => exact ⟨Step.refl hs, .nil⟩
  | cons c cs ih =>
    obtain ⟨a, s', e1, e2, e3⟩ := runCall_good hm hbs hp hraw negative σ0 c (hc c (by simp)) hs root hr
    obtain ⟨f1, f2⟩ := ih (fun c' h => hc c' (by simp [h])) e2.sound (by rw [hr, e2.isSome])
    simp only [runCalls, e1]
    exact ⟨e2.trans f1, .cons ⟨a, rfl, e3.mono f1⟩ f2⟩

end

/-! ### programs -/

theorem goodFS_weaken {own : String → Model ℝ} {P Q : String → Prop} (h : ∀ q, Q q → P q) {fs : FS ℝ}
    (hf : GoodFS own P fs) : GoodFS own Q fs := ⟨hf.1, fun q hq => hf.2 q (h q hq)⟩

theorem builds {m : Model ℝ} {ae : Int} (hm : WellFormed m ae) (σ : SetOrder) : ∃ b, buildSystem σ m = .ok b := by
  obtain ⟨b, -, h, -⟩ := buildSystem_ok σ hm
  exact ⟨b, h⟩

theorem uses_solverRoot {s : Source} {q : String} (h : s.solverRoot = some q) : s.uses q := by
  cases s with
  | fresh r lim r' => exact Or.inr h
  | resume r => exact Option.some.inj h

/-- One program, if every root belongs to a model `own` with absolute extent `ext`. -/
theorem run_good {own : String → Model ℝ} {ext : String → Int} {m : Model ℝ} {ae : Int} (hm : WellFormed m ae)
    (hp : Physical m) (negative : Option ℂ → Bool) (s : Script ℝ ℂ) (hk : KindExact s.kind)
    (hc : ∀ c ∈ s.calls, Call.Ok c) (known : List String) (hl : ∀ r, s.source = .resume r → r ∈ known)
    (ho : ∀ r, s.source.uses r → own r = m ∧ ext r = ae)
    (mach : Machine ℝ ℂ) (hfs : GoodFS own (· ∈ known) mach.fs) (hres : ∀ q, SoundDir (own q) (ext q) (mach.results q)) :
    GoodFS own (· ∈ systemRoot s.source ++ known) (s.run realPhys negative m mach).2.fs ∧
      (∀ q, SoundDir (own q) (ext q) ((s.run realPhys negative m mach).2.results q)) ∧
      (∀ q, Extends (mach.results q) ((s.run realPhys negative m mach).2.results q)) ∧
      List.Forall₂ (fun c r => ∃ a, r = .ok a ∧ Expected m ae s.source.solverRoot c a ∧
        ∀ q, s.source.solverRoot = some q → Recorded ((s.run realPhys negative m mach).2.results q) c a) s.calls
        (s.run realPhys negative m mach).1 := by
  obtain ⟨o, e1, e2, e3⟩ := construct_good (builds hm) s hl (fun r hr => (ho r hr).1) hfs
  have hs : SoundState m ae ⟨s.source.solverRoot.map mach.results, []⟩ := by
    intro d hd
    obtain ⟨r, hr, rfl⟩ := Option.map_eq_some_iff.1 hd
    obtain ⟨o1, o2⟩ := ho r (uses_solverRoot hr)
    have := hres r
    rwa [o1, o2] at this
  obtain ⟨f1, f2⟩ := runCalls_good hm (builds hm) hp (raw_exact hm hp hk e2) negative s.order s.calls hc hs
    s.source.solverRoot (by simp)
  have hfs' : GoodFS own (· ∈ systemRoot s.source ++ known) (s.construct m mach.fs).fs := by
    refine goodFS_weaken (fun q hq => ?_) e3
    rcases List.mem_append.1 hq with h | h
    · right
      unfold systemRoot at h
      split at h
      · rename_i r _ _ hsrc
        rw [hsrc]
        rw [List.mem_singleton.1 h]
        rfl
      · cases h
    · exact Or.inl h
  unfold Script.run
  simp only [e1]
  set rc := runCalls (o.raw realPhys) negative s.calls ⟨s.source.solverRoot.map mach.results, []⟩ with hrc
  cases hr : s.source.solverRoot with
  | none =>
    simp only
    rw [hr] at f2
    refine ⟨hfs', hres, fun q c v h => h, f2.imp (fun c r h => ?_)⟩
    obtain ⟨a, h1, h2⟩ := h
    exact ⟨a, h1, h2.1, fun q hq => by cases hq⟩
  | some root =>
    rw [hr] at f1 f2
    have hi := f1.isSome
    simp only [Option.map_some, Option.isSome_some] at hi
    obtain ⟨d, hd⟩ := Option.isSome_iff_exists.1 hi
    have hd1 := f1.sound d hd
    have hd2 := f1.ext (d := mach.results root) (by simp) hd
    rw [hd]
    simp only
    refine ⟨hfs', fun q => ?_, fun q => ?_, f2.imp (fun c r h => ?_)⟩
    · split
      · rename_i e
        obtain ⟨o1, o2⟩ := ho root (uses_solverRoot hr)
        rw [e, o1, o2]
        exact hd1
      · exact hres q
    · split
      · rename_i e; rw [e]; exact hd2
      · exact fun c v h => h
    · obtain ⟨a, h1, h2, h3⟩ := h
      refine ⟨a, h1, h2, fun q hq => ?_⟩
      cases hq
      rw [if_pos rfl]
      exact h3 d hd

/-- Programs for various models. -/
theorem runAll_good {own : String → Model ℝ} {ext : String → Int} (negative : Option ℂ → Bool)
    (ps : List (Model ℝ × Script ℝ ℂ)) (hps : AllProper (ps.map (·.2))) (aeOf : Model ℝ → Int)
    (hm : ∀ p ∈ ps, WellFormed p.1 (aeOf p.1) ∧ Physical p.1)
    (ho : ∀ p ∈ ps, ∀ r, p.2.source.uses r → own r = p.1 ∧ ext r = aeOf p.1) (known : List String)
    (hl : InOrder known (ps.map (·.2))) (mach : Machine ℝ ℂ) (hfs : GoodFS own (· ∈ known) mach.fs)
    (hres : ∀ q, SoundDir (own q) (ext q) (mach.results q)) :
    (∀ q, Extends (mach.results q) ((runAll realPhys negative ps mach).2.results q)) ∧
      List.Forall₂ (fun p out => List.Forall₂ (fun c r => ∃ a, r = .ok a ∧
        Expected p.1 (aeOf p.1) p.2.source.solverRoot c a ∧ ∀ q, p.2.source.solverRoot = some q →
          Recorded ((runAll realPhys negative ps mach).2.results q) c a) p.2.calls out) ps
        (runAll realPhys negative ps mach).1 := by
  induction ps generalizing known mach with
  | nil => exact ⟨fun q c v h => h, .nil⟩
  | cons p ps ih =>
    obtain ⟨m, s⟩ := p
    obtain ⟨h1, h2⟩ := hps s (by simp)
    obtain ⟨m1, m2⟩ := hm (m, s) (by simp)
    obtain ⟨k1, k2, k3, k4⟩ := run_good m1 m2 negative s h1 h2 known hl.1 (ho (m, s) (by simp)) mach hfs hres
    obtain ⟨i1, i2⟩ := ih (fun s' h => hps s' (by simp at h ⊢; exact Or.inr h)) (fun p hp => hm p (by simp [hp]))
      (fun p hp => ho p (by simp [hp])) _ hl.2 _ k1 k2
    simp only [runAll]
    refine ⟨fun q c v h => i1 q c v (k3 q c v h), .cons (k4.imp (fun c r h => ?_)) i2⟩
    obtain ⟨a, a1, a2, a3⟩ := h
    exact ⟨a, a1, a2, fun q hq => (a3 q hq).mono (i1 q)⟩

theorem runScripts_eq (negative : Option ℂ → Bool) (m : Model ℝ) (ss : List (Script ℝ ℂ)) (mach : Machine ℝ ℂ) :
    runScripts realPhys negative m ss mach = runAll realPhys negative (ss.map (fun s => (m, s))) mach := by
  induction ss generalizing mach with
  | nil => rfl
  | cons s ss ih => simp only [runScripts, List.map_cons, runAll, ih]

theorem empty_good {own : String → Model ℝ} {ext : String → Int} {mach : Machine ℝ ℂ} (h : Machine.Empty mach) :
    GoodFS own (· ∈ ([] : List String)) mach.fs ∧ ∀ q, SoundDir (own q) (ext q) (mach.results q) := by
  refine ⟨⟨fun q => by rw [h.1 q]; exact GoodDir.empty _, fun q hq => by cases hq⟩, fun q c v hv => ?_⟩
  rw [h.2 q] at hv
  cases hv

theorem runScripts_good {m : Model ℝ} {ae : Int} (hm : WellFormed m ae)
    (hp : Physical m) (negative : Option ℂ → Bool) (ss : List (Script ℝ ℂ)) (hss : AllProper ss)
    (hl : InOrder [] ss) (mach : Machine ℝ ℂ) (he : Machine.Empty mach) :
    List.Forall₂ (fun s out => List.Forall₂ (fun c r => ∃ a, r = .ok a ∧ Expected m ae s.source.solverRoot c a ∧
        ∀ q, s.source.solverRoot = some q → Recorded ((runScripts realPhys negative m ss mach).2.results q) c a)
          s.calls out) ss (runScripts realPhys negative m ss mach).1 := by
  obtain ⟨g1, g2⟩ := empty_good (own := fun _ => m) (ext := fun _ => ae) he
  have hmap : (ss.map (fun s => (m, s))).map (·.2) = ss := by simp [Function.comp_def]
  obtain ⟨-, h⟩ := runAll_good negative (ss.map (fun s => (m, s))) (by rw [hmap]; exact hss) (fun _ => ae)
    (by intro p hp'; obtain ⟨s, -, rfl⟩ := List.mem_map.1 hp'; exact ⟨hm, hp⟩)
    (by intro p hp'; obtain ⟨s, -, rfl⟩ := List.mem_map.1 hp'; exact fun r _ => ⟨rfl, rfl⟩) []
    (by rw [hmap]; exact hl) mach g1 g2
  rw [List.forall₂_map_left_iff] at h
  rw [runScripts_eq]
  exact h

/-- **C105**, for a well-formed model. From an empty disk, run programs one after the other. Each process has its own
order of sets, uses either solver, with or without roots, with any checkpoint limit, and either constructs the system
or reloads it from a directory where an earlier program constructed it. Then no call raises an exception, and every
number is the exact one (without a root) or within ten decimals' worth of it (with a root). -/
theorem C105_programs (m : Model ℝ) (ae : Int) (hm : WellFormed m ae)
    (hp : Physical m) (negative : Option ℂ → Bool) (ss : List (Script ℝ ℂ)) (hss : AllProper ss) (hl : InOrder [] ss)
    (mach : Machine ℝ ℂ) (he : Machine.Empty mach) :
    List.Forall₂ (fun s out => List.Forall₂ (fun c r => ∃ a, r = .ok a ∧ Expected m ae s.source.solverRoot c a)
      s.calls out) ss (runScripts realPhys negative m ss mach).1 := by
  have h3 := runScripts_good hm hp negative ss hss hl mach he
  refine h3.imp (fun s out h => h.imp (fun c r h => ?_))
  obtain ⟨a, a1, a2, -⟩ := h
  exact ⟨a, a1, a2⟩

theorem forall₂_get {α β : Type} {P : α → β → Prop} : ∀ {l : List α} {l' : List β}, List.Forall₂ P l l' → ∀ {i : Nat} {a : α},
    l[i]? = some a → ∃ b, l'[i]? = some b ∧ P a b
  | _, _, .nil, i, a, h => by simp at h
  | _, _, .cons h1 h2, 0, a, h => by
    simp only [List.getElem?_cons_zero, Option.some.injEq] at h
    subst h
    exact ⟨_, rfl, h1⟩
  | _, _, .cons h1 h2, i + 1, a, h => by
    simp only [List.getElem?_cons_succ] at h ⊢
    exact forall₂_get h2 h

/-- **C105**, reproducibility. The same call in two of the programs (or twice in one), with the same root of the
solver, gives the same answer, digit by digit, even if the programs use different solvers. -/
theorem C105_repeat (m : Model ℝ) (ae : Int) (hm : WellFormed m ae)
    (hp : Physical m) (negative : Option ℂ → Bool) (ss : List (Script ℝ ℂ)) (hss : AllProper ss) (hl : InOrder [] ss)
    (mach : Machine ℝ ℂ) (he : Machine.Empty mach) (i i' j j' : Nat) (s s' : Script ℝ ℂ) (c : Call ℝ) (root : String)
    (h1 : ss[i]? = some s) (h1' : ss[i']? = some s') (h2 : s.source.solverRoot = some root)
    (h2' : s'.source.solverRoot = some root) (h3 : s.calls[j]? = some c) (h3' : s'.calls[j']? = some c) :
    ∃ out out' a, (runScripts realPhys negative m ss mach).1[i]? = some out ∧
      (runScripts realPhys negative m ss mach).1[i']? = some out' ∧ out[j]? = some (.ok a) ∧ out'[j']? = some (.ok a) := by
  have g3 := runScripts_good hm hp negative ss hss hl mach he
  obtain ⟨out, o1, o2⟩ := forall₂_get g3 h1
  obtain ⟨out', o1', o2'⟩ := forall₂_get g3 h1'
  obtain ⟨r, r1, a, rfl, -, r3⟩ := forall₂_get o2 h3
  obtain ⟨r', r1', a', rfl, -, r3'⟩ := forall₂_get o2' h3'
  have := (r3 root h2).unique (r3' root h2')
  subst this
  exact ⟨out, out', a, o1, o1', r1, r1'⟩

/-- **C105**, from the user's side. -/
theorem C105_assembled (hopping lattice T : ℝ) (hl : hopping = 0 ∨ (0 < hopping ∧ lattice = 1))
    (cap : Option Int) (hcap : ∀ c, cap = some c → 1 ≤ c) (as : List (AddArgs ℝ)) (hne : as ≠ [])
    (hc : Clean realPrims hopping T as) (hf : ((modes T as).map (·.freq)).Nodup)
    (hbp : (∀ a ∈ as, a.ctype = "BondPeierls") ∨ (∀ a ∈ as, a.ctype ≠ "BondPeierls")) (negative : Option ℂ → Bool) :
    ∃ m ae, (Model.fromParameters hopping lattice T cap 1).adds realPrims as = .ok m ∧ WellFormed m ae ∧
      ∀ ss : List (Script ℝ ℂ), AllProper ss → InOrder [] ss → ∀ mach, Machine.Empty mach →
        List.Forall₂ (fun s out => List.Forall₂ (fun c r => ∃ a, r = .ok a ∧ Expected m ae s.source.solverRoot c a)
          s.calls out) ss (runScripts realPhys negative m ss mach).1 := by
  obtain ⟨m, b, h1, ⟨ae, h2⟩, -⟩ := C16_assembled ⟨id, fun l => List.Perm.refl l⟩ realPrims C42_names hopping lattice T
    cap hcap as hne hc hf hbp
  refine ⟨m, ae, h1, h2, fun ss hss hls mach he => ?_⟩
  exact C105_programs m ae h2 (physical_assembled h1 hbp hl) negative ss hss hls mach he

/-! ### the hypotheses are met -/

/-- Four programs for a Holstein–Peierls model: a sparse solver with a root, the dense solver resuming from it (a point
already computed, a point with the same file name, and a grid), one that constructs the system again in the same
directory without writing a checkpoint, and one that leaves no files. -/
example (negative : Option ℂ → Bool) (o1 o2 o3 o4 : SetOrder) : ∃ m ae, ∃ sp,
    (Model.fromParameters (1 : ℝ) 1 0 none 1).adds realPrims exCalls = .ok m ∧
    let ss : List (Script ℝ ℂ) := [
      ⟨o1, .sparse sp, .fresh (some "a") 1000000 (some "a"), [.solve ⟨0, 0, 1⟩]⟩,
      ⟨o2, .dense, .resume "a", [.solve ⟨0, 0, 1⟩, .solve ⟨0, 1 / 10 ^ 11, 1⟩, .grid (.float 0) (.seq [0, 1]) (1 / 10)]⟩,
      ⟨o3, .sparse sp, .fresh (some "a") 0 (some "b"), [.grid (.seq [0, 1]) (.seq []) 1]⟩,
      ⟨o4, .dense, .fresh none 0 none, [.solve ⟨0, 0, 1⟩]⟩]
    AllProper ss ∧ InOrder [] ss ∧ Machine.Empty ⟨fun _ => none, fun _ => []⟩ ∧
      ∃ G1 G2 G3 G4, (runScripts realPhys negative m ss ⟨fun _ => none, fun _ => []⟩).1 =
          [[.ok (.value (some G1))],
           [.ok (.value (some G1)), .ok (.value (some G1)), .ok (.matrix [[some G2, some G3]])],
           [.ok (.matrix [[], []])],
           [.ok (.value (some G4))]] ∧ ExactAt m ae ⟨0, 0, 1⟩ G4 := by
  obtain ⟨h1, h2, h3⟩ := exCalls_clean
  obtain ⟨m, b, k1, ⟨ae, k2⟩, -⟩ := C16_assembled o1 realPrims C42_names 1 1 0 none (by simp) exCalls (by simp [exCalls])
    h1 h2 (Or.inr h3)
  have hp := physical_assembled k1 (Or.inr h3) (Or.inr ⟨one_pos, rfl⟩)
  obtain ⟨sp, hsp⟩ := exists_exact ℂ
  have hE : Machine.Empty ⟨fun _ => none, fun _ => []⟩ := ⟨fun _ => rfl, fun _ => rfl⟩
  refine ⟨m, ae, sp, k1, ?_⟩
  intro ss
  have hA : AllProper ss := by
    intro s hs
    simp only [ss, List.mem_cons, List.not_mem_nil, or_false] at hs
    rcases hs with rfl | rfl | rfl | rfl <;>
      simp only [KindExact, Call.Ok, gridPoints, List.mem_cons, List.not_mem_nil, or_false, forall_eq_or_imp, forall_eq] <;>
      norm_num <;> first | exact hsp | simp [hsp]
  have hO : InOrder [] ss := by simp [ss, InOrder, systemRoot]
  refine ⟨hA, hO, hE, ?_⟩
  have h := runScripts_good k2 hp negative ss hA hO _ hE
  generalize runScripts realPhys negative m ss _ = r at h ⊢
  obtain ⟨out, mach⟩ := r
  have hkey : cacheKey (⟨0, 1 / 10 ^ 11, 1⟩ : Point ℝ) = cacheKey (⟨0, 0, 1⟩ : Point ℝ) := by
    rw [cacheKey_eq_iff]
    refine ⟨by simp, ⟨by norm_num, ?_⟩, by simp⟩
    rw [round10_small 0 (by norm_num), round10_small (1 / 10 ^ 11) (by rw [abs_of_pos (by positivity)]; norm_num)]
  simp only [ss, List.forall₂_cons_left_iff, List.forall₂_nil_left_iff] at h
  obtain ⟨_, _, ⟨_, _, ⟨a1, rfl, x1, y1⟩, rfl, rfl⟩, ⟨_, _, ⟨_, _, ⟨a2, rfl, x2, y2⟩, ⟨_, _, ⟨a3, rfl, x3, y3⟩,
    ⟨_, _, ⟨a4, rfl, x4, -⟩, rfl, rfl⟩, rfl⟩, rfl⟩, ⟨_, _, ⟨_, _, ⟨a5, rfl, x5, -⟩, rfl, rfl⟩,
    ⟨_, _, ⟨_, _, ⟨a6, rfl, x6, -⟩, rfl, rfl⟩, rfl, rfl⟩, rfl⟩, rfl⟩, rfl⟩ := h
  obtain ⟨v1⟩ | ⟨M1⟩ := a1
  swap; · exact x1.elim
  obtain ⟨v2⟩ | ⟨M2⟩ := a2
  swap; · exact x2.elim
  obtain ⟨v3⟩ | ⟨M3⟩ := a3
  swap; · exact x3.elim
  obtain ⟨v4⟩ | ⟨M4⟩ := a4
  · exact x4.elim
  obtain ⟨v5⟩ | ⟨M5⟩ := a5
  · exact x5.elim
  obtain ⟨v6⟩ | ⟨M6⟩ := a6
  swap; · exact x6.elim
  have z1 := y1 "a" rfl
  have z2 := y2 "a" rfl
  have z3 := y3 "a" rfl
  simp only [Recorded] at z1 z2 z3
  rw [hkey] at z3
  rw [z1] at z2 z3
  cases z2
  cases z3
  obtain ⟨G1, -, rfl, -, -⟩ := x1
  obtain ⟨G4, G', rfl, e6, n6⟩ := x6
  have n6' : G4 = G' := by
    have : ‖G4 - G'‖ ≤ 0 := n6
    exact sub_eq_zero.1 (norm_le_zero_iff.1 this)
  simp only [Expected, gridPoints, Option.some.injEq] at x4 x5
  obtain ⟨_, _, rfl, rfl, x4⟩ := x4
  obtain ⟨_, _, rfl, rfl, x5⟩ := x5
  simp only [List.forall₂_cons_left_iff, List.forall₂_nil_left_iff] at x4 x5
  obtain ⟨_, _, ⟨_, _, ⟨G2, -, rfl, -, -⟩, ⟨_, _, ⟨G3, -, rfl, -, -⟩, rfl, rfl⟩, rfl⟩, rfl, rfl⟩ := x4
  obtain ⟨_, _, rfl, ⟨_, _, rfl, rfl, rfl⟩, rfl⟩ := x5
  exact ⟨G1, G2, G3, G4, rfl, n6' ▸ e6⟩

end GGCE.Props
