import Verif.Props.SharedDisk
import Verif.Proofs.Interrupt
import Verif.Spec.Interrupt

/-!
Property C107: programs that are killed do not lead to wrong numbers later.
-/

set_option linter.unusedSectionVars false

namespace GGCE.Props
open Spec Arr
open scoped InnerProductSpace

/-! ### the results directory -/

/-- every complete file holds the exact number of a point with that name, up to `acc eta`, if its broadening is positive -/
def SoundFiles (m : Model ℝ) (ae : Int) (acc : ℝ → ℝ) (d : Dict PyStr (File (Option ℂ))) : Prop :=
  ∀ c v, d.get? c = some (.full v) → ∃ p : Point ℝ, cacheKey p = c ∧ (0 < p.eta → AccurateTo m ae (acc p.eta) p v)

/-- the directory is sound, if there is one -/
def SoundR (m : Model ℝ) (ae : Int) (acc : ℝ → ℝ) (dir : ResultDir (Option ℂ)) : Prop :=
  ∀ d, dir = some d → SoundFiles m ae acc d

/-- the accuracy of a call, for solvers accurate to `acc eta` -/
noncomputable def tolAcc (m : Model ℝ) (acc : ℝ → ℝ) (cached : Bool) (eta : ℝ) : ℝ :=
  if cached then acc (eta - 1 / 10 ^ 10) + decimals m eta else acc eta

/-- solvers are not more accurate at smaller broadening -/
structure Falls (acc : ℝ → ℝ) : Prop where
  nonneg : ∀ x, 0 < x → 0 ≤ acc x
  mono : ∀ x y, 0 < x → x ≤ y → acc y ≤ acc x

theorem exists_exactAt {m : Model ℝ} {ae : Int} (hm : WellFormed m ae) (hp : Physical m) (σ : SetOrder) (p : Point ℝ) :
    ∃ G, ExactAt m ae p G := by
  obtain ⟨b, hb⟩ := builds hm σ
  obtain ⟨H, h1, h2, -⟩ := C56_operator σ m ae hm b hb hp p.k
  exact ⟨_, H, h1, h2, rfl⟩

/-- the answer of `greens_function` from the numbers of its loop -/
theorem grid_answer {m : Model ℝ} {ae : Int} {tol : ℝ → ℝ} {k w : GridArg ℝ} {eta : ℝ} {ks ws : List ℝ}
    (hk : floatToList k = .ok ks) (hw : floatToList w = .ok ws) {vs : List (Option ℂ)} {a : Answer ℂ}
    (e3 : List.Forall₂ (fun (p : Point ℝ) v => 4 / 10 ^ 10 ≤ p.eta → AccurateTo m ae (tol p.eta) p v)
      ((jobList ks ws).map (fun j => (⟨j.1, j.2, eta⟩ : Point ℝ))) vs)
    (ha : Except.bind (.ok vs) (fun Gs => (reshapeGrid Gs ks.length ws.length).map .matrix) = .ok a)
    (h4 : 4 / 10 ^ 10 ≤ eta) : ExpectedTo m ae tol (.grid k w eta) a := by
  have hl : vs.length = ks.length * ws.length := by
    rw [← e3.length_eq, List.length_map, jobList_length]
  simp only [Except.bind, reshapeGrid, if_pos hl, Except.map] at ha
  cases ha
  have hj : (jobList ks ws).map (fun j => (⟨j.1, j.2, eta⟩ : Point ℝ)) =
      ks.flatMap (fun x => ws.map (fun y => (⟨x, y, eta⟩ : Point ℝ))) := by
    simp [jobList, List.map_flatMap, Function.comp_def]
  rw [hj] at e3
  have e5 := forall₂_blocks (fun x y => (⟨x, y, eta⟩ : Point ℝ)) ws ks vs e3
  have points : ∀ {k : GridArg ℝ} {ks}, floatToList k = .ok ks → gridPoints k = some ks := by
    intro k ks h
    cases k with
    | float x => cases h; rfl
    | int n => cases h
    | seq xs => cases h; rfl
  exact ⟨ks, ws, points hk, points hw, e5.imp (fun x row h => h.imp (fun y v h => h h4))⟩

section
variable {m : Model ℝ} {ae : Int} (hm : WellFormed m ae) (hbs : ∀ σ, ∃ b, buildSystem σ m = .ok b) (hp : Physical m)
  {acc : ℝ → ℝ} (hacc : Falls acc) {raw : Point ℝ → Py (Option ℂ)}
  (hraw : ∀ p v, 0 < p.eta → raw p = .ok v → AccurateTo m ae (acc p.eta) p v) (σ0 : SetOrder)
include hm hbs hp hacc hraw σ0

theorem solveSteps_safe {dir : ResultDir (Option ℂ)} (hs : SoundR m ae acc dir) (p : Point ℝ) :
    SoundR m ae acc (solveSteps raw dir p).dir ∧ (∀ d ∈ (solveSteps raw dir p).states, SoundR m ae acc d) ∧
      (solveSteps raw dir p).dir.isSome = dir.isSome ∧
      ∀ v, (solveSteps raw dir p).result = .ok v → 4 / 10 ^ 10 ≤ p.eta → AccurateTo m ae (tolAcc m acc dir.isSome p.eta) p v := by
  obtain ⟨b, hb⟩ := hbs σ0
  unfold solveSteps preRead
  cases dir with
  | none =>
    simp only
    cases hr : raw p with
    | error e => exact ⟨hs, by simp, rfl, fun v hv => by cases hv⟩
    | ok G =>
      refine ⟨by simpa using hs, by simpa using hs, rfl, fun v hv h4 => ?_⟩
      have h0 : 0 < p.eta := lt_of_lt_of_le (by positivity) h4
      cases hv
      simpa [tolAcc] using hraw p G h0 hr
  | some d =>
    simp only
    cases hg : d.get? (cacheKey p) with
    | none =>
      simp only
      cases hr : raw p with
      | error e => exact ⟨hs, by simp, rfl, fun v hv => by cases hv⟩
      | ok G =>
        have hfull : SoundR m ae acc (some (d.set (cacheKey p) (.full G))) := by
          intro d' hd' c v hv
          cases hd'
          rw [Dict.get?_set] at hv
          split at hv
          · rename_i hc
            cases hv
            exact ⟨p, hc, fun h0 => hraw p G h0 hr⟩
          · exact hs d rfl c v hv
        have htorn : SoundR m ae acc (some (d.set (cacheKey p) .torn)) := by
          intro d' hd' c v hv
          cases hd'
          rw [Dict.get?_set] at hv
          split at hv
          · cases hv
          · exact hs d rfl c v hv
        refine ⟨hfull, fun x hx => ?_, rfl, fun v hv h4 => ?_⟩
        · rcases List.mem_pair.1 hx with rfl | rfl
          · exact htorn
          · exact hfull
        · have h0 : 0 < p.eta := lt_of_lt_of_le (by positivity) h4
          cases hv
          obtain ⟨G1, G2, e1, e2, e3⟩ := hraw p G h0 hr
          refine ⟨G1, G2, e1, e2, e3.trans ?_⟩
          simp only [tolAcc, Option.isSome_some, if_true]
          have h5 : 0 < p.eta - 1 / 10 ^ 10 := by
            have : (1 : ℝ) / 10 ^ 10 < 4 / 10 ^ 10 := by norm_num
            linarith
          have := hacc.mono _ _ h5 (sub_le_self p.eta (by positivity : (0 : ℝ) ≤ 1 / 10 ^ 10))
          linarith [decimals_nonneg m p.eta]
    | some f =>
      cases f with
      | torn => exact ⟨hs, by simp, rfl, fun v hv => by cases hv⟩
      | full w =>
        refine ⟨hs, by simp, rfl, fun v hv h4 => ?_⟩
        cases hv
        have h0 : 0 < p.eta := lt_of_lt_of_le (by positivity) h4
        obtain ⟨G', e2⟩ := exists_exactAt hm hp σ0 p
        obtain ⟨q, k1, k2⟩ := hs d rfl _ _ hg
        have h5 := abs_le.1 (C31_key_near q p k1).2.2
        have h6 : 0 < p.eta - 1 / 10 ^ 10 := by
          have : (1 : ℝ) / 10 ^ 10 < 4 / 10 ^ 10 := by norm_num
          linarith
        have hq : 0 < q.eta := by linarith [h5.1]
        obtain ⟨G1, G2, rfl, k4, k5⟩ := k2 hq
        refine ⟨G1, G', rfl, e2, ?_⟩
        simp only [tolAcc, Option.isSome_some, if_true]
        have h7 := same_key_near σ0 m ae hm b hb hp k1 h4 (exact_returned hm hb hp hq k4) (exact_returned hm hb hp h0 e2)
        have h8 := hacc.mono _ q.eta h6 (by linarith [h5.1])
        have h9 : G1 - G' = (G1 - G2) + (G2 - G') := by ring
        rw [h9]
        refine (norm_add_le _ _).trans ?_
        linarith

theorem solveAllSteps_safe (ps : List (Point ℝ)) {dir : ResultDir (Option ℂ)} (hs : SoundR m ae acc dir) :
    SoundR m ae acc (solveAllSteps raw ps dir).dir ∧ (∀ d ∈ (solveAllSteps raw ps dir).states, SoundR m ae acc d) ∧
      (solveAllSteps raw ps dir).dir.isSome = dir.isSome ∧
      ∀ vs, (solveAllSteps raw ps dir).result = .ok vs → List.Forall₂ (fun p v => 4 / 10 ^ 10 ≤ p.eta →
        AccurateTo m ae (tolAcc m acc dir.isSome p.eta) p v) ps vs := by
  induction ps generalizing dir with
  | nil => exact ⟨hs, by simp [solveAllSteps], rfl, fun vs hv => by cases hv; exact .nil⟩
  | cons p ps ih =>
    obtain ⟨a1, a2, a3, a4⟩ := solveSteps_safe hm hbs hp hacc hraw σ0 hs p
    obtain ⟨b1, b2, b3, b4⟩ := ih a1
    unfold solveAllSteps
    simp only
    cases hr : (solveSteps raw dir p).result with
    | error e => exact ⟨a1, a2, a3, fun vs hv => by cases hv⟩
    | ok G =>
      refine ⟨b1, fun x hx => ?_, by rw [b3, a3], fun vs hv => ?_⟩
      · rcases List.mem_append.1 hx with h | h
        · exact a2 x h
        · exact b2 x h
      · cases hr2 : (solveAllSteps raw ps (solveSteps raw dir p).dir).result with
        | error e => simp only [hr2] at hv; cases hv
        | ok Gs =>
          simp only [hr2] at hv
          cases hv
          rw [a3] at b4
          exact .cons (a4 G hr) (b4 Gs hr2)

theorem callSteps_safe (c : Call ℝ) {dir : ResultDir (Option ℂ)} (hs : SoundR m ae acc dir) (root : Bool)
    (hr : root = dir.isSome) :
    SoundR m ae acc (callSteps raw c dir).dir ∧ (∀ d ∈ (callSteps raw c dir).states, SoundR m ae acc d) ∧
      (callSteps raw c dir).dir.isSome = dir.isSome ∧
      ∀ a, (callSteps raw c dir).result = .ok a → 4 / 10 ^ 10 ≤ Call.eta c → ExpectedTo m ae (tolAcc m acc root) c a := by
  cases c with
  | solve p =>
    obtain ⟨a1, a2, a3, a4⟩ := solveSteps_safe hm hbs hp hacc hraw σ0 hs p
    refine ⟨a1, a2, a3, fun a ha h4 => ?_⟩
    simp only [callSteps] at ha
    cases hx : (solveSteps raw dir p).result with
    | error e => rw [hx] at ha; cases ha
    | ok v =>
      rw [hx] at ha
      cases ha
      have := a4 v hx h4
      rw [← hr] at this
      exact this
  | grid k w eta =>
    cases hk : floatToList k with
    | error e =>
      simp only [callSteps, hk]
      exact ⟨hs, by simp, trivial, fun a ha => by cases ha⟩
    | ok ks =>
      cases hw : floatToList w with
      | error e =>
        simp only [callSteps, hk, hw]
        exact ⟨hs, by simp, trivial, fun a ha => by cases ha⟩
      | ok ws =>
        simp only [callSteps, hk, hw]
        obtain ⟨a1, a2, a3, a4⟩ := solveAllSteps_safe hm hbs hp hacc hraw σ0
          ((jobList ks ws).map (fun j => (⟨j.1, j.2, eta⟩ : Point ℝ))) hs
        refine ⟨a1, a2, a3, fun a ha h4 => ?_⟩
        cases hx : (solveAllSteps raw ((jobList ks ws).map (fun j => (⟨j.1, j.2, eta⟩ : Point ℝ))) dir).result with
        | error e => rw [hx] at ha; cases ha
        | ok vs =>
          rw [hx] at ha
          rw [← hr] at a4
          exact grid_answer hk hw (a4 vs hx) ha h4

theorem callsLife_safe (cs : List (Call ℝ)) {dir : ResultDir (Option ℂ)} (hs : SoundR m ae acc dir) (root : Bool)
    (hr : root = dir.isSome) (done : List (Py (Answer ℂ))) :
    ∀ x ∈ callsLife raw cs done dir, SoundR m ae acc x.2 ∧ ∃ l, x.1 = done ++ l ∧ ∀ (j : Nat) c a, cs[j]? = some c →
      l[j]? = some (.ok a) → 4 / 10 ^ 10 ≤ Call.eta c → ExpectedTo m ae (tolAcc m acc root) c a := by
  induction cs generalizing dir done with
  | nil => intro x hx; simp [callsLife] at hx
  | cons c cs ih =>
    obtain ⟨a1, a2, a3, a4⟩ := callSteps_safe hm hbs hp hacc hraw σ0 c hs root hr
    intro x hx
    simp only [callsLife, List.mem_append, List.mem_map, List.mem_cons] at hx
    rcases hx with ⟨d, hd, rfl⟩ | rfl | hx
    · exact ⟨a2 d hd, [], by simp, fun j c a _ h => by simp at h⟩
    · refine ⟨a1, [_], rfl, fun j c' a h1 h2 h4 => ?_⟩
      cases j with
      | zero =>
        simp only [List.getElem?_cons_zero, Option.some.injEq] at h1 h2
        subst h1
        exact a4 a h2 h4
      | succ j => simp at h2
    · cases hx' : (callSteps raw c dir).result with
      | error e => rw [hx'] at hx; cases hx
      | ok a =>
        rw [hx'] at hx
        simp only at hx
        obtain ⟨h1, l, h2, h3⟩ := ih a1 (by rw [hr, a3]) _ x hx
        refine ⟨h1, .ok a :: l, by rw [h2]; simp, fun j c' a' k1 k2 h4 => ?_⟩
        cases j with
        | zero =>
          simp only [List.getElem?_cons_zero, Option.some.injEq] at k1 k2
          subst k1
          cases k2
          exact a4 _ hx' h4
        | succ j =>
          simp only [List.getElem?_cons_succ] at k1 k2
          exact h3 j c' a' k1 k2 h4

end

/-! ### programs -/

/-- what holds of every disk that programs for the model have left -/
def FineStore (m : Model ℝ) (ae : Int) (acc : ℝ → ℝ) (st : Store ℝ ℂ) : Prop :=
  FineFS m st.fs ∧ ∀ q, SoundFiles m ae acc (st.results q)

/-- a kind of solver with the given accuracy -/
def Good (m : Model ℝ) (ae : Int) (acc : ℝ → ℝ) (kind : SolverKind ℂ) : Prop :=
  ∀ o : SolverObj ℝ ℂ, GoodObj m kind o → ∀ p v, 0 < p.eta → o.raw realPhys p = .ok v → AccurateTo m ae (acc p.eta) p v

theorem life_safe {m : Model ℝ} {ae : Int} (hm : WellFormed m ae) (hp : Physical m) {acc : ℝ → ℝ} (hacc : Falls acc)
    (s : Script ℝ ℂ) (hk : Good m ae acc s.kind) {st : Store ℝ ℂ} (h : FineStore m ae acc st) :
    ∀ x ∈ s.life realPhys m st, FineStore m ae acc x.2 ∧ ∀ (j : Nat) c a, s.calls[j]? = some c →
      x.1[j]? = some (.ok a) → 4 / 10 ^ 10 ≤ Call.eta c →
        ExpectedTo m ae (tolAcc m acc s.source.solverRoot.isSome) c a := by
  obtain ⟨c1, c2, c3⟩ := construct_safe (builds hm) s st.fs h.1
  have hz : ∀ (j : Nat) c a, s.calls[j]? = some c → ([] : List (Py (Answer ℂ)))[j]? = some (.ok a) →
      4 / 10 ^ 10 ≤ Call.eta c → ExpectedTo m ae (tolAcc m acc s.source.solverRoot.isSome) c a :=
    fun j c a _ h => by simp at h
  intro x hx
  simp only [Script.life, List.mem_cons, List.mem_append, List.mem_map] at hx
  rcases hx with rfl | ⟨fs, hfs, rfl⟩ | hx
  · exact ⟨h, hz⟩
  · exact ⟨⟨c2 fs hfs, h.2⟩, hz⟩
  · cases hr : (s.construct m st.fs).result with
    | error e =>
      rw [hr] at hx
      rcases List.mem_singleton.1 hx with rfl
      refine ⟨⟨c1, h.2⟩, fun j c a _ h2 => ?_⟩
      cases j with
      | zero => simp at h2
      | succ j => simp at h2
    | ok o =>
      rw [hr] at hx
      simp only [List.mem_cons, List.mem_map] at hx
      rcases hx with rfl | ⟨y, hy, rfl⟩
      · exact ⟨⟨c1, h.2⟩, hz⟩
      · have hsr : SoundR m ae acc (s.source.solverRoot.map st.results) := by
          intro d hd
          obtain ⟨r, -, rfl⟩ := Option.map_eq_some_iff.1 hd
          exact h.2 r
        obtain ⟨d1, l, d2, d3⟩ := callsLife_safe hm (builds hm) hp hacc (hk o (c3 o hr)) s.order s.calls hsr
          s.source.solverRoot.isSome (by simp) [] y hy
        rw [List.nil_append] at d2
        refine ⟨⟨c1, fun q => ?_⟩, fun j c a h1 h2 => d3 j c a h1 (by rw [← d2]; exact h2)⟩
        unfold Store.putResults
        simp only
        cases hsr' : s.source.solverRoot with
        | none => exact h.2 q
        | some r =>
          cases hy2 : y.2 with
          | none => exact h.2 q
          | some d =>
            simp only
            split
            · exact d1 d hy2
            · exact h.2 q

theorem history_fine {m : Model ℝ} {ae : Int} (hm : WellFormed m ae) (hp : Physical m) {acc : ℝ → ℝ} (hacc : Falls acc)
    {solvers : SolverKind ℂ → Prop} (hs : ∀ k, solvers k → Good m ae acc k) {st : Store ℝ ℂ} (h : History m solvers st) :
    FineStore m ae acc st := by
  induction h with
  | empty he =>
    refine ⟨fun q => by rw [he.1 q]; exact FineDir.empty m, fun q c v hv => ?_⟩
    rw [he.2 q] at hv
    cases hv
  | program s _ hk hx ih => exact (life_safe hm hp hacc s (hs _ hk) ih _ hx).1

theorem falls_zero : Falls (fun _ => 0) := ⟨fun _ _ => le_rfl, fun _ _ _ _ => le_rfl⟩

theorem good_exact {m : Model ℝ} {ae : Int} (hm : WellFormed m ae) (hp : Physical m) (kind : SolverKind ℂ)
    (hk : KindExact kind) : Good m ae (fun _ => 0) kind := by
  intro o ho p v h0 hv
  obtain ⟨G, e1, e2⟩ := raw_exact hm hp hk ho p h0
  rw [e1] at hv
  cases hv
  exact ⟨G, G, rfl, e2, by simp⟩

theorem expected_of_to {m : Model ℝ} {ae : Int} {root : Option String} {c : Call ℝ} {a : Answer ℂ}
    (h : ExpectedTo m ae (tolAcc m (fun _ => 0) root.isSome) c a) : Expected m ae root c a := by
  have e : tolAcc m (fun _ => 0) root.isSome = tolerance m root := by
    funext eta
    cases root <;> simp [tolAcc, tolerance]
  rw [e] at h
  cases c <;> cases a <;> exact h

/-- **C107**, safety. Take any disk that programs for one model have left, where any of them may have been killed at any
moment, in any order and with any arguments. Whatever a further program prints, itself killed or not, is accurate: every
number that a call with a broadening of at least `4e-10` has returned is the exact one (without a root) or within ten
decimals' worth of it (with a root). -/
theorem C107_safe (m : Model ℝ) (ae : Int) (hm : WellFormed m ae) (hp : Physical m) (st st' : Store ℝ ℂ)
    (h : History m KindExact st) (s : Script ℝ ℂ) (hk : KindExact s.kind) (out : List (Py (Answer ℂ)))
    (hx : (out, st') ∈ s.life realPhys m st) (j : Nat) (c : Call ℝ) (a : Answer ℂ) (hc : s.calls[j]? = some c)
    (ha : out[j]? = some (.ok a)) (h4 : 4 / 10 ^ 10 ≤ Call.eta c) : Expected m ae s.source.solverRoot c a :=
  expected_of_to ((life_safe hm hp falls_zero s (good_exact hm hp _ hk)
    (history_fine hm hp falls_zero (good_exact hm hp) h) _ hx).2 j c a hc ha h4)

/-! ### recovery -/

/-- no incomplete file -/
def NoTorn (dir : ResultDir (Option ℂ)) : Prop := ∀ d, dir = some d → ∀ c, d.get? c ≠ some .torn

section
variable {raw : Point ℝ → Py (Option ℂ)} (hraw : ∀ p, 0 < p.eta → ∃ G, raw p = .ok (some G))
include hraw

theorem solveSteps_ends {dir : ResultDir (Option ℂ)} (hs : NoTorn dir) (p : Point ℝ) (h0 : 0 < p.eta) :
    (∃ v, (solveSteps raw dir p).result = .ok v) ∧ NoTorn (solveSteps raw dir p).dir := by
  obtain ⟨G, e1⟩ := hraw p h0
  unfold solveSteps preRead
  cases dir with
  | none => simp only [e1]; exact ⟨⟨_, rfl⟩, fun d hd => by cases hd⟩
  | some d =>
    simp only
    cases hg : d.get? (cacheKey p) with
    | none =>
      simp only [e1]
      refine ⟨⟨_, rfl⟩, fun d' hd' c => ?_⟩
      cases hd'
      rw [Dict.get?_set]
      split
      · simp
      · exact hs d rfl c
    | some f =>
      cases f with
      | torn => exact absurd hg (hs d rfl _)
      | full v => exact ⟨⟨v, rfl⟩, hs⟩

theorem solveAllSteps_ends (ps : List (Point ℝ)) (h0 : ∀ p ∈ ps, 0 < p.eta) {dir : ResultDir (Option ℂ)} (hs : NoTorn dir) :
    (∃ vs, (solveAllSteps raw ps dir).result = .ok vs ∧ vs.length = ps.length) ∧ NoTorn (solveAllSteps raw ps dir).dir := by
  induction ps generalizing dir with
  | nil => exact ⟨⟨[], rfl, rfl⟩, hs⟩
  | cons p ps ih =>
    obtain ⟨⟨v, a1⟩, a2⟩ := solveSteps_ends hraw hs p (h0 p (by simp))
    obtain ⟨⟨vs, b1, b2⟩, b3⟩ := ih (fun q hq => h0 q (by simp [hq])) a2
    simp only [solveAllSteps, a1, b1]
    exact ⟨⟨v :: vs, rfl, by simp [b2]⟩, b3⟩

theorem callSteps_ends (c : Call ℝ) (hc : Call.Ok c) {dir : ResultDir (Option ℂ)} (hs : NoTorn dir) :
    (∃ a, (callSteps raw c dir).result = .ok a) ∧ NoTorn (callSteps raw c dir).dir := by
  cases c with
  | solve p =>
    obtain ⟨⟨v, a1⟩, a2⟩ := solveSteps_ends hraw hs p (lt_of_lt_of_le (by positivity) hc)
    exact ⟨⟨.value v, by simp [callSteps, a1, Except.map]⟩, a2⟩
  | grid k w eta =>
    obtain ⟨h1, h2, h3⟩ := hc
    obtain ⟨ks, k1, k2⟩ := floatToList_points h2
    obtain ⟨ws, w1, w2⟩ := floatToList_points h3
    obtain ⟨⟨vs, e1, e2⟩, e3⟩ := solveAllSteps_ends hraw ((jobList ks ws).map (fun j => (⟨j.1, j.2, eta⟩ : Point ℝ))) (by
        intro p hp
        obtain ⟨j, -, rfl⟩ := List.mem_map.1 hp
        exact lt_of_lt_of_le (by positivity) h1) hs
    have hl : vs.length = ks.length * ws.length := by
      rw [e2, List.length_map, jobList_length]
    simp only [callSteps, k2, w2, e1, Except.bind, reshapeGrid, if_pos hl, Except.map]
    exact ⟨⟨_, rfl⟩, e3⟩

theorem callsLife_ends (cs : List (Call ℝ)) (hc : ∀ c ∈ cs, Call.Ok c) {dir : ResultDir (Option ℂ)} (hs : NoTorn dir)
    (done : List (Py (Answer ℂ))) : ∃ l d, ((done, dir) :: callsLife raw cs done dir).getLast? = some (done ++ l, d) ∧
      l.length = cs.length ∧ ∀ r ∈ l, ∃ a, r = .ok a := by
  induction cs generalizing dir done with
  | nil => exact ⟨[], dir, by simp [callsLife], rfl, by simp⟩
  | cons c cs ih =>
    obtain ⟨⟨a, a1⟩, a2⟩ := callSteps_ends hraw c (hc c (by simp)) hs
    obtain ⟨l, d, b1, b2, b3⟩ := ih (fun c' h => hc c' (by simp [h])) a2 (done ++ [.ok a])
    refine ⟨.ok a :: l, d, ?_, by simp [b2], ?_⟩
    · simp only [callsLife, a1]
      rw [List.getLast?_cons, List.getLast?_append, b1]
      simp
    · intro r hr
      rcases List.mem_cons.1 hr with rfl | hr
      · exact ⟨a, rfl⟩
      · exact b3 r hr

end

theorem putResults_self (st : Store ℝ ℂ) (root : Option String) :
    Store.putResults st root (root.map st.results) = st := by
  unfold Store.putResults
  cases root with
  | none => rfl
  | some r =>
    obtain ⟨fs, res⟩ := st
    simp only [Option.map_some, Store.mk.injEq, true_and]
    funext q
    split
    · rename_i h; rw [h]
    · rfl

/-- the last step of a program whose solver could be constructed -/
theorem life_last {m : Model ℝ} {s : Script ℝ ℂ} {st : Store ℝ ℂ} {o : SolverObj ℝ ℂ}
    (h : (s.construct m st.fs).result = .ok o) : (s.life realPhys m st).getLast? =
      (((([] : List (Py (Answer ℂ))), s.source.solverRoot.map st.results) ::
        callsLife (o.raw realPhys) s.calls [] (s.source.solverRoot.map st.results)).getLast?).map
        (fun x => (x.1, Store.putResults { st with fs := (s.construct m st.fs).fs } s.source.solverRoot x.2)) := by
  have e : (([] : List (Py (Answer ℂ))), ({ st with fs := (s.construct m st.fs).fs } : Store ℝ ℂ)) =
      (fun x : List (Py (Answer ℂ)) × ResultDir (Option ℂ) =>
        (x.1, Store.putResults { st with fs := (s.construct m st.fs).fs } s.source.solverRoot x.2))
        ([], s.source.solverRoot.map st.results) := by
    have := putResults_self ({ st with fs := (s.construct m st.fs).fs } : Store ℝ ℂ) s.source.solverRoot
    simp only [this]
  unfold Script.life
  simp only [h]
  rw [e, ← List.map_cons (f := fun x : List (Py (Answer ℂ)) × ResultDir (Option ℂ) =>
        (x.1, Store.putResults { st with fs := (s.construct m st.fs).fs } s.source.solverRoot x.2)), ← List.cons_append,
    List.getLast?_append, List.getLast?_map]
  cases hc : (((([] : List (Py (Answer ℂ))), s.source.solverRoot.map st.results) ::
        callsLife (o.raw realPhys) s.calls [] (s.source.solverRoot.map st.results)).getLast?) with
  | none => simp at hc
  | some y => rfl

/-- a program that constructs its system runs to its end with answers to all calls; they have a property that all answers have -/
theorem life_ends {m : Model ℝ} {ae : Int} (hm : WellFormed m ae) (st : Store ℝ ℂ) (s : Script ℝ ℂ)
    (hraw : ∀ o : SolverObj ℝ ℂ, GoodObj m s.kind o → ∀ p : Point ℝ, 0 < p.eta → ∃ G, o.raw realPhys p = .ok (some G))
    (hc : ∀ c ∈ s.calls, Call.Ok c) (r r' : Option String) (lim : Int) (hs : s.source = .fresh r lim r')
    (ht : ∀ q, r' = some q → ∀ c, (st.results q).get? c ≠ some .torn) {P : Call ℝ → Answer ℂ → Prop}
    (hP : ∀ out st', (out, st') ∈ s.life realPhys m st → ∀ (j : Nat) c a, s.calls[j]? = some c →
      out[j]? = some (.ok a) → 4 / 10 ^ 10 ≤ Call.eta c → P c a) :
    ∃ out st', (s.life realPhys m st).getLast? = some (out, st') ∧
      List.Forall₂ (fun c x => ∃ a, x = .ok a ∧ P c a) s.calls out := by
  have hE : Machine.Empty ⟨fun _ => none, fun _ => []⟩ := ⟨fun _ => rfl, fun _ => rfl⟩
  obtain ⟨g1, -⟩ := empty_good (own := fun _ => m) (ext := fun _ => ae) hE
  obtain ⟨o, h1, ho, -⟩ := construct_good (builds hm) s (known := (· ∈ ([] : List String)))
    (fun r hr => by rw [hs] at hr; cases hr) (fun _ _ => rfl) g1
  have h2 := construct_blind (s := s) hs _ st.fs h1
  have hn : NoTorn (s.source.solverRoot.map st.results) := by
    intro d hd c
    obtain ⟨q, hq, rfl⟩ := Option.map_eq_some_iff.1 hd
    rw [hs] at hq
    exact ht q hq c
  obtain ⟨l, d, e1, e2, e3⟩ := callsLife_ends (hraw o ho) s.calls hc hn []
  have e4 := life_last h2
  rw [e1, Option.map_some, List.nil_append] at e4
  refine ⟨l, _, e4, ?_⟩
  have e5 := hP l _ (List.mem_of_getLast? e4)
  rw [List.forall₂_iff_get]
  refine ⟨e2.symm, fun i h3 h4 => ?_⟩
  obtain ⟨a, ha⟩ := e3 _ (List.get_mem l ⟨i, h4⟩)
  refine ⟨a, ha, e5 i _ a (List.getElem?_eq_getElem h3) ?_ ?_⟩
  · rw [List.getElem?_eq_getElem h4]
    exact congrArg some ha
  · have := hc _ (List.getElem_mem h3)
    show 4 / 10 ^ 10 ≤ Call.eta s.calls[i]
    generalize s.calls[i] = c at this ⊢
    cases c with
    | solve p => exact this
    | grid k w eta => exact this.1

/-- **C107**, recovery. On any such disk a program that constructs its system (and does not only name a directory) runs
to its end and prints accurate numbers, if the results directory it uses holds no incomplete file. The state of the
checkpoint directory does not matter. -/
theorem C107_recovers (m : Model ℝ) (ae : Int) (hm : WellFormed m ae) (hp : Physical m) (st : Store ℝ ℂ)
    (h : History m KindExact st) (s : Script ℝ ℂ) (hk : KindExact s.kind) (hc : ∀ c ∈ s.calls, Call.Ok c) (r r' : Option String)
    (lim : Int) (hs : s.source = .fresh r lim r') (ht : ∀ q, r' = some q → ∀ c, (st.results q).get? c ≠ some .torn) :
    ∃ out st', (s.life realPhys m st).getLast? = some (out, st') ∧
      List.Forall₂ (fun c x => ∃ a, x = .ok a ∧ Expected m ae s.source.solverRoot c a) s.calls out :=
  life_ends hm st s (fun o ho p h0 => by
    obtain ⟨G, e, -⟩ := raw_exact hm hp hk ho p h0
    exact ⟨G, e⟩) hc r r' lim hs ht (fun out st' hx => C107_safe m ae hm hp st st' h s hk out hx)

/-! ### an incomplete result stays -/

theorem solveSteps_torn {raw : Point ℝ → Py (Option ℂ)} {d : Dict PyStr (File (Option ℂ))} {c : PyStr}
    (h : d.get? c = some .torn) (p : Point ℝ) :
    (∃ d', (solveSteps raw (some d) p).dir = some d' ∧ d'.get? c = some .torn) ∧
      (∀ x ∈ (solveSteps raw (some d) p).states, ∃ d', x = some d' ∧ d'.get? c = some .torn) ∧
      (cacheKey p = c → ∀ v, (solveSteps raw (some d) p).result ≠ .ok v) := by
  unfold solveSteps preRead
  simp only
  cases hg : d.get? (cacheKey p) with
  | some f =>
    cases f with
    | torn => exact ⟨⟨d, rfl, h⟩, by simp, fun _ v hv => by cases hv⟩
    | full v => exact ⟨⟨d, rfl, h⟩, by simp, fun e => by rw [e, h] at hg; cases hg⟩
  | none =>
    have hne : cacheKey p ≠ c := fun e => by rw [e, h] at hg; cases hg
    have keep : ∀ f, (d.set (cacheKey p) f).get? c = some .torn := fun f => by
      rw [Dict.get?_set, if_neg hne]; exact h
    simp only
    cases raw p with
    | error e => exact ⟨⟨d, rfl, h⟩, by simp, fun e => absurd e hne⟩
    | ok G =>
      refine ⟨⟨_, rfl, keep _⟩, fun x hx => ?_, fun e => absurd e hne⟩
      rcases List.mem_pair.1 hx with rfl | rfl
      · exact ⟨_, rfl, keep _⟩
      · exact ⟨_, rfl, keep _⟩

theorem solveAllSteps_torn {raw : Point ℝ → Py (Option ℂ)} {c : PyStr} (ps : List (Point ℝ))
    {d : Dict PyStr (File (Option ℂ))} (h : d.get? c = some .torn) :
    (∃ d', (solveAllSteps raw ps (some d)).dir = some d' ∧ d'.get? c = some .torn) ∧
      ∀ x ∈ (solveAllSteps raw ps (some d)).states, ∃ d', x = some d' ∧ d'.get? c = some .torn := by
  induction ps generalizing d with
  | nil => exact ⟨⟨d, rfl, h⟩, by simp [solveAllSteps]⟩
  | cons p ps ih =>
    obtain ⟨⟨d1, a1, a2⟩, a3, -⟩ := solveSteps_torn (raw := raw) h p
    obtain ⟨b1, b2⟩ := ih a2
    unfold solveAllSteps
    simp only
    cases (solveSteps raw (some d) p).result with
    | error e => exact ⟨⟨d1, a1, a2⟩, a3⟩
    | ok G =>
      simp only [a1]
      refine ⟨b1, fun x hx => ?_⟩
      rcases List.mem_append.1 hx with hx | hx
      · exact a3 x hx
      · exact b2 x hx

theorem callSteps_torn {raw : Point ℝ → Py (Option ℂ)} {c : PyStr} (call : Call ℝ)
    {d : Dict PyStr (File (Option ℂ))} (h : d.get? c = some .torn) :
    (∃ d', (callSteps raw call (some d)).dir = some d' ∧ d'.get? c = some .torn) ∧
      (∀ x ∈ (callSteps raw call (some d)).states, ∃ d', x = some d' ∧ d'.get? c = some .torn) ∧
      ∀ p, call = .solve p → cacheKey p = c → ∀ a, (callSteps raw call (some d)).result ≠ .ok a := by
  cases call with
  | solve p =>
    obtain ⟨a1, a2, a3⟩ := solveSteps_torn (raw := raw) h p
    refine ⟨a1, a2, fun q hq hc a ha => ?_⟩
    cases hq
    simp only [callSteps] at ha
    cases hx : (solveSteps raw (some d) p).result with
    | error e => rw [hx] at ha; cases ha
    | ok v => exact a3 hc v hx
  | grid k w eta =>
    cases hk : floatToList k with
    | error e =>
      simp only [callSteps, hk]
      exact ⟨⟨d, rfl, h⟩, by simp, fun p hp => by cases hp⟩
    | ok ks =>
      cases hw : floatToList w with
      | error e =>
        simp only [callSteps, hk, hw]
        exact ⟨⟨d, rfl, h⟩, by simp, fun p hp => by cases hp⟩
      | ok ws =>
        obtain ⟨a1, a2⟩ := solveAllSteps_torn (raw := raw) ((jobList ks ws).map (fun j => (⟨j.1, j.2, eta⟩ : Point ℝ))) h
        simp only [callSteps, hk, hw]
        exact ⟨a1, a2, fun p hp => by cases hp⟩

theorem callsLife_torn {raw : Point ℝ → Py (Option ℂ)} {c : PyStr} (cs : List (Call ℝ)) (done : List (Py (Answer ℂ)))
    {d : Dict PyStr (File (Option ℂ))} (h : d.get? c = some .torn) :
    ∀ x ∈ callsLife raw cs done (some d), (∃ d', x.2 = some d' ∧ d'.get? c = some .torn) ∧ ∃ l, x.1 = done ++ l ∧
      ∀ (j : Nat) p a, cs[j]? = some (.solve p) → cacheKey p = c → l[j]? ≠ some (.ok a) := by
  induction cs generalizing d done with
  | nil => intro x hx; simp [callsLife] at hx
  | cons call cs ih =>
    obtain ⟨⟨d1, a1, a1'⟩, a2, a3⟩ := callSteps_torn (raw := raw) call h
    intro x hx
    simp only [callsLife, List.mem_append, List.mem_map, List.mem_cons] at hx
    rcases hx with ⟨y, hy, rfl⟩ | rfl | hx
    · exact ⟨a2 y hy, [], by simp, fun j p a _ _ h => by simp at h⟩
    · refine ⟨⟨d1, a1, a1'⟩, [_], rfl, fun j p a h1 h2 h3 => ?_⟩
      cases j with
      | zero =>
        simp only [List.getElem?_cons_zero, Option.some.injEq] at h1 h3
        exact a3 p h1 h2 a h3
      | succ j => simp at h3
    · cases hx' : (callSteps raw call (some d)).result with
      | error e => rw [hx'] at hx; cases hx
      | ok a =>
        rw [hx', a1] at hx
        simp only at hx
        obtain ⟨h1, l, h2, h3⟩ := ih _ a1' x hx
        refine ⟨h1, .ok a :: l, by rw [h2]; simp, fun j p a' k1 k2 k3 => ?_⟩
        cases j with
        | zero =>
          simp only [List.getElem?_cons_zero, Option.some.injEq] at k1
          exact a3 p k1 k2 a hx'
        | succ j =>
          simp only [List.getElem?_cons_succ] at k1 k3
          exact h3 j p a' k1 k2 k3

/-- **C107**, an incomplete result. If a program is killed while a result is written, the file stays incomplete whatever
programs run later, and with that root no call of `solve` at that point returns: it can only be repaired by hand. -/
theorem C107_torn_result (m : Model ℝ) (s : Script ℝ ℂ) (st st' : Store ℝ ℂ) (out : List (Py (Answer ℂ))) (r : String)
    (p : Point ℝ) (h : (st.results r).get? (cacheKey p) = some .torn) (hx : (out, st') ∈ s.life realPhys m st) :
    (st'.results r).get? (cacheKey p) = some .torn ∧ (s.source.solverRoot = some r → ∀ (j : Nat) a,
      s.calls[j]? = some (.solve p) → out[j]? ≠ some (.ok a)) := by
  simp only [Script.life, List.mem_cons, List.mem_append, List.mem_map, Prod.mk.injEq] at hx
  rcases hx with ⟨rfl, rfl⟩ | ⟨fs, hfs, rfl, rfl⟩ | hx
  · exact ⟨h, fun _ j a _ h2 => by simp at h2⟩
  · exact ⟨h, fun _ j a _ h2 => by simp at h2⟩
  · cases hr : (s.construct m st.fs).result with
    | error e =>
      rw [hr] at hx
      simp only [List.mem_singleton, Prod.mk.injEq] at hx
      obtain ⟨rfl, rfl⟩ := hx
      refine ⟨h, fun _ j a _ h2 => ?_⟩
      cases j with
      | zero => simp at h2
      | succ j => simp at h2
    | ok o =>
      rw [hr] at hx
      simp only [List.mem_cons, List.mem_map, Prod.mk.injEq] at hx
      rcases hx with ⟨rfl, rfl⟩ | ⟨y, hy, rfl, rfl⟩
      · exact ⟨h, fun _ j a _ h2 => by simp at h2⟩
      · by_cases hsr : s.source.solverRoot = some r
        · rw [hsr] at hy
          obtain ⟨⟨d', e1, e2⟩, l, e3, e4⟩ := callsLife_torn s.calls [] h y hy
          rw [List.nil_append] at e3
          rw [e3]
          refine ⟨?_, fun _ j a h1 => e4 j p a h1 rfl⟩
          simp only [Store.putResults, hsr, e1, if_true]
          exact e2
        · refine ⟨?_, fun h1 => absurd h1 hsr⟩
          unfold Store.putResults
          simp only
          cases hsr' : s.source.solverRoot with
          | none => exact h
          | some r1 =>
            cases y.2 with
            | none => exact h
            | some d =>
              simp only
              rw [if_neg (fun e => hsr (by rw [hsr', e]))]
              exact h

/-! ### programs that are not killed -/

/-- a directory in which all files are complete -/
def complete' (o : Option (Dict PyStr (Option ℂ))) : ResultDir (Option ℂ) :=
  o.map (fun d => d.map (fun e => (e.1, File.full e.2)))

theorem get?_full (d : Dict PyStr (Option ℂ)) (c : PyStr) :
    Dict.get? (d.map (fun e => (e.1, File.full e.2))) c = (d.get? c).map File.full := by
  induction d with
  | nil => rfl
  | cons e d ih =>
    obtain ⟨k, v⟩ := e
    simp only [List.map_cons, Dict.get?]
    split
    · rfl
    · exact ih

theorem set_full (d : Dict PyStr (Option ℂ)) (c : PyStr) (v : Option ℂ) :
    Dict.set (d.map (fun e => (e.1, File.full e.2))) c (.full v) = (d.set c v).map (fun e => (e.1, File.full e.2)) := by
  induction d with
  | nil => rfl
  | cons e d ih =>
    obtain ⟨k, w⟩ := e
    simp only [List.map_cons, Dict.set]
    split
    · rfl
    · rw [ih]; rfl

section
variable (raw : Point ℝ → Py (Option ℂ)) (negative : Option ℂ → Bool)

theorem solveSteps_eq (s : CacheState ℝ (Option ℂ)) (p : Point ℝ) :
    (solveSteps raw (complete' s.dir) p).result = (cachedSolve raw negative s p).1 ∧
      (solveSteps raw (complete' s.dir) p).dir = complete' (cachedSolve raw negative s p).2.dir := by
  unfold solveSteps cachedSolve preRead preSolve
  cases hd : s.dir with
  | none =>
    simp only [complete', Option.map_none]
    cases raw p with
    | error e => exact ⟨rfl, by simp [hd]⟩
    | ok G => exact ⟨rfl, by simp [postSolve, hd]⟩
  | some d =>
    simp only [complete', Option.map_some, get?_full]
    cases d.get? (cacheKey p) with
    | some v => exact ⟨rfl, by simp [hd]⟩
    | none =>
      simp only [Option.map_none]
      cases raw p with
      | error e => exact ⟨rfl, by simp [hd]⟩
      | ok G => exact ⟨rfl, by simp [postSolve, hd, set_full]⟩

theorem solveAllSteps_eq (ps : List (Point ℝ)) (s : CacheState ℝ (Option ℂ)) :
    (solveAllSteps raw ps (complete' s.dir)).result = (solveAll raw negative ps s).1 ∧
      (solveAllSteps raw ps (complete' s.dir)).dir = complete' (solveAll raw negative ps s).2.dir := by
  induction ps generalizing s with
  | nil => exact ⟨rfl, rfl⟩
  | cons p ps ih =>
    obtain ⟨a1, a2⟩ := solveSteps_eq raw negative s p
    unfold solveAllSteps solveAll
    simp only [a1, a2]
    obtain ⟨r, s1⟩ := cachedSolve raw negative s p
    cases r with
    | error e => exact ⟨rfl, rfl⟩
    | ok G =>
      obtain ⟨b1, b2⟩ := ih s1
      simp only [b1, b2]
      obtain ⟨r, s2⟩ := solveAll raw negative ps s1
      cases r <;> exact ⟨rfl, rfl⟩

theorem callSteps_eq (c : Call ℝ) (s : CacheState ℝ (Option ℂ)) :
    (callSteps raw c (complete' s.dir)).result = (runCall raw negative c s).1 ∧
      (callSteps raw c (complete' s.dir)).dir = complete' (runCall raw negative c s).2.dir := by
  cases c with
  | solve p =>
    obtain ⟨a1, a2⟩ := solveSteps_eq raw negative s p
    exact ⟨by simp only [callSteps, runCall, a1], by simp only [callSteps, runCall, a2]⟩
  | grid k w eta =>
    cases hk : floatToList k with
    | error e => simp only [callSteps, runCall, hk]; exact ⟨trivial, trivial⟩
    | ok ks =>
      cases hw : floatToList w with
      | error e => simp only [callSteps, runCall, hk, hw]; exact ⟨trivial, trivial⟩
      | ok ws =>
        obtain ⟨a1, a2⟩ := solveAllSteps_eq raw negative ((jobList ks ws).map (fun j => (⟨j.1, j.2, eta⟩ : Point ℝ))) s
        simp only [callSteps, runCall, hk, hw, a1, a2]
        exact ⟨trivial, trivial⟩

theorem callsLife_eq (cs : List (Call ℝ)) (done : List (Py (Answer ℂ))) (s : CacheState ℝ (Option ℂ)) :
    ((done, complete' s.dir) :: callsLife raw cs done (complete' s.dir)).getLast? =
      some (done ++ (runCalls raw negative cs s).1, complete' (runCalls raw negative cs s).2.dir) := by
  induction cs generalizing done s with
  | nil => simp [callsLife, runCalls]
  | cons c cs ih =>
    obtain ⟨a1, a2⟩ := callSteps_eq raw negative c s
    simp only [callsLife, runCalls, a1, a2]
    obtain ⟨r, s1⟩ := runCall raw negative c s
    rw [List.getLast?_cons, List.getLast?_append]
    cases r with
    | error e => simp
    | ok a =>
      simp only
      have h := ih (done ++ [Except.ok a]) s1
      erw [h]
      simp

end

/-- **C107**, the model. On a disk where all files are complete, a program that is not killed ends as `Script.run` says
(Verif/Model/Script.lean). -/
theorem C107_uninterrupted (m : Model ℝ) (negative : Option ℂ → Bool) (s : Script ℝ ℂ) (mach : Machine ℝ ℂ) :
    (s.life realPhys m (Store.ofMachine mach)).getLast? =
      some ((s.run realPhys negative m mach).1, Store.ofMachine (s.run realPhys negative m mach).2) := by
  have hfs : (Store.ofMachine mach).fs = mach.fs := rfl
  cases hr : (s.construct m mach.fs).result with
  | error e =>
    simp only [Script.life, Script.run, hfs, hr]
    rw [List.getLast?_cons, List.getLast?_append]
    simp [Store.ofMachine]
  | ok o =>
    rw [life_last (o := o) (by rw [hfs]; exact hr)]
    have e : s.source.solverRoot.map (Store.ofMachine mach).results =
        complete' (s.source.solverRoot.map mach.results) := by
      cases s.source.solverRoot <;> rfl
    rw [e]
    have := callsLife_eq (o.raw realPhys) negative s.calls [] ⟨s.source.solverRoot.map mach.results, []⟩
    simp only at this
    rw [this]
    simp only [Script.run, hr, List.nil_append, Option.map_some, hfs, Option.some.injEq, Prod.mk.injEq, true_and]
    generalize runCalls (o.raw realPhys) negative s.calls ⟨s.source.solverRoot.map mach.results, []⟩ = rc
    unfold Store.putResults Store.ofMachine complete'
    simp only [Store.mk.injEq, true_and]
    cases s.source.solverRoot with
    | none => rfl
    | some r =>
      cases rc.2.dir with
      | none => rfl
      | some d =>
        simp only [Option.map_some]
        funext q
        split <;> rfl

/-! ### the hypotheses are met -/

/-- For every model: a program is killed while it writes its first result. Then the same program, run again, raises
`EOFError`, and with another root it works. -/
example (m : Model ℝ) (ae : Int) (hm : WellFormed m ae) (hp : Physical m) (σ : SetOrder) (p : Point ℝ)
    (hq : 4 / 10 ^ 10 ≤ p.eta) : ∃ st, History m KindExact st ∧ (st.results "a").get? (cacheKey p) = some .torn ∧
      (∀ out st', (out, st') ∈ (⟨σ, .dense, .fresh (some "a") 0 (some "a"), [.solve p]⟩ : Script ℝ ℂ).life realPhys m st →
        ∀ a, out[0]? ≠ some (.ok a)) ∧
      ∃ G st', ((⟨σ, .dense, .fresh (some "a") 0 (some "b"), [.solve p]⟩ : Script ℝ ℂ).life realPhys m st).getLast? =
        some ([.ok (.value (some G))], st') := by
  have hE : Store.Empty ⟨fun _ => none, fun _ => []⟩ := ⟨fun _ => rfl, fun _ => rfl⟩
  obtain ⟨g1, -⟩ := empty_good (own := fun _ => m) (ext := fun _ => ae)
    (mach := ⟨fun _ => none, fun _ => []⟩) ⟨fun _ => rfl, fun _ => rfl⟩
  set s : Script ℝ ℂ := ⟨σ, .dense, .fresh (some "a") 0 (some "a"), [.solve p]⟩ with hs
  obtain ⟨o, h1, ho, -⟩ := construct_good (builds hm) s (known := (· ∈ ([] : List String)))
    (fun r hr => by cases hr) (fun _ _ => rfl) g1
  obtain ⟨G0, r1, -⟩ := raw_exact hm hp (show KindExact s.kind from trivial) ho p (lt_of_lt_of_le (by positivity) hq)
  set st0 : Store ℝ ℂ := ⟨fun _ => none, fun _ => []⟩ with hst0
  set st1 : Store ℝ ℂ := Store.putResults { st0 with fs := (s.construct m st0.fs).fs } (some "a")
    (some (Dict.set [] (cacheKey p) .torn)) with hst1
  have hmem : ([], st1) ∈ s.life realPhys m st0 := by
    have h1' : (s.construct m st0.fs).result = .ok o := h1
    simp only [Script.life, h1', List.mem_cons, List.mem_append, List.mem_map]
    refine Or.inr (Or.inr (Or.inr ⟨([], some (Dict.set [] (cacheKey p) .torn)), ?_, rfl⟩))
    simp [hs, callsLife, callSteps, solveSteps, preRead, Source.solverRoot, Dict.get?, r1, hst0]
  have hH : History m KindExact st1 := .program s (.empty hE) trivial hmem
  have ht : (st1.results "a").get? (cacheKey p) = some .torn := by
    simp [hst1, Store.putResults, Dict.set, Dict.get?]
  refine ⟨st1, hH, ht, fun out st' hx a => ?_, ?_⟩
  · exact (C107_torn_result m s st1 st' out "a" p ht hx).2 rfl 0 a rfl
  · obtain ⟨out, st', e1, e2⟩ := C107_recovers m ae hm hp st1 hH ⟨σ, .dense, .fresh (some "a") 0 (some "b"), [.solve p]⟩
      trivial (by intro c hc; rw [List.mem_singleton.1 hc]; exact hq) (some "a") (some "b") 0 rfl
      (by intro q hq c; cases hq; simp [hst1, Store.putResults, hst0, Dict.get?])
    rw [e1]
    simp only [List.forall₂_cons_left_iff, List.forall₂_nil_left_iff] at e2
    obtain ⟨_, _, ⟨a, rfl, ha⟩, rfl, rfl⟩ := e2
    cases a with
    | matrix M => exact ha.elim
    | value v =>
      obtain ⟨G, -, rfl, -, -⟩ := ha
      exact ⟨G, st', rfl⟩

end GGCE.Props
