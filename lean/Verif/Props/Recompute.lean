import Verif.Spec.Recompute
import Verif.Props.Interrupt
import Verif.Props.Crew

/-!
Property C114: with a results directory, a point is computed once; whatever was answered is never computed again, neither
by the same program nor by later ones.
-/

set_option linter.unusedSectionVars false

namespace GGCE.Props
open Spec

section serial
variable {R K : Type} [Field R] [LinearOrder R] [FloorRing R] [Field K]
  {raw raw' : Point R → Py (Option K)} {negative negative' : Option K → Bool}

theorem wanted_grid {k w : GridArg R} {eta : R} {ks ws : List R} (hk : floatToList k = .ok ks)
    (hw : floatToList w = .ok ws) :
    (jobList ks ws).map (fun j => (⟨j.1, j.2, eta⟩ : Point R)) = wanted (.grid k w eta) := by
  have points : ∀ {k : GridArg R} {ks}, floatToList k = .ok ks → gridPoints k = some ks := by
    intro k ks h
    cases k with
    | float x => cases h; rfl
    | int n => cases h
    | seq xs => cases h; rfl
  simp [wanted, points hk, points hw, jobList, List.map_flatMap, Function.comp_def]

theorem newPoints_congr {known known' : List PyStr} (h : ∀ c, c ∈ known ↔ c ∈ known') (ps : List (Point R)) :
    newPoints known ps = newPoints known' ps := by
  induction ps generalizing known known' with
  | nil => rfl
  | cons p ps ih =>
    simp only [newPoints, h]
    split
    · exact ih h
    · rw [ih]
      intro c
      simp [h]

/-- the new points of two lists, one after the other -/
theorem newPoints_append (known : List PyStr) (ps qs : List (Point R)) :
    newPoints known (ps ++ qs) = newPoints known ps ++ newPoints (known ++ (newPoints known ps).map cacheKey) qs := by
  induction ps generalizing known with
  | nil => simp [newPoints]
  | cons p ps ih =>
    simp only [List.cons_append, newPoints]
    split
    · exact ih known
    · rw [ih, List.cons_append]
      congr 2
      refine newPoints_congr (fun c => ?_) qs
      simp only [List.map_cons, List.mem_append, List.mem_cons]
      tauto

theorem keys_set (d : Dict PyStr (Option K)) (c : PyStr) (v : Option K) (h : c ∉ d.map Prod.fst) :
    (d.set c v).map Prod.fst = d.map Prod.fst ++ [c] := by
  induction d with
  | nil => rfl
  | cons x d ih =>
    simp only [List.map_cons, List.mem_cons, not_or] at h
    simp only [Dict.set, if_neg (Ne.symm h.1), List.map_cons, ih h.2, List.cons_append]

/-- one call of `solve` -/
theorem solve_new (h : ∀ q ∈ newPoints (R := R) known [p], raw q = raw' q) {d : Dict PyStr (Option K)} {l : List (Point R)}
    (hd : ∀ c, c ∈ known ↔ c ∈ d.map Prod.fst) :
    cachedSolve raw negative ⟨some d, l⟩ p = cachedSolve raw' negative ⟨some d, l⟩ p ∧
    ∃ d' l', (cachedSolve raw negative ⟨some d, l⟩ p).2 = ⟨some d', l'⟩ ∧
      (∀ G, (cachedSolve raw negative ⟨some d, l⟩ p).1 = .ok G →
        d'.map Prod.fst = d.map Prod.fst ++ (newPoints known [p]).map cacheKey) := by
  unfold cachedSolve preSolve
  simp only
  cases hg : d.get? (cacheKey p) with
  | some G =>
    refine ⟨rfl, d, l, rfl, fun _ _ => ?_⟩
    have : cacheKey p ∈ d.map Prod.fst := by
      by_contra hc
      rw [← Dict.get?_eq_none_iff, hg] at hc
      cases hc
    simp [newPoints, (hd _).2 this]
  | none =>
    have hc := (Dict.get?_eq_none_iff d (cacheKey p)).1 hg
    have hn : newPoints known [p] = [p] := by simp [newPoints, mt (hd _).1 hc]
    rw [hn] at h ⊢
    simp only [h p (List.mem_singleton.2 rfl), true_and]
    cases raw' p with
    | error e => exact ⟨d, l, rfl, by simp⟩
    | ok G => exact ⟨_, _, rfl, fun _ _ => by simp [keys_set _ _ _ hc]⟩

/-- the loop of `greens_function` -/
theorem all_new (ps : List (Point R)) {known : List PyStr} (h : ∀ q ∈ newPoints known ps, raw q = raw' q)
    {d : Dict PyStr (Option K)} {l : List (Point R)} (hd : ∀ c, c ∈ known ↔ c ∈ d.map Prod.fst) :
    solveAll raw negative ps ⟨some d, l⟩ = solveAll raw' negative ps ⟨some d, l⟩ ∧
    ∃ d' l', (solveAll raw negative ps ⟨some d, l⟩).2 = ⟨some d', l'⟩ ∧
      (∀ Gs, (solveAll raw negative ps ⟨some d, l⟩).1 = .ok Gs →
        d'.map Prod.fst = d.map Prod.fst ++ (newPoints known ps).map cacheKey) := by
  induction ps generalizing known d l with
  | nil => exact ⟨rfl, d, l, rfl, by simp [newPoints]⟩
  | cons p ps ih =>
    have e := newPoints_append known [p] ps
    rw [List.singleton_append] at e
    rw [e] at h ⊢
    obtain ⟨h1, d1, l1, h2, h3⟩ := solve_new (negative := negative) (l := l)
      (fun q hq => h q (List.mem_append_left _ hq)) hd
    simp only [solveAll]
    rw [← h1]
    generalize cachedSolve raw negative ⟨some d, l⟩ p = r at h2 h3
    obtain ⟨r, s1⟩ := r
    simp only at h2 h3
    subst h2
    cases r with
    | error x => exact ⟨rfl, d1, l1, rfl, by simp⟩
    | ok G =>
      have h3 := h3 G rfl
      obtain ⟨k1, d2, l2, k2, k3⟩ := ih (known := known ++ (newPoints known [p]).map cacheKey)
        (fun q hq => h q (List.mem_append_right _ hq)) (d := d1) (l := l1)
        (fun c => by rw [h3, List.mem_append, List.mem_append, hd])
      simp only
      rw [← k1]
      generalize solveAll raw negative ps ⟨some d1, l1⟩ = t at k2 k3
      obtain ⟨t, s2⟩ := t
      simp only at k2 k3
      subst k2
      cases t with
      | error x => exact ⟨rfl, d2, l2, rfl, by simp⟩
      | ok Gs =>
        refine ⟨rfl, d2, l2, rfl, fun _ _ => ?_⟩
        rw [k3 Gs rfl, h3, List.map_append, List.append_assoc]

/-- one call -/
theorem call_new (c : Call R) {known : List PyStr} (h : ∀ q ∈ newPoints known (wanted c), raw q = raw' q)
    {d : Dict PyStr (Option K)} {l : List (Point R)} (hd : ∀ c, c ∈ known ↔ c ∈ d.map Prod.fst) :
    runCall raw negative c ⟨some d, l⟩ = runCall raw' negative c ⟨some d, l⟩ ∧
    ∃ d' l', (runCall raw negative c ⟨some d, l⟩).2 = ⟨some d', l'⟩ ∧
      (∀ a, (runCall raw negative c ⟨some d, l⟩).1 = .ok a →
        d'.map Prod.fst = d.map Prod.fst ++ (newPoints known (wanted c)).map cacheKey) := by
  cases c with
  | solve p =>
    obtain ⟨h1, d1, l1, h2, h3⟩ := solve_new (negative := negative) (l := l) h hd
    simp only [runCall, ← h1, true_and]
    refine ⟨d1, l1, h2, fun a ha => ?_⟩
    generalize (cachedSolve raw negative ⟨some d, l⟩ p).1 = r at ha h3
    cases r with
    | error e => cases ha
    | ok G => exact h3 G rfl
  | grid k w eta =>
    simp only [runCall]
    cases hk : floatToList k with
    | error e => exact ⟨rfl, d, l, rfl, by simp⟩
    | ok ks =>
      cases hw : floatToList w with
      | error e => exact ⟨rfl, d, l, rfl, by simp⟩
      | ok ws =>
        rw [← wanted_grid hk hw] at h ⊢
        obtain ⟨h1, d1, l1, h2, h3⟩ := all_new (negative := negative) (l := l) _ h hd
        simp only [← h1, true_and]
        refine ⟨d1, l1, h2, fun a ha => ?_⟩
        generalize (solveAll raw negative _ ⟨some d, l⟩).1 = r at ha h3
        cases r with
        | error e => cases ha
        | ok G => exact h3 G rfl

theorem calls_new (cs : List (Call R)) {known : List PyStr}
    (h : ∀ q ∈ newPoints known (cs.flatMap wanted), raw q = raw' q)
    {d : Dict PyStr (Option K)} {l : List (Point R)} (hd : ∀ c, c ∈ known ↔ c ∈ d.map Prod.fst) :
    runCalls raw negative cs ⟨some d, l⟩ = runCalls raw' negative cs ⟨some d, l⟩ ∧
    ((∀ x ∈ (runCalls raw negative cs ⟨some d, l⟩).1, ∃ a, x = .ok a) →
      ∃ d', (runCalls raw negative cs ⟨some d, l⟩).2.dir = some d' ∧
        d'.map Prod.fst = d.map Prod.fst ++ (newPoints known (cs.flatMap wanted)).map cacheKey) := by
  induction cs generalizing known d l with
  | nil => exact ⟨rfl, fun _ => ⟨d, rfl, by simp [newPoints]⟩⟩
  | cons c cs ih =>
    have e := newPoints_append known (wanted c) (cs.flatMap wanted)
    rw [← List.flatMap_cons] at e
    rw [e] at h ⊢
    obtain ⟨h1, d1, l1, h2, h3⟩ := call_new (negative := negative) (l := l) c
      (fun q hq => h q (List.mem_append_left _ hq)) hd
    simp only [runCalls]
    rw [← h1]
    generalize runCall raw negative c ⟨some d, l⟩ = r at h2 h3
    obtain ⟨r, s1⟩ := r
    simp only at h2 h3
    subst h2
    cases r with
    | error x => exact ⟨rfl, fun hx => by simp at hx⟩
    | ok a =>
      have h3 := h3 a rfl
      obtain ⟨k1, k2⟩ := ih (known := known ++ (newPoints known (wanted c)).map cacheKey)
        (fun q hq => h q (List.mem_append_right _ hq)) (d := d1) (l := l1)
        (fun c => by rw [h3, List.mem_append, List.mem_append, hd])
      simp only
      rw [← k1]
      refine ⟨rfl, fun hx => ?_⟩
      obtain ⟨d2, e1, e2⟩ := k2 (fun x hx' => hx x (List.mem_cons_of_mem _ hx'))
      exact ⟨d2, e1, by rw [e2, h3, List.map_append, List.append_assoc]⟩

/-- **C114**, only new points are computed, once each. What calls return and leave on disk depends on the solver only through
the points without a file, and of several points with the same file name only through the first. A solver that gives up,
or gives other numbers, everywhere else makes no difference. -/
theorem C114_only_new (raw raw' : Point R → Py (Option K)) (negative : Option K → Bool) (cs : List (Call R))
    (d : Dict PyStr (Option K)) (l : List (Point R))
    (h : ∀ q ∈ newPoints (d.map Prod.fst) (cs.flatMap wanted), raw q = raw' q) :
    runCalls raw negative cs ⟨some d, l⟩ = runCalls raw' negative cs ⟨some d, l⟩ :=
  (calls_new cs h (fun _ => Iff.rfl)).1

/-- **C114**, one file per computed point: after calls that all returned, the directory holds the files that were there
and one for every new point, in the order of computation. -/
theorem C114_files (raw : Point R → Py (Option K)) (negative : Option K → Bool) (cs : List (Call R))
    (d : Dict PyStr (Option K)) (l : List (Point R))
    (h : ∀ x ∈ (runCalls raw negative cs ⟨some d, l⟩).1, ∃ a, x = .ok a) :
    ∃ d', (runCalls raw negative cs ⟨some d, l⟩).2.dir = some d' ∧
      d'.map Prod.fst = d.map Prod.fst ++ (newPoints (d.map Prod.fst) (cs.flatMap wanted)).map cacheKey :=
  (calls_new (raw' := raw) cs (fun _ _ => rfl) (fun _ => Iff.rfl)).2 h

end serial

/-! ### later programs -/

section later
variable {R K : Type} [Field R] [LinearOrder R] [FloorRing R] [Field K] {raw raw' : Point R → Py (Option K)}

theorem Kept.refl (d : Dict PyStr (File (Option K))) : Kept d d := fun _ _ h => h

theorem Kept.trans {d d' d'' : Dict PyStr (File (Option K))} (h : Kept d d') (h' : Kept d' d'') : Kept d d'' :=
  fun c v hc => h' c v (h c v hc)

/-- the directories of a call: all keep what is there -/
def KeptR (d : Dict PyStr (File (Option K))) (dir : ResultDir (Option K)) : Prop := ∃ d', dir = some d' ∧ Kept d d'

theorem KeptR.trans {d d' : Dict PyStr (File (Option K))} {dir : ResultDir (Option K)} (h : Kept d d') (h' : KeptR d' dir) :
    KeptR d dir := by
  obtain ⟨d'', e, k⟩ := h'
  exact ⟨d'', e, Kept.trans h k⟩

/-- the answer can be read off the files -/
def OnFile (d : Dict PyStr (File (Option K))) (ps : List (Point R)) (vs : List (Option K)) : Prop :=
  List.Forall₂ (fun p v => d.get? (cacheKey p) = some (.full v)) ps vs

theorem OnFile.mono {d d' : Dict PyStr (File (Option K))} (h : Kept d d') {ps : List (Point R)} {vs : List (Option K)}
    (h' : OnFile d ps vs) : OnFile d' ps vs := h'.imp (fun _ _ e => h _ _ e)

theorem solve_kept (d : Dict PyStr (File (Option K))) (p : Point R) :
    ∃ d', (solveSteps raw (some d) p).dir = some d' ∧ Kept d d' ∧ (∀ x ∈ (solveSteps raw (some d) p).states, KeptR d x) ∧
      ∀ v, (solveSteps raw (some d) p).result = .ok v → d'.get? (cacheKey p) = some (.full v) := by
  unfold solveSteps preRead
  simp only
  cases hg : d.get? (cacheKey p) with
  | some f =>
    cases f with
    | full G => exact ⟨d, rfl, Kept.refl d, by simp, fun v hv => by cases hv; exact hg⟩
    | torn => exact ⟨d, rfl, Kept.refl d, by simp, fun v hv => by cases hv⟩
  | none =>
    have hk : ∀ f, Kept d (d.set (cacheKey p) f) := by
      intro f c v hc
      rw [Dict.get?_set, if_neg]
      · exact hc
      · rintro rfl; rw [hg] at hc; cases hc
    simp only
    cases raw p with
    | error e => exact ⟨d, rfl, Kept.refl d, by simp, fun v hv => by cases hv⟩
    | ok G =>
      refine ⟨_, rfl, hk _, ?_, fun v hv => ?_⟩
      · intro x hx
        simp only [List.mem_cons, List.not_mem_nil, or_false, Option.map_some] at hx
        rcases hx with rfl | rfl
        · exact ⟨_, rfl, hk _⟩
        · exact ⟨_, rfl, hk _⟩
      · cases hv
        rw [Dict.get?_set, if_pos rfl]

theorem all_kept (ps : List (Point R)) (d : Dict PyStr (File (Option K))) :
    ∃ d', (solveAllSteps raw ps (some d)).dir = some d' ∧ Kept d d' ∧
      (∀ x ∈ (solveAllSteps raw ps (some d)).states, KeptR d x) ∧
      ∀ vs, (solveAllSteps raw ps (some d)).result = .ok vs → OnFile d' ps vs := by
  induction ps generalizing d with
  | nil => exact ⟨d, rfl, Kept.refl d, by simp [solveAllSteps], fun vs hv => by cases hv; exact .nil⟩
  | cons p ps ih =>
    obtain ⟨d1, a1, a2, a3, a4⟩ := solve_kept (raw := raw) d p
    simp only [solveAllSteps]
    generalize solveSteps raw (some d) p = x at a1 a3 a4
    obtain ⟨r, dir, sts⟩ := x
    simp only at a1 a3 a4 ⊢
    subst a1
    cases r with
    | error e => exact ⟨d1, rfl, a2, a3, fun vs hv => by cases hv⟩
    | ok G =>
      obtain ⟨d2, b1, b2, b3, b4⟩ := ih d1
      refine ⟨d2, b1, Kept.trans a2 b2, ?_, fun vs hv => ?_⟩
      · intro x hx
        rcases List.mem_append.1 hx with hx | hx
        · exact a3 x hx
        · exact KeptR.trans a2 (b3 x hx)
      · simp only at hv
        cases hr : (solveAllSteps raw ps (some d1)).result with
        | error e => rw [hr] at hv; cases hv
        | ok Gs =>
          rw [hr] at hv
          cases hv
          exact .cons (b2 _ _ (a4 G rfl)) (b4 Gs hr)

/-- the answer `a` of the call can be read off the files -/
def Filed (d : Dict PyStr (File (Option K))) (c : Call R) (a : Answer K) : Prop :=
  ∃ vs, OnFile d (wanted c) vs ∧ match c with
    | .solve _ => ∃ v, vs = [v] ∧ a = .value v
    | .grid k w _ => ∃ ks ws M, floatToList k = .ok ks ∧ floatToList w = .ok ws ∧
        reshapeGrid vs ks.length ws.length = .ok M ∧ a = .matrix M

theorem Filed.mono {d d' : Dict PyStr (File (Option K))} (h : Kept d d') {c : Call R} {a : Answer K} (hf : Filed d c a) :
    Filed d' c a := by
  obtain ⟨vs, h1, h2⟩ := hf
  exact ⟨vs, h1.mono h, h2⟩

theorem call_kept (c : Call R) (d : Dict PyStr (File (Option K))) :
    ∃ d', (callSteps raw c (some d)).dir = some d' ∧ Kept d d' ∧
      (∀ x ∈ (callSteps raw c (some d)).states, KeptR d x) ∧
      ∀ a, (callSteps raw c (some d)).result = .ok a → Filed d' c a := by
  cases c with
  | solve p =>
    obtain ⟨d1, a1, a2, a3, a4⟩ := solve_kept (raw := raw) d p
    refine ⟨d1, a1, a2, a3, fun a ha => ?_⟩
    simp only [callSteps] at ha
    cases hr : (solveSteps raw (some d) p).result with
    | error e => rw [hr] at ha; cases ha
    | ok v =>
      rw [hr] at ha
      cases ha
      exact ⟨[v], .cons (a4 v hr) .nil, v, rfl, rfl⟩
  | grid k w eta =>
    simp only [callSteps]
    cases hk : floatToList k with
    | error e => exact ⟨d, rfl, Kept.refl d, by simp, fun a ha => by cases ha⟩
    | ok ks =>
      cases hw : floatToList w with
      | error e => exact ⟨d, rfl, Kept.refl d, by simp, fun a ha => by cases ha⟩
      | ok ws =>
        obtain ⟨d1, a1, a2, a3, a4⟩ := all_kept (raw := raw) ((jobList ks ws).map (fun j => (⟨j.1, j.2, eta⟩ : Point R))) d
        refine ⟨d1, a1, a2, a3, fun a ha => ?_⟩
        simp only at ha
        generalize (solveAllSteps raw ((jobList ks ws).map (fun j => (⟨j.1, j.2, eta⟩ : Point R))) (some d)).result = r at a4 ha
        cases r with
        | error e => cases ha
        | ok vs =>
          simp only [Except.bind] at ha
          cases hM : reshapeGrid vs ks.length ws.length with
          | error e => rw [hM] at ha; cases ha
          | ok M =>
            rw [hM] at ha
            cases ha
            refine ⟨vs, ?_, ks, ws, M, hk, hw, hM, rfl⟩
            rw [← wanted_grid hk hw]
            exact a4 vs rfl

/-- a call whose answer is on file: no step, no use of the solver -/
theorem solve_filed {d : Dict PyStr (File (Option K))} {p : Point R} {v : Option K} (h : d.get? (cacheKey p) = some (.full v)) :
    solveSteps raw (some d) p = ⟨.ok v, some d, []⟩ := by
  simp [solveSteps, preRead, h]

theorem all_filed {d : Dict PyStr (File (Option K))} {ps : List (Point R)} {vs : List (Option K)} (h : OnFile d ps vs) :
    solveAllSteps raw ps (some d) = ⟨.ok vs, some d, []⟩ := by
  induction h with
  | nil => rfl
  | cons h1 h2 ih => simp [solveAllSteps, solve_filed h1, ih, Except.map]

theorem call_filed {d : Dict PyStr (File (Option K))} {c : Call R} {a : Answer K} (h : Filed d c a) :
    callSteps raw c (some d) = ⟨.ok a, some d, []⟩ := by
  obtain ⟨vs, h1, h2⟩ := h
  cases c with
  | solve p =>
    obtain ⟨v, rfl, rfl⟩ := h2
    simp only [wanted, OnFile, List.forall₂_cons] at h1
    simp [callSteps, solve_filed h1.1, Except.map]
  | grid k w eta =>
    obtain ⟨ks, ws, M, hk, hw, hM, rfl⟩ := h2
    rw [← wanted_grid hk hw] at h1
    simp [callSteps, hk, hw, all_filed h1, Except.bind, hM, Except.map]

/-- what was answered is on file, at every moment of the calls -/
theorem calls_filed (cs : List (Call R)) (done : List (Py (Answer K))) (d : Dict PyStr (File (Option K)))
    (before : List (Call R)) (hl : before.length = done.length)
    (hb : ∀ (j : Nat) c a, before[j]? = some c → done[j]? = some (.ok a) → Filed d c a) :
    ∀ x ∈ callsLife raw cs done (some d), ∃ d', x.2 = some d' ∧ Kept d d' ∧
      ∀ (j : Nat) c a, (before ++ cs)[j]? = some c → x.1[j]? = some (.ok a) → Filed d' c a := by
  induction cs generalizing done d before with
  | nil => simp [callsLife]
  | cons c cs ih =>
    intro x hx
    obtain ⟨d1, a1, a2, a3, a4⟩ := call_kept (raw := raw) c d
    simp only [callsLife, List.mem_append, List.mem_cons, List.mem_map] at hx
    have old : ∀ (dir : ResultDir (Option K)), KeptR d dir → ∃ d', dir = some d' ∧ Kept d d' ∧
        ∀ (j : Nat) c' a, (before ++ c :: cs)[j]? = some c' → done[j]? = some (.ok a) → Filed d' c' a := by
      rintro dir ⟨d', e, k⟩
      refine ⟨d', e, k, fun j c' a h1 h2 => ?_⟩
      have hj : j < before.length := by
        rw [hl]
        by_contra hj
        rw [List.getElem?_eq_none (by omega)] at h2
        cases h2
      rw [List.getElem?_append_left hj] at h1
      exact (hb j c' a h1 h2).mono k
    have new : ∀ (j : Nat) c' a, (before ++ [c])[j]? = some c' → (done ++ [(callSteps raw c (some d)).result])[j]? = some (.ok a) →
        Filed d1 c' a := by
      intro j c' a h1 h2
      by_cases hj : j < before.length
      · rw [List.getElem?_append_left hj] at h1
        rw [List.getElem?_append_left (by omega)] at h2
        exact (hb j c' a h1 h2).mono a2
      · have hj' : j = before.length := by
          by_contra hne
          rw [List.getElem?_eq_none (by simp; omega)] at h1
          cases h1
        subst hj'
        rw [List.getElem?_append_right (le_refl _)] at h1
        rw [hl, List.getElem?_append_right (le_refl _)] at h2
        simp only [Nat.sub_self, List.getElem?_cons_zero, Option.some.injEq] at h1 h2
        subst h1
        exact a4 a h2
    rcases hx with ⟨dir, hd, rfl⟩ | rfl | hx
    · exact old dir (a3 dir hd)
    · refine ⟨d1, a1, a2, fun j c' a h1 h2 => new j c' a ?_ h2⟩
      have hj : j < before.length + 1 := by
        by_contra hj
        simp only at h2
        rw [List.getElem?_eq_none (by simp; omega)] at h2
        cases h2
      rw [List.append_cons, List.getElem?_append_left (by simpa using hj)] at h1
      exact h1
    · cases hr : (callSteps raw c (some d)).result with
      | error e => rw [hr] at hx; cases hx
      | ok a =>
        rw [hr] at hx new
        simp only at hx
        rw [a1] at hx
        obtain ⟨d', e1, e2, e3⟩ := ih (done ++ [.ok a]) d1 (before ++ [c]) (by simp [hl]) new x hx
        refine ⟨d', e1, Kept.trans a2 e2, fun j c' a' h1 h2 => e3 j c' a' ?_ h2⟩
        rw [List.append_cons] at h1
        exact h1

theorem calls_read (cs : List (Call R)) (done : List (Py (Answer K))) (d : Dict PyStr (File (Option K))) (as : List (Answer K))
    (h : List.Forall₂ (Filed d) cs as) :
    ((done, some d) :: callsLife raw cs done (some d)).getLast? = some (done ++ as.map .ok, some d) ∧
      ∀ x ∈ callsLife raw cs done (some d), x.2 = some d := by
  induction h generalizing done with
  | nil => simp [callsLife]
  | cons h1 h2 ih =>
    rename_i c a cs as
    obtain ⟨k1, k2⟩ := ih (done ++ [.ok a])
    simp only [callsLife, call_filed h1, List.map_nil, List.nil_append]
    refine ⟨?_, ?_⟩
    · rw [List.getLast?_cons_cons, k1]
      simp
    · intro x hx
      rcases List.mem_cons.1 hx with rfl | hx
      · rfl
      · exact k2 x hx

end later

/-- what a program that used the results directory `r` has answered can be read off it -/
theorem life_filed (F : Phys ℝ ℂ) (m : Model ℝ) (s : Script ℝ ℂ) (st st' : Store ℝ ℂ) (out : List (Py (Answer ℂ)))
    (hx : (out, st') ∈ s.life F m st) (r : String) (hr : s.source.solverRoot = some r) :
    Kept (st.results r) (st'.results r) ∧
      ∀ (j : Nat) c a, s.calls[j]? = some c → out[j]? = some (.ok a) → Filed (st'.results r) c a := by
  simp only [Script.life, List.mem_cons, List.mem_append, List.mem_map, Prod.mk.injEq] at hx
  rcases hx with ⟨rfl, rfl⟩ | ⟨fs, hfs, rfl, rfl⟩ | hx
  · exact ⟨Kept.refl _, fun j c a _ h2 => by simp at h2⟩
  · exact ⟨Kept.refl _, fun j c a _ h2 => by simp at h2⟩
  · cases hc : (s.construct m st.fs).result with
    | error e =>
      rw [hc] at hx
      simp only [List.mem_singleton, Prod.mk.injEq] at hx
      obtain ⟨rfl, rfl⟩ := hx
      refine ⟨Kept.refl _, fun j c a _ h2 => ?_⟩
      cases j <;> simp at h2
    | ok o =>
      rw [hc] at hx
      simp only [hr, Option.map_some, List.mem_cons, List.mem_map, Prod.mk.injEq] at hx
      rcases hx with ⟨rfl, rfl⟩ | ⟨x, hx, rfl, rfl⟩
      · exact ⟨Kept.refl _, fun j c a _ h2 => by simp at h2⟩
      · obtain ⟨d', e1, e2, e3⟩ := calls_filed s.calls [] (st.results r) [] rfl (by simp) x hx
        simp only [Store.putResults, e1, if_true]
        exact ⟨e2, e3⟩

/-- **C114**, nothing is computed twice, even by different programs. A program (perhaps killed, perhaps ended by an
exception) has answered some calls. A later program asks for some of these again: with the same root, on a disk where the
complete result files are still there. Whatever its model, its linear solver, its class of solver and its functions for
the coefficients, it gives the same answers, and it writes no result file. In particular it does not need the linear
solver: that may be one that always raises. -/
theorem C114_repeat (F F' : Phys ℝ ℂ) (m m' : Model ℝ) (s s' : Script ℝ ℂ) (st st' st2 : Store ℝ ℂ)
    (out : List (Py (Answer ℂ))) (hx : (out, st') ∈ s.life F m st) (r : String) (hr : s.source.solverRoot = some r)
    (hr' : s'.source.solverRoot = some r) (hk : Kept (st'.results r) (st2.results r))
    (ho : ∃ o, (s'.construct m' st2.fs).result = .ok o)
    (ha : ∀ c ∈ s'.calls, ∃ (j : Nat) (a : Answer ℂ), s.calls[j]? = some c ∧ out[j]? = some (.ok a)) :
    ∃ out' st3, (s'.life F' m' st2).getLast? = some (out', st3) ∧
      List.Forall₂ (fun c (x : Py (Answer ℂ)) => ∃ (j : Nat) (a : Answer ℂ), s.calls[j]? = some c ∧ out[j]? = some (.ok a) ∧ x = .ok a) s'.calls out' ∧
      ∀ x ∈ s'.life F' m' st2, x.2.results = st2.results := by
  obtain ⟨o, ho⟩ := ho
  obtain ⟨-, hf⟩ := life_filed F m s st st' out hx r hr
  have key : ∀ cs : List (Call ℝ), (∀ c ∈ cs, ∃ (j : Nat) (a : Answer ℂ), s.calls[j]? = some c ∧ out[j]? = some (.ok a)) →
      ∃ as : List (Answer ℂ), List.Forall₂ (Filed (st2.results r)) cs as ∧
        List.Forall₂ (fun c (x : Py (Answer ℂ)) => ∃ (j : Nat) (a : Answer ℂ), s.calls[j]? = some c ∧ out[j]? = some (.ok a) ∧ x = .ok a) cs
          (as.map Except.ok) := by
    intro cs hcs
    induction cs with
    | nil => exact ⟨[], .nil, .nil⟩
    | cons c cs ih =>
      obtain ⟨as, i1, i2⟩ := ih (fun c hc => hcs c (List.mem_cons_of_mem _ hc))
      obtain ⟨j, a, h1, h2⟩ := hcs c List.mem_cons_self
      exact ⟨a :: as, .cons ((hf j c a h1 h2).mono hk) i1, .cons ⟨j, a, h1, h2, rfl⟩ i2⟩
  obtain ⟨as, k1, k2⟩ := key s'.calls ha
  obtain ⟨b1, b2⟩ := calls_read (raw := o.raw F') s'.calls [] (st2.results r) as k1
  have put : ∀ fs, Store.putResults ({ st2 with fs := fs } : Store ℝ ℂ) (some r) (some (st2.results r)) = { st2 with fs := fs } := by
    intro fs
    simp only [Store.putResults, Store.mk.injEq, true_and]
    funext q
    split
    · rename_i h; rw [h]
    · rfl
  refine ⟨as.map .ok, { st2 with fs := (s'.construct m' st2.fs).fs }, ?_, k2, ?_⟩
  · unfold Script.life
    simp only [ho, hr', Option.map_some]
    rw [List.getLast?_cons, List.getLast?_append]
    have e := congrArg (Option.map (fun x : List (Py (Answer ℂ)) × ResultDir (Option ℂ) =>
      (x.1, Store.putResults { st2 with fs := (s'.construct m' st2.fs).fs } (some r) x.2))) b1
    rw [← List.getLast?_map, List.map_cons] at e
    simp only [put, List.nil_append, Option.map_some] at e
    rw [e]
    rfl
  · intro x hx
    simp only [Script.life, ho, hr', Option.map_some, List.mem_cons, List.mem_append, List.mem_map] at hx
    rcases hx with rfl | ⟨fs, -, rfl⟩ | rfl | ⟨y, hy, rfl⟩
    · rfl
    · rfl
    · rfl
    · simp only [b2 y hy, put]

/-! ### brigades -/

section brigades
variable {R V : Type} [Field R] [LinearOrder R] [IsStrictOrderedRing R] [FloorRing R]

/-- **C114**, brigades of the `MassSolver`: if every job has a complete result file, then in every interleaving no rank ever
enters the collective part (so no matrix is set up and no linear system solved, whatever `P.solve`), no file changes, no
rank fails, every rank reads the stored numbers, and something can move until all have finished. Jobs may share files. -/
theorem C114_brigades (P : Crew.Plan R V) (d : Dict PyStr (Option V)) (f : Point R → V)
    (hd : ∀ j < P.brigades, ∀ p ∈ P.jobs j, d.get? (cacheKey p) = some (some (f p)))
    (c : Crew.World V) (hc : Crew.Steps P (Crew.World.start (some d)) c) :
    c.files = some d ∧
    (∀ j < P.brigades, ∀ r < P.size, (c.ranks j r).failed = false ∧ (c.ranks j r).phase = .idle ∧
      (c.ranks j r).done = ((P.jobs j).take (c.ranks j r).pos).map f) ∧
    (¬ Crew.Final P c → ∃ c', Crew.Step P c c') := by
  have inv : c.files = some d ∧ ∀ j < P.brigades, ∀ r < P.size, (c.ranks j r).failed = false ∧ (c.ranks j r).phase = .idle ∧
      (c.ranks j r).pos ≤ (P.jobs j).length ∧ (c.ranks j r).done = ((P.jobs j).take (c.ranks j r).pos).map f := by
    induction hc with
    | refl => exact ⟨rfl, fun j _ r _ => ⟨rfl, rfl, Nat.zero_le _, by simp [Crew.World.start]⟩⟩
    | tail h1 h2 ih =>
      obtain ⟨i1, i2⟩ := ih
      cases h2 with
      | hit j r p G hj hr hf hp ht hg =>
        refine ⟨i1, fun j' hj' r' hr' => ?_⟩
        simp only [Crew.World.setRank]
        split
        · rename_i h
          obtain ⟨rfl, rfl⟩ := h
          obtain ⟨-, -, -, k4⟩ := i2 j' hj r' hr
          simp only [Crew.World.look, i1, Option.bind_some, hd j' hj p (List.mem_of_getElem? ht), Option.some.injEq] at hg
          obtain ⟨hlt, hp'⟩ := List.getElem?_eq_some_iff.1 ht
          refine ⟨hf, rfl, hlt, ?_⟩
          simp only [Crew.Rank.next, k4, List.take_succ, ht, Option.toList_some, List.map_append, List.map_cons, List.map_nil, hg]
        · exact i2 j' hj' r' hr'
      | eof j r p hj hr hf hp ht hg =>
        simp only [Crew.World.look, i1, Option.bind_some, hd j hj p (List.mem_of_getElem? ht)] at hg
        cases hg
      | enter j r p hj hr hf hp ht hg =>
        simp only [Crew.World.look, i1, Option.bind_some, hd j hj p (List.mem_of_getElem? ht)] at hg
        cases hg
      | meet j ps G hj hall hlen hps hs =>
        refine ⟨i1, fun j' hj' r' hr' => ?_⟩
        have := (hall r' hr').2
        rw [(i2 j hj r' hr').2.1] at this
        cases this
      | crash j ps e hj hall hlen hps hs =>
        refine ⟨i1, fun j' hj' r' hr' => ?_⟩
        have := (hall r' hr').2
        rw [(i2 j hj r' hr').2.1] at this
        cases this
      | skip j r G hj hr hf hp hd' => rw [(i2 j hj r hr).2.1] at hp; cases hp
      | «open» j r p G d' hj hr hf hp ht hd' => rw [(i2 j hj r hr).2.1] at hp; cases hp
      | write j r p G d' hj hr hf hp ht hd' => rw [(i2 j hj r hr).2.1] at hp; cases hp
  refine ⟨inv.1, fun j hj r hr => ⟨(inv.2 j hj r hr).1, (inv.2 j hj r hr).2.1, (inv.2 j hj r hr).2.2.2⟩, fun hfin => ?_⟩
  simp only [Crew.Final, not_forall] at hfin
  obtain ⟨j, hj, r, hr, h⟩ := hfin
  obtain ⟨k1, k2, k3, k4⟩ := inv.2 j hj r hr
  have hlt : (c.ranks j r).pos < (P.jobs j).length := lt_of_le_of_ne k3 (fun e => h ⟨k1, k2, e⟩)
  have ht := List.getElem?_eq_getElem hlt
  refine ⟨_, .hit c j r _ (f (P.jobs j)[(c.ranks j r).pos]) hj hr k1 k2 ht ?_⟩
  simp only [Crew.World.look, inv.1, Option.bind_some, hd j hj _ (List.mem_of_getElem? ht)]

end brigades

/-! ### the hypotheses are met -/

/-- A linear solver that always raises. -/
def broken : LinSys ℂ → Py (ℕ → ℂ) := fun _ => .error .linAlgError

/-- A Holstein–Peierls model: a sparse solver computes a point and a grid that contains a point with the same ten decimals;
three numbers are asked for and two files written. Then a program whose linear solver always raises asks for the grid
again, in the same directory: it prints the grid. Without the first program it ends with
an exception. -/
example (o1 o2 : SetOrder) : ∃ (m : Model ℝ) (sp : LinSys ℂ → Py (ℕ → ℂ)) (G1 G2 : ℂ) (st : Store ℝ ℂ),
    (Model.fromParameters (1 : ℝ) 1 0 none 1).adds realPrims exCalls = .ok m ∧
    let first : Script ℝ ℂ := ⟨o1, .sparse sp, .fresh (some "a") 1000000 (some "a"),
      [.solve ⟨0, 0, 1⟩, .grid (.float 0) (.seq [1 / 10 ^ 11, 1]) 1]⟩
    let again : Script ℝ ℂ := ⟨o2, .sparse broken, .fresh (some "a") 1000000 (some "a"), [.grid (.float 0) (.seq [1 / 10 ^ 11, 1]) 1]⟩
    (first.life realPhys m ⟨fun _ => none, fun _ => []⟩).getLast? =
      some ([.ok (.value (some G1)), .ok (.matrix [[some G1, some G2]])], st) ∧
    (∃ st', (again.life realPhys m st).getLast? = some ([.ok (.matrix [[some G1, some G2]])], st')) ∧
    (∃ st', (again.life realPhys m ⟨fun _ => none, fun _ => []⟩).getLast? = some ([.error .linAlgError], st')) := by
  obtain ⟨h1, h2, h3⟩ := exCalls_clean
  obtain ⟨m, b, k1, ⟨ae, hm⟩, -⟩ := C16_assembled o1 realPrims C42_names 1 1 0 none (by simp) exCalls (by simp [exCalls])
    h1 h2 (Or.inr h3)
  have hp := physical_assembled k1 (Or.inr h3) (Or.inr ⟨one_pos, rfl⟩)
  obtain ⟨sp, hsp⟩ := exists_exact ℂ
  obtain ⟨g1, -⟩ := empty_good (own := fun _ => m) (ext := fun _ => ae)
    (mach := ⟨fun _ => none, fun _ => []⟩) ⟨fun _ => rfl, fun _ => rfl⟩
  set first : Script ℝ ℂ := ⟨o1, .sparse sp, .fresh (some "a") 1000000 (some "a"),
    [.solve ⟨0, 0, 1⟩, .grid (.float 0) (.seq [1 / 10 ^ 11, 1]) 1]⟩ with hs1
  set again : Script ℝ ℂ := ⟨o2, .sparse broken, .fresh (some "a") 1000000 (some "a"),
    [.grid (.float 0) (.seq [1 / 10 ^ 11, 1]) 1]⟩ with hs2
  set st0 : Store ℝ ℂ := ⟨fun _ => none, fun _ => []⟩ with hst0
  obtain ⟨o, c1, ho, -⟩ := construct_good (builds hm) first (known := (· ∈ ([] : List String)))
    (fun r hr => by cases hr) (fun _ _ => rfl) g1
  obtain ⟨o', c2, ho', -⟩ := construct_good (builds hm) again (known := (· ∈ ([] : List String)))
    (fun r hr => by cases hr) (fun _ _ => rfl) g1
  obtain ⟨G1, r1, -⟩ := raw_exact hm hp (show KindExact first.kind from hsp) ho ⟨0, 0, 1⟩ one_pos
  obtain ⟨G2, r2, -⟩ := raw_exact hm hp (show KindExact first.kind from hsp) ho ⟨0, 1, 1⟩ one_pos
  have hkey : cacheKey (⟨0, 1 / 10 ^ 11, 1⟩ : Point ℝ) = cacheKey (⟨0, 0, 1⟩ : Point ℝ) := by
    rw [cacheKey_eq_iff]
    refine ⟨by simp, ⟨by norm_num, ?_⟩, by simp⟩
    rw [round10_small 0 (by norm_num), round10_small (1 / 10 ^ 11) (by rw [abs_of_pos (by positivity)]; norm_num)]
  have hkey' : cacheKey (⟨0, (10 ^ 11)⁻¹, 1⟩ : Point ℝ) = cacheKey (⟨0, 0, 1⟩ : Point ℝ) := by
    rw [← one_div]; exact hkey
  have hne : cacheKey (⟨0, 0, 1⟩ : Point ℝ) ≠ cacheKey (⟨0, 1, 1⟩ : Point ℝ) := by
    rw [Ne, cacheKey_eq_iff]
    rintro ⟨-, ⟨-, h⟩, -⟩
    have e : round10 (1 : ℝ) = 10 ^ 10 := by
      have := roundHalfEven_nat (R := ℝ) (10 ^ 10)
      unfold round10
      rw [abs_one, one_mul, ← this, Nat.cast_pow, Nat.cast_ofNat]
    rw [round10_small 0 (by norm_num), e] at h
    norm_num at h
  have hlast : ∃ st, (first.life realPhys m st0).getLast? =
      some ([.ok (.value (some G1)), .ok (.matrix [[some G1, some G2]])], st) := by
    rw [life_last (o := o) c1]
    simp [hs1, callsLife, callSteps, solveAllSteps, solveSteps, preRead, Source.solverRoot, Dict.get?, Dict.set, r1, r2, hst0,
      floatToList, jobList, hkey', hne, Except.map, Except.bind, reshapeGrid]
  obtain ⟨st, hst⟩ := hlast
  refine ⟨m, sp, G1, G2, st, k1, hst, ?_, ?_⟩
  · obtain ⟨out', st3, e1, e2, -⟩ := C114_repeat realPhys realPhys m m first again st0 st st _ (List.mem_of_getLast? hst) "a" rfl rfl
      (Kept.refl _) ⟨o', construct_blind (s := again) rfl _ _ c2⟩ (by
        intro c hc
        rw [List.mem_singleton.1 hc]
        exact ⟨1, _, rfl, rfl⟩)
    rw [e1]
    simp only [hs2, List.forall₂_cons_left_iff, List.forall₂_nil_left_iff] at e2
    obtain ⟨_, _, ⟨j, a, f1, f2, rfl⟩, rfl, rfl⟩ := e2
    refine ⟨st3, ?_⟩
    match j, f1, f2 with
    | 1, _, f2 => simp only [List.getElem?_cons_succ, List.getElem?_cons_zero, Option.some.injEq] at f2; rw [f2]
  · have hr : o'.raw realPhys ⟨0, 1 / 10 ^ 11, 1⟩ = .error .linAlgError := by
      cases o' with
      | dense s basis => exact absurd ho'.1 (by simp [hs2])
      | sparse s basis sp' =>
        obtain ⟨e1, e2, e3⟩ := ho'
        cases e1
        obtain ⟨G, r, -⟩ := raw_exact (o := .sparse s basis sp) hm hp (show KindExact (.sparse sp) from hsp) ⟨rfl, e2, e3⟩
          ⟨0, 1 / 10 ^ 11, 1⟩ one_pos
        simp only [SolverObj.raw] at r ⊢
        cases he : s.eqs with
        | none => rw [he] at r; cases r
        | some e =>
          rw [he] at r
          simp only [sparseSolve] at r ⊢
          cases hsc : scaffold realPhys s.model ⟨0, 1 / 10 ^ 11, 1⟩ basis e with
          | error x => rw [hsc] at r; cases r
          | ok ls => rfl
    rw [life_last (o := o') c2]
    rw [one_div] at hr
    simp [hs2, callsLife, callSteps, solveAllSteps, solveSteps, preRead, Source.solverRoot, Dict.get?, hr, hst0,
      floatToList, jobList, Except.bind]

/-- Four points are asked for, one of them on file, two with the same ten decimals: two are new. -/
example : (newPoints (R := ℚ) [cacheKey (R := ℚ) ⟨0, 1 / 2, 1⟩]
    ([Call.grid (.float 0) (.seq [0, 1 / 2, 1 / 10 ^ 11]) 1, Call.solve ⟨1, 0, 1⟩].flatMap wanted)).map
      (fun p => (p.k, p.w, p.eta)) = [(0, 0, 1), (1, 0, 1)] := by
  decide +kernel

/-- Two brigades of two ranks, all jobs on file, two of them sharing a file. -/
example (solve : List (Point ℚ) → Py ℚ) :
    let P : Crew.Plan ℚ ℚ := ⟨2, 2, fun j => if j = 0 then [⟨0, 0, 1⟩, ⟨0, 1 / 10 ^ 11, 1⟩] else [⟨1, 0, 1⟩], solve⟩
    ∃ (d : Dict PyStr (Option ℚ)) (f : Point ℚ → ℚ), ∀ j < P.brigades, ∀ p ∈ P.jobs j, d.get? (cacheKey p) = some (some (f p)) := by
  refine ⟨[(cacheKey (R := ℚ) ⟨0, 0, 1⟩, some 5), (cacheKey (R := ℚ) ⟨1, 0, 1⟩, some 7)], fun p => if p.k = 0 then 5 else 7, ?_⟩
  intro j hj p hp
  have hj : j = 0 ∨ j = 1 := by simp only at hj; omega
  rcases hj with rfl | rfl
  · simp only [if_true, List.mem_cons, List.not_mem_nil, or_false] at hp
    rcases hp with rfl | rfl <;> decide +kernel
  · simp only [one_ne_zero, if_false, List.mem_cons, List.not_mem_nil, or_false] at hp
    subst hp
    decide +kernel

end GGCE.Props
