import Verif.Proofs.Cache
import Verif.Proofs.Shared
import Verif.Props.Grid
import Verif.Props.Free
import Verif.Props.Spectral

/-!
Properties C31, C32 and the concurrent part of C26: the results directory of the solvers.
-/

set_option linter.unusedSectionVars false

namespace GGCE.Props
open Spec Dict

variable {R V : Type} [Field R] [LinearOrder R] [IsStrictOrderedRing R] [FloorRing R]

/-! ### File names -/

/-- The file name of a result determines the three coordinates rounded to multiples of `1e-10` and their
signs, and nothing more. -/
theorem C31_key_iff (p q : Point R) : cacheKey p = cacheKey q ↔
    ((p.k < 0 ↔ q.k < 0) ∧ round10 p.k = round10 q.k) ∧ ((p.w < 0 ↔ q.w < 0) ∧ round10 p.w = round10 q.w) ∧
      ((p.eta < 0 ↔ q.eta < 0) ∧ round10 p.eta = round10 q.eta) := cacheKey_eq_iff

/-- The rounding in C31_key_iff: to the nearest integer, from the middle between two integers to the even one. -/
theorem C31_rounding (x : R) (n : ℕ) : round10 x = n ↔
    |2 * (|x| * 10 ^ 10) - 2 * n| < 1 ∨ (|2 * (|x| * 10 ^ 10) - 2 * n| = 1 ∧ Even n) := by
  unfold round10
  have h0 : 0 ≤ |x| * 10 ^ 10 := by positivity
  generalize |x| * 10 ^ 10 = y at h0
  have one : |2 * y - 2 * (roundHalfEven y : ℕ)| < 1 ∨ (|2 * y - 2 * (roundHalfEven y : ℕ)| = 1 ∧ Even (roundHalfEven y)) := by
    obtain ⟨f, hf⟩ := Int.eq_ofNat_of_zero_le (Int.floor_nonneg.2 h0)
    have hfl := Int.floor_le y
    have hfl' := Int.lt_floor_add_one y
    unfold roundHalfEven
    rw [hf] at hfl hfl' ⊢
    simp only [Int.toNat_natCast, Int.cast_natCast] at *
    split
    · rename_i h
      left
      rw [abs_lt]
      constructor <;> linarith
    · rename_i h
      push Not at h
      split
      · rename_i h2
        left
        rw [abs_lt]
        push_cast
        constructor <;> linarith
      · rename_i h2
        push Not at h2
        have hy : y - f = 1 / 2 := le_antisymm h2 h
        right
        split
        · rename_i h3
          refine ⟨?_, Nat.even_iff.2 h3⟩
          rw [show 2 * y - 2 * (f : R) = 1 by linarith, abs_one]
        · rename_i h3
          refine ⟨?_, Nat.even_iff.2 (by omega)⟩
          push_cast
          rw [show 2 * y - 2 * ((f : R) + 1) = -1 by linarith, abs_neg, abs_one]
  constructor
  · rintro rfl
    exact one
  · intro hn
    generalize roundHalfEven y = k at one
    have le1 : ∀ j : ℕ, (|2 * y - 2 * j| < 1 ∨ (|2 * y - 2 * j| = 1 ∧ Even j)) → |2 * y - 2 * j| ≤ 1 :=
      fun j h => h.elim le_of_lt (fun h => le_of_eq h.1)
    have a1 := abs_le.1 (le1 k one)
    have a2 := abs_le.1 (le1 n hn)
    have b1 : k ≤ n + 1 := by
      have : (k : R) ≤ ((n + 1 : ℕ) : R) := by push_cast; linarith
      exact_mod_cast this
    have b2 : n ≤ k + 1 := by
      have : (n : R) ≤ ((k + 1 : ℕ) : R) := by push_cast; linarith
      exact_mod_cast this
    by_contra hne
    have both : Even k ∧ Even n := by
      rcases (by omega : k = n + 1 ∨ n = k + 1) with rfl | rfl
      · push_cast at a1
        have e1 : 2 * y - 2 * (n : R) = 1 := by linarith
        refine ⟨?_, ?_⟩
        · rcases one with h | h
          · push_cast at h; rw [abs_lt] at h; linarith
          · exact h.2
        · rcases hn with h | h
          · rw [abs_lt] at h; linarith
          · exact h.2
      · push_cast at a2
        have e1 : 2 * y - 2 * (k : R) = 1 := by linarith
        refine ⟨?_, ?_⟩
        · rcases one with h | h
          · rw [abs_lt] at h; linarith
          · exact h.2
        · rcases hn with h | h
          · push_cast at h; rw [abs_lt] at h; linarith
          · exact h.2
    rw [Nat.even_iff, Nat.even_iff] at both
    omega

/-- half a unit is rounded to the even neighbour -/
example : round10 (5 / 10 ^ 11 : ℚ) = 0 ∧ round10 (15 / 10 ^ 11 : ℚ) = 2 ∧ round10 (25 / 10 ^ 11 : ℚ) = 2 := by
  refine ⟨(C31_rounding _ _).2 (Or.inr ⟨?_, by decide⟩), (C31_rounding _ _).2 (Or.inr ⟨?_, by decide⟩),
    (C31_rounding _ _).2 (Or.inr ⟨?_, by decide⟩)⟩ <;> norm_num [abs_of_pos]

/-- Points with the same file name agree to `1e-10`. -/
theorem C31_key_near (p q : Point R) (h : cacheKey p = cacheKey q) :
    |p.k - q.k| ≤ 1 / 10 ^ 10 ∧ |p.w - q.w| ≤ 1 / 10 ^ 10 ∧ |p.eta - q.eta| ≤ 1 / 10 ^ 10 := by
  obtain ⟨h1, h2, h3⟩ := cacheKey_eq_iff.1 h
  exact ⟨fmt10_near (fmt10_eq_iff.2 h1), fmt10_near (fmt10_eq_iff.2 h2), fmt10_near (fmt10_eq_iff.2 h3)⟩

/-- the point `(i, j, l) * 1e-10` -/
def latticePoint (c : Int × Int × Int) : Point R :=
  ⟨(c.1 : R) / 10 ^ 10, (c.2.1 : R) / 10 ^ 10, (c.2.2 : R) / 10 ^ 10⟩

/-- Points whose coordinates have at most ten decimals have different file names. -/
theorem C31_key_lattice (c d : Int × Int × Int)
    (h : cacheKey (latticePoint c : Point R) = cacheKey (latticePoint d : Point R)) : c = d := by
  obtain ⟨h1, h2, h3⟩ := cacheKey_eq_iff.1 h
  have e1 := fmt10_lattice (R := R) (fmt10_eq_iff.2 h1)
  have e2 := fmt10_lattice (R := R) (fmt10_eq_iff.2 h2)
  have e3 := fmt10_lattice (R := R) (fmt10_eq_iff.2 h3)
  obtain ⟨c1, c2, c3⟩ := c
  obtain ⟨d1, d2, d3⟩ := d
  simp only at e1 e2 e3
  rw [e1, e2, e3]

/-- how the file name looks -/
example : cacheKey (⟨-1 / 2, 3, 1 / 100⟩ : Point ℚ) = "-0.5000000000_3.0000000000_0.0100000000.pkl".toList := by
  decide +kernel

/-! ### C31 -/

/-- C31, for histories in which points that share a file name have the same result, on a directory that
holds no wrong results (an empty one, for instance): every call returns what the solver gives without a
cache, even if several solvers that agree with each other (`C21_sparse_dense_agree`) share the
directory. What is missing: points closer than `1e-10` (`C31_collision_fails`) and directories used for
different systems (`C31_other_system_fails`). -/
theorem C31_transparent_partial (negative : V → Bool) (s : CacheState R V) (truth : Point R → Py V)
    (hist : List ((Point R → Py V) × Point R)) (hraw : ∀ h ∈ hist, h.1 h.2 = truth h.2)
    (hkey : ∀ p ∈ hist.map Prod.snd, ∀ q ∈ hist.map Prod.snd, cacheKey p = cacheKey q → truth p = truth q)
    (hdir : ∀ d, s.dir = some d → ∀ p ∈ hist.map Prod.snd, ∀ v, d.get? (cacheKey p) = some v → truth p = .ok v) :
    (runSolves negative s hist).1 = hist.map (fun h => truth h.2) := by
  induction hist generalizing s with
  | nil => rfl
  | cons h hist ih =>
    obtain ⟨raw, p⟩ := h
    rw [runSolves]
    have hr : raw p = truth p := hraw (raw, p) (by simp)
    have hfst : (cachedSolve raw negative s p).1 = truth p := by
      unfold cachedSolve preSolve
      cases hd : s.dir with
      | none =>
        simp only
        rw [hr]
        cases truth p <;> rfl
      | some d =>
        simp only
        cases hg : d.get? (cacheKey p) with
        | some v => exact (hdir d hd p (by simp) v hg).symm
        | none =>
          simp only
          rw [hr]
          cases truth p <;> rfl
    have hrest := ih (cachedSolve raw negative s p).2 (fun h hh => hraw h (by simp [hh]))
      (fun p hp q hq => hkey p (by simp at hp ⊢; tauto) q (by simp at hq ⊢; tauto)) (by
        intro d hd q hq v hv
        unfold cachedSolve preSolve at hd
        cases hs : s.dir with
        | none =>
          rw [hs] at hd
          simp only at hd
          rw [hr] at hd
          cases ht : truth p <;> rw [ht] at hd <;> simp [postSolve, hs] at hd
        | some d0 =>
          rw [hs] at hd
          simp only at hd
          cases hg : d0.get? (cacheKey p) with
          | some v0 =>
            rw [hg] at hd
            simp only [hs, Option.some.injEq] at hd
            subst hd
            exact hdir d0 hs q (by simp at hq ⊢; tauto) v hv
          | none =>
            rw [hg] at hd
            simp only at hd
            rw [hr] at hd
            cases ht : truth p with
            | error e =>
              rw [ht] at hd
              simp only [hs, Option.some.injEq] at hd
              subst hd
              exact hdir d0 hs q (by simp at hq ⊢; tauto) v hv
            | ok G =>
              rw [ht] at hd
              simp only [postSolve, hs, Option.map_some, Option.some.injEq] at hd
              subst hd
              rw [get?_set] at hv
              split at hv
              · rename_i he
                simp only [Option.some.injEq] at hv
                subst hv
                rw [← ht]
                exact hkey q (by simp at hq ⊢; tauto) p (by simp) he.symm
              · exact hdir d0 hs q (by simp at hq ⊢; tauto) v hv)
    simp only [List.map_cons, hfst, hrest]

/-- C31, for inputs with at most ten decimals and a directory that was empty at the start. -/
theorem C31_ten_decimals_partial (negative : V → Bool) (raw : Point R → Py V) (cs : List (Int × Int × Int)) :
    (runSolves negative ⟨some [], []⟩ (cs.map (fun c => (raw, latticePoint c)))).1 =
      cs.map (fun c => raw (latticePoint c)) := by
  rw [C31_transparent_partial negative _ raw]
  · simp [Function.comp_def]
  · intro h hh
    obtain ⟨c, -, rfl⟩ := List.mem_map.1 hh
    rfl
  · intro p hp q hq h
    simp only [List.map_map, List.mem_map, Function.comp] at hp hq
    obtain ⟨c, -, rfl⟩ := hp
    obtain ⟨d, -, rfl⟩ := hq
    rw [C31_key_lattice c d h]
  · intro d hd p _ v hv
    simp only [Option.some.injEq] at hd
    subst hd
    cases hv

/-- without a root there is no cache: every call computes -/
theorem C31_no_root (negative : V → Bool) (l : List (Point R)) (hist : List ((Point R → Py V) × Point R)) :
    (runSolves negative ⟨none, l⟩ hist).1 = hist.map (fun h => h.1 h.2) := by
  induction hist generalizing l with
  | nil => rfl
  | cons h hist ih =>
    obtain ⟨raw, p⟩ := h
    rw [runSolves]
    unfold cachedSolve preSolve
    simp only
    cases hr : raw p with
    | error e => simp [ih, hr]
    | ok G => simp [postSolve, ih, hr]

/-- What the cache does on two points with one file name: the second call returns the first result. -/
theorem second_call (negative : V → Bool) (raw raw' : Point R → Py V) (p q : Point R) (l : List (Point R))
    (h : cacheKey p = cacheKey q) (a : V) (ha : raw p = .ok a) :
    (runSolves negative ⟨some [], l⟩ [(raw, p), (raw', q)]).1 = [.ok a, .ok a] := by
  simp [runSolves, cachedSolve, preSolve, postSolve, ha, h, Dict.get?, Dict.set]

theorem round10_small (x : ℝ) (h : |x| * 10 ^ 10 < 1 / 2) : round10 x = 0 := by
  have h0 : 0 ≤ |x| * 10 ^ 10 := by positivity
  have hf : ⌊|x| * 10 ^ 10⌋ = 0 := Int.floor_eq_zero_iff.2 ⟨h0, by linarith⟩
  unfold round10 roundHalfEven
  simp only [hf]
  rw [if_pos (by simpa using h)]
  rfl

/-- C31 is false: on one physical system, with a directory empty at the start, asking for `w = 0` and
then for `w = 1e-11` returns the first value twice, although the solver gives another one. -/
theorem C31_collision_fails (σ : SetOrder) (negative : Option ℂ → Bool) :
    ∃ (m : Model ℝ) (b : Built ℝ) (p q : Point ℝ) (G : Option ℂ),
      (Model.fromParameters (1 : ℝ) 1 0 none 1).adds realPrims exZero = .ok m ∧ buildSystem σ m = .ok b ∧
      (let raw := fun p => denseSolve realPhys m p (localBasis b.eqs) b.eqs
       (runSolves negative ⟨some [], []⟩ [(raw, p), (raw, q)]).1 = [.ok G, .ok G] ∧ raw q ≠ .ok G) := by
  obtain ⟨m, b, h1, h2, h3⟩ := exZero_value σ
  refine ⟨m, b, ⟨0, 0, 1⟩, ⟨0, 1 / 10 ^ 11, 1⟩, _, h1, h2, second_call negative _ _ _ _ _ ?_ _ (h3 _), ?_⟩
  · rw [cacheKey_eq_iff]
    refine ⟨by simp, ⟨by norm_num, ?_⟩, by simp⟩
    rw [round10_small 0 (by norm_num), round10_small (1 / 10 ^ 11) (by rw [abs_of_pos (by positivity)]; norm_num)]
  · simp only [h3]
    intro h
    simp only [Except.ok.injEq, Option.some.injEq, one_div, inv_inj] at h
    have := congrArg Complex.re h
    norm_num at this

/-- The directory does not record the system: a solver for another system on the same directory returns
the first system's result. -/
theorem C31_other_system_fails (negative : V → Bool) (raw raw' : Point R → Py V) (p : Point R) (a b : V)
    (ha : raw p = .ok a) (hb : raw' p = .ok b) (hab : a ≠ b) :
    (runSolves negative ⟨some [], []⟩ [(raw, p), (raw', p)]).1 = [.ok a, .ok a] ∧ raw' p ≠ .ok a := by
  refine ⟨second_call negative raw raw' p p [] rfl a ha, ?_⟩
  rw [hb]
  simpa using Ne.symm hab

/-! ### C32 -/

/-- the test in `_post_solve`, on numbers -/
noncomputable def negativeA (G : Option ℂ) : Bool :=
  match G with
  | none => false
  | some G => decide (-G.im / Real.pi < 0)

/-- C32 is false: a negative result is reported and saved like any other. -/
theorem C32_negative_saved (negative : V → Bool) (raw : Point R → Py V) (p : Point R) (d : Dict PyStr V)
    (l : List (Point R)) (G : V) (hG : raw p = .ok G) (hn : negative G = true) (hd : d.get? (cacheKey p) = none) :
    (cachedSolve raw negative ⟨some d, l⟩ p).2.logged = l ++ [p] ∧
      ∃ d', (cachedSolve raw negative ⟨some d, l⟩ p).2.dir = some d' ∧ d'.get? (cacheKey p) = some G := by
  unfold cachedSolve preSolve
  simp only [hd, hG, postSolve, hn, if_true, Option.map_some, true_and]
  exact ⟨_, rfl, by rw [get?_set]; simp⟩

/-- Negative results do occur: for negative broadening. -/
theorem C32_negative_exists (σ : SetOrder) : ∃ (m : Model ℝ) (b : Built ℝ) (p : Point ℝ) (G : Option ℂ),
    (Model.fromParameters (1 : ℝ) 1 0 none 1).adds realPrims exZero = .ok m ∧ buildSystem σ m = .ok b ∧
      denseSolve realPhys m p (localBasis b.eqs) b.eqs = .ok G ∧ negativeA G = true := by
  obtain ⟨m, b, h1, h2, h3⟩ := exZero_value σ
  refine ⟨m, b, ⟨0, 0, -1⟩, _, h1, h2, h3 _, ?_⟩
  unfold negativeA
  simp only [decide_eq_true_eq]
  rw [div_lt_iff₀ Real.pi_pos, zero_mul]
  norm_num [Complex.inv_im, Complex.normSq_apply]

/-- C32, the part that holds: for a physical model and positive broadening (exact arithmetic), whatever
the history, nothing is reported and nothing negative is saved, since no result is negative. What is
missing: negative results are not kept from being saved when they do occur (`C32_negative_saved`), be it
through negative broadening or rounding. -/
theorem C32_positive_partial (σ : SetOrder) (m : Model ℝ) (ae : Int) (hm : WellFormed m ae) (b : Built ℝ)
    (hb : buildSystem σ m = .ok b) (hp : Physical m) (ps : List (Point ℝ)) (heta : ∀ p ∈ ps, 0 < p.eta)
    (d : Dict PyStr (Option ℂ)) (l : List (Point ℝ)) (hd : ∀ kv ∈ d, negativeA kv.2 = false) :
    let raw := fun p => denseSolve realPhys m p (localBasis b.eqs) b.eqs
    let s := (runSolves negativeA ⟨some d, l⟩ (ps.map (fun p => (raw, p)))).2
    s.logged = l ∧ ∃ d', s.dir = some d' ∧ ∀ kv ∈ d', negativeA kv.2 = false := by
  intro raw
  induction ps generalizing d with
  | nil => exact ⟨rfl, d, rfl, hd⟩
  | cons p ps ih =>
    rw [List.map_cons, runSolves]
    simp only
    have hpos : ∀ G, raw p = .ok G → negativeA G = false := by
      intro G hG
      cases G with
      | none => rfl
      | some G =>
        have := (C23_spectral_positive σ m ae hm b hb hp p (heta p (by simp)) G (Or.inr hG)).1
        unfold negativeA
        simp [this.le]
    have hset : ∀ (d : Dict PyStr (Option ℂ)) (k : PyStr) (v : Option ℂ), negativeA v = false →
        (∀ kv ∈ d, negativeA kv.2 = false) → ∀ kv ∈ d.set k v, negativeA kv.2 = false := by
      intro d k v hv
      induction d with
      | nil => intro _ kv hkv; simp [Dict.set] at hkv; rw [hkv]; exact hv
      | cons x d ihd =>
        obtain ⟨k', v'⟩ := x
        intro h kv hkv
        unfold Dict.set at hkv
        split at hkv
        · simp only [List.mem_cons] at hkv
          rcases hkv with rfl | hkv
          · exact hv
          · exact h kv (by simp [hkv])
        · simp only [List.mem_cons] at hkv
          rcases hkv with rfl | hkv
          · exact h _ (by simp)
          · exact ihd (fun kv hkv => h kv (by simp [hkv])) kv hkv
    unfold cachedSolve preSolve
    simp only
    cases hg : d.get? (cacheKey p) with
    | some v => exact ih (fun q hq => heta q (by simp [hq])) d hd
    | none =>
      simp only
      cases hr : raw p with
      | error e => exact ih (fun q hq => heta q (by simp [hq])) d hd
      | ok G =>
        simp only [postSolve, hpos G hr, Option.map_some]
        exact ih (fun q hq => heta q (by simp [hq])) _ (hset d _ G (hpos G hr) hd)

/-! ### Several processes on one directory -/

/-- C31 and C26 for processes that share one directory, over all interleavings of their file operations:
if processes work on points with different file names, the solver succeeds, points of one process with
one file name have one result, and the directory holds no wrong or unfinished results at the start, then
in every reachable state no process has failed, each has returned exactly the solver's results for the
points it has dealt with, in order, and each process with points left can move. Every move uses up part
of a bounded amount of work. What is missing: processes that share a point (`C31_race_fails`). -/
theorem C31_shared_partial (raw : Point R → Py V) (f : Point R → V) (jobs : Nat → List (Point R))
    (S : Separate raw f jobs) (files : Dict PyStr (Option V))
    (hfiles : ∀ i, ∀ p ∈ jobs i, ∀ v, files.get? (cacheKey p) = some v → v = some (f p))
    (c : World R V) (hc : World.Steps raw (World.start files jobs) c) :
    (∀ i, (c.procs i).failed = false ∧
      (c.procs i).done = ((jobs i).take (c.procs i).done.length).map f ∧
      ((c.procs i).todo = [] → (c.procs i).done = (jobs i).map f) ∧
      ((c.procs i).todo ≠ [] → ∃ d, World.Step raw c d ∧ (d.procs i).work < (c.procs i).work)) ∧
    (∀ d, World.Step raw c d →
      ∃ i, (d.procs i).work < (c.procs i).work ∧ ∀ j, j ≠ i → d.procs j = c.procs j) := by
  have h := (SharedInv.start hfiles).steps S hc
  refine ⟨fun i => ⟨h.alive i, ?_, ?_, h.progress S i⟩, fun d hd => h.decreases S hd⟩
  · have := congrArg (List.take (c.procs i).done.length) (h.results i)
    rw [List.take_left', ← List.map_take] at this
    · exact this
    · rfl
  · intro e
    have := h.results i
    rw [e] at this
    simpa using this

/-- the points `chunk_jobs` gives to each rank -/
def rankJobs (js : List (Point R)) (n : Nat) (i : Nat) : List (Point R) :=
  match chunkJobs js n i with
  | .ok l => l
  | .error _ => []

/-- The premises of `C31_shared_partial` hold for the chunks of a job list without repeated points (more
precisely, without repeated file names), whatever the number of ranks. -/
theorem C26_chunks_separate (raw : Point R → Py V) (f : Point R → V) (js : List (Point R))
    (hn : (js.map cacheKey).Nodup) (hr : ∀ p ∈ js, raw p = .ok (f p)) (n : Nat) :
    Separate raw f (rankJobs js n) := by
  have key : ∀ i, ∀ p ∈ rankJobs js n i, i < n ∧ ∃ x, splitOffset js.length n i ≤ x ∧
      x < splitOffset js.length n (i + 1) ∧ js[x]? = some p := by
    intro i p hp
    unfold rankJobs at hp
    by_cases hi : i < n
    · rw [chunkJobs_ok js n i hi] at hp
      simp only at hp
      obtain ⟨x, hx⟩ := List.mem_iff_getElem?.1 hp
      rw [List.getElem?_drop, List.getElem?_take] at hx
      split at hx
      · exact ⟨hi, _, Nat.le_add_right _ _, by assumption, hx⟩
      · cases hx
    · exfalso
      unfold chunkJobs at hp
      cases hs : arraySplit js n with
      | error e => rw [hs] at hp; simp [bind, Except.bind] at hp
      | ok l =>
        by_cases h0 : n = 0
        · subst h0; simp [arraySplit] at hs
        · rw [arraySplit_ok js n h0] at hs
          cases hs
          rw [arraySplit_ok js n h0] at hp
          simp [bind, Except.bind, hi] at hp
  have inj : ∀ (x y : Nat) (p q : Point R), js[x]? = some p → js[y]? = some q → cacheKey p = cacheKey q → x = y := by
    intro x y p q hx hy he
    have hxl := (List.getElem?_eq_some_iff.1 hx).1
    refine (List.Nodup.getElem_inj_iff hn (i := x) (j := y) (hi := by simpa using hxl)
      (hj := by simpa using (List.getElem?_eq_some_iff.1 hy).1)).1 ?_
    simp only [List.getElem_map, (List.getElem?_eq_some_iff.1 hx).2, (List.getElem?_eq_some_iff.1 hy).2, he]
  refine ⟨?_, ?_, ?_⟩
  · intro i j hij p hp q hq he
    obtain ⟨-, x, hx1, hx2, hx⟩ := key i p hp
    obtain ⟨-, y, hy1, hy2, hy⟩ := key j q hq
    have := inj x y p q hx hy he
    subst this
    rcases Nat.lt_or_gt_of_ne hij with h | h
    · have := splitOffset_mono' js.length n (show i + 1 ≤ j from h)
      omega
    · have := splitOffset_mono' js.length n (show j + 1 ≤ i from h)
      omega
  · intro i p hp q hq he
    obtain ⟨-, x, -, -, hx⟩ := key i p hp
    obtain ⟨-, y, -, -, hy⟩ := key i q hq
    have := inj x y p q hx hy he
    subst this
    rw [hx] at hy
    cases hy
    rfl
  · intro i p hp
    obtain ⟨-, x, -, -, hx⟩ := key i p hp
    exact hr p (List.mem_of_getElem? hx)

/-- C31 is false for processes that share a point: one opens the file, and the other reads it before it
is written and stops with an `EOFError`. -/
theorem C31_race_fails (p : Point R) (G : V) : ∃ c : World R V,
    World.Steps (fun _ => .ok G) (World.start [] (fun i => if i < 2 then [p] else [])) c ∧
      (c.procs 1).failed = true := by
  refine ⟨_, .tail (.tail (.tail (.refl _) (.miss _ 0 p [] G rfl rfl rfl rfl rfl)) (.open _ 0 p G rfl rfl))
    (.eof _ 1 p [] rfl rfl rfl ?_), rfl⟩
  simp [World.setProc, World.start, Dict.set, Dict.get?]

/-- two ranks, three points: the premises hold -/
example : Separate (fun p : Point ℚ => .ok (p.k + p.w)) (fun p => p.k + p.w)
    (rankJobs [⟨0, 1, 1⟩, ⟨0, 2, 1⟩, ⟨1 / 2, 1, 1⟩] 2) :=
  C26_chunks_separate _ _ _ (by decide +kernel) (fun _ _ => rfl) 2

/-- a history with a repeated point, points on both sides of zero, and no collision -/
example : (runSolves (fun _ => false) ⟨some [], []⟩
    ([⟨0, 1, 1⟩, ⟨0, -1, 1⟩, ⟨0, 1, 1⟩].map (fun p : Point ℚ => ((fun p => .ok (p.k + p.w) : Point ℚ → Py ℚ), p)))).1 =
      [.ok 1, .ok (-1), .ok 1] := by decide +kernel

end GGCE.Props
