import Verif.Props.Cache
import Verif.Props.Stability
import Verif.Spec.CacheAccuracy

/-!
Property C103: numbers taken from the results directory are as accurate as its ten decimals allow.
-/

set_option linter.unusedSectionVars false

namespace GGCE.Props
open Spec Arr

theorem speed_nonneg (m : Model ℝ) : 0 ≤ speed m := by
  unfold speed
  refine mul_nonneg (abs_nonneg _) (add_nonneg (by positivity) ?_)
  refine List.sum_nonneg (fun x hx => ?_)
  obtain ⟨h, -, rfl⟩ := List.mem_map.1 hx
  positivity

/-- points with the same file name have close results -/
theorem same_key_near (σ : SetOrder) (m : Model ℝ) (ae : Int) (hm : WellFormed m ae) (b : Built ℝ)
    (hb : buildSystem σ m = .ok b) (hp : Physical m) {p q : Point ℝ} (h : cacheKey p = cacheKey q)
    (hq : 4 / 10 ^ 10 ≤ q.eta) {G G' : ℂ} (hG : Returned m b p G) (hG' : Returned m b q G') :
    ‖G - G'‖ ≤ decimals m q.eta := by
  obtain ⟨h1, h2, h3⟩ := C31_key_near p q h
  obtain ⟨k, w, eta⟩ := p
  obtain ⟨k', w', eta'⟩ := q
  simp only at h1 h2 h3 hq
  have e1 := abs_le.1 h3
  have he' : 0 < eta' := by linarith [show (0 : ℝ) < 4 / 10 ^ 10 by positivity]
  have he : 3 / 4 * eta' ≤ eta := by linarith
  have hpos : 0 < eta := by linarith
  obtain ⟨H, -, -, h4⟩ := C56_operator σ m ae hm b hb hp k
  have hG1 : Returned m b ⟨k, w', eta'⟩ _ := Or.inr (h4 w' eta' he').2.2
  have t1 := C58_lipschitz σ m ae hm b hb hp k w w' eta eta' hpos he' _ _ hG hG1
  have t2 := C66_momentum σ m ae hm b hb hp k k' w' eta' he' _ _ hG1 hG'
  have t3 : Real.sqrt ((w - w') ^ 2 + (eta - eta') ^ 2) ≤ 3 / 2 * (1 / 10 ^ 10) := by
    rw [Real.sqrt_le_left (by positivity)]
    have a1 := sq_le_sq' (abs_le.1 h2).1 (abs_le.1 h2).2
    have a2 := sq_le_sq' (abs_le.1 h3).1 (abs_le.1 h3).2
    nlinarith
  have t4 : Real.sqrt ((w - w') ^ 2 + (eta - eta') ^ 2) / (eta * eta') ≤ 2 / (10 ^ 10 * eta' ^ 2) := by
    refine (div_le_div_of_nonneg_right t3 (by positivity)).trans ?_
    rw [div_le_div_iff₀ (by positivity) (by positivity)]
    nlinarith [mul_le_mul_of_nonneg_right he he'.le]
  have t5 : speed m * |k - k'| / eta' ^ 2 ≤ speed m / (10 ^ 10 * eta' ^ 2) := by
    rw [div_le_div_iff₀ (by positivity) (by positivity)]
    have := mul_le_mul_of_nonneg_left h1 (speed_nonneg m)
    nlinarith [sq_nonneg eta', mul_le_mul_of_nonneg_right this (sq_nonneg eta')]
  have t6 : decimals m eta' = 2 / (10 ^ 10 * eta' ^ 2) + speed m / (10 ^ 10 * eta' ^ 2) := by
    unfold decimals; ring
  rw [t6]
  calc ‖G - G'‖ ≤ ‖G - _‖ + ‖_ - G'‖ := norm_sub_le_norm_sub_add_norm_sub _ _ _
    _ ≤ _ := add_le_add (t1.trans t4) (t2.trans t5)

theorem within_key (σ : SetOrder) (m : Model ℝ) (ae : Int) (hm : WellFormed m ae) (b : Built ℝ)
    (hb : buildSystem σ m = .ok b) (hp : Physical m) {p q : Point ℝ} (h : cacheKey p = cacheKey q)
    (hq : 4 / 10 ^ 10 ≤ q.eta) {ε : ℝ} {G : ℂ} (hG : 0 < p.eta → Within m b ε p G) :
    Within m b (ε + decimals m q.eta) q G := by
  intro G' hG'
  have h3 := abs_le.1 (C31_key_near p q h).2.2
  have hpos : 0 < p.eta := by linarith [show (0 : ℝ) < 3 / 10 ^ 10 by positivity]
  obtain ⟨H, -, -, h4⟩ := C56_operator σ m ae hm b hb hp p.k
  have hG1 : Returned m b p _ := Or.inr (h4 p.w p.eta hpos).2.2
  calc ‖G - G'‖ ≤ ‖G - _‖ + ‖_ - G'‖ := norm_sub_le_norm_sub_add_norm_sub _ _ _
    _ ≤ _ := add_le_add (hG hpos _ hG1) (same_key_near σ m ae hm b hb hp h hq hG1 hG')

theorem decimals_nonneg (m : Model ℝ) (eta : ℝ) : 0 ≤ decimals m eta := by
  unfold decimals
  have := speed_nonneg m
  positivity

theorem within_zero {σ : SetOrder} {m : Model ℝ} {ae : Int} (hm : WellFormed m ae) {b : Built ℝ}
    (hb : buildSystem σ m = .ok b) (hp : Physical m) {p : Point ℝ} (h0 : 0 < p.eta) {G : ℂ} (hG : Returned m b p G) :
    Within m b 0 p G := by
  intro G' hG'
  obtain ⟨k, w, eta⟩ := p
  obtain ⟨H, -, -, h3⟩ := C56_returned σ m ae hm b hb hp k
  rw [h3 w eta h0 G hG, h3 w eta h0 G' hG', sub_self, norm_zero]

/-- a stored result belongs to some point with that file name -/
def Sound (m : Model ℝ) (b : Built ℝ) (ε : ℝ) (c : PyStr) (v : ℂ) : Prop :=
  ∃ p : Point ℝ, cacheKey p = c ∧ (0 < p.eta → Within m b ε p v)

/-- **C103**, one process after the other. Solvers for one system that are accurate to `ε` share a results directory, which
is empty at first or was filled in this way. In every sequence of calls, every number returned is within
`ε + (speed + 2) 10⁻¹⁰ / eta²` of the exact result at the point asked for. -/
theorem C103_serial (σ : SetOrder) (m : Model ℝ) (ae : Int) (hm : WellFormed m ae) (b : Built ℝ)
    (hb : buildSystem σ m = .ok b) (hp : Physical m) (ε : ℝ) (negative : ℂ → Bool) (s : CacheState ℝ ℂ)
    (hdir : ∀ d, s.dir = some d → ∀ c v, d.get? c = some v → Sound m b ε c v)
    (hist : List ((Point ℝ → Py ℂ) × Point ℝ))
    (hraw : ∀ h ∈ hist, ∀ G, 0 < h.2.eta → h.1 h.2 = .ok G → Within m b ε h.2 G) :
    List.Forall₂ (fun h r => ∀ G, r = .ok G → 4 / 10 ^ 10 ≤ h.2.eta → Within m b (ε + decimals m h.2.eta) h.2 G)
      hist (runSolves negative s hist).1 := by
  induction hist generalizing s with
  | nil => exact .nil
  | cons h hist ih =>
    obtain ⟨raw, p⟩ := h
    rw [runSolves]
    have hr := hraw (raw, p) (by simp)
    simp only at hr
    unfold cachedSolve
    cases hpre : preSolve s p with
    | some v =>
      refine .cons ?_ (ih s hdir (fun h hh => hraw h (by simp [hh])))
      intro G hG hq
      cases hG
      unfold preSolve at hpre
      cases hd : s.dir with
      | none => rw [hd] at hpre; cases hpre
      | some d =>
        rw [hd] at hpre
        obtain ⟨p', e1, e2⟩ := hdir d hd _ _ hpre
        exact within_key σ m ae hm b hb hp e1 hq e2
    | none =>
      simp only
      cases hrp : raw p with
      | error e =>
        refine .cons ?_ (ih s hdir (fun h hh => hraw h (by simp [hh])))
        intro G hG
        cases hG
      | ok v =>
        refine .cons ?_ (ih _ ?_ (fun h hh => hraw h (by simp [hh])))
        · intro G hG hq
          cases hG
          exact within_key σ m ae hm b hb hp rfl hq (fun h0 => hr v h0 hrp)
        · intro d hd c v' hv'
          unfold postSolve at hd
          cases hd0 : s.dir with
          | none => rw [hd0] at hd; cases hd
          | some d0 =>
            rw [hd0] at hd
            cases hd
            rw [Dict.get?_set] at hv'
            split at hv'
            · rename_i hc
              cases hv'
              exact ⟨p, hc, fun h0 => hr v h0 hrp⟩
            · exact hdir d0 hd0 c v' hv'

/-- the point a process is working on, with its result -/
def Phase.Good (good : Point ℝ → ℂ → Prop) (todo : List (Point ℝ)) : Phase ℝ ℂ → Prop
  | .idle => True
  | .computed p G => todo.head? = some p ∧ good p G
  | .opened p G => todo.head? = some p ∧ good p G

/-- what stays true while several processes use the directory -/
structure SoundWorld (m : Model ℝ) (b : Built ℝ) (ε : ℝ) (jobs : Nat → List (Point ℝ)) (c : World ℝ ℂ) : Prop where
  files : ∀ k v, c.files.get? k = some (some v) → Sound m b ε k v
  procs : ∀ i, ∃ pre, jobs i = pre ++ (c.procs i).todo ∧
    List.Forall₂ (fun q G => 4 / 10 ^ 10 ≤ q.eta → Within m b (ε + decimals m q.eta) q G) pre (c.procs i).done ∧
    Phase.Good (fun p G => 0 < p.eta → Within m b ε p G) (c.procs i).todo (c.procs i).phase

theorem SoundWorld.step {σ : SetOrder} {m : Model ℝ} {ae : Int} (hm : WellFormed m ae) {b : Built ℝ}
    (hb : buildSystem σ m = .ok b) (hp : Physical m) {ε : ℝ} {jobs : Nat → List (Point ℝ)} {raw : Point ℝ → Py ℂ}
    (hraw : ∀ p G, 0 < p.eta → raw p = .ok G → Within m b ε p G) {c d : World ℝ ℂ} (h : SoundWorld m b ε jobs c)
    (hs : World.Step raw c d) : SoundWorld m b ε jobs d := by
  have other : ∀ (c' : World ℝ ℂ) (i : Nat) (q : Proc ℝ ℂ), c'.procs = c.procs →
      (∃ pre, jobs i = pre ++ q.todo ∧
        List.Forall₂ (fun q G => 4 / 10 ^ 10 ≤ q.eta → Within m b (ε + decimals m q.eta) q G) pre q.done ∧
        Phase.Good (fun p G => 0 < p.eta → Within m b ε p G) q.todo q.phase) →
      ∀ j, ∃ pre, jobs j = pre ++ ((c'.setProc i q).procs j).todo ∧
        List.Forall₂ (fun q G => 4 / 10 ^ 10 ≤ q.eta → Within m b (ε + decimals m q.eta) q G) pre
          ((c'.setProc i q).procs j).done ∧
        Phase.Good (fun p G => 0 < p.eta → Within m b ε p G) ((c'.setProc i q).procs j).todo
          ((c'.setProc i q).procs j).phase := by
    intro c' i q hc' hq j
    unfold World.setProc
    simp only
    split
    · rename_i hj; subst hj; exact hq
    · rw [hc']; exact h.procs j
  have finish : ∀ (i : Nat) (p : Point ℝ) (rest : List (Point ℝ)) (G : ℂ), (c.procs i).todo = p :: rest →
      (4 / 10 ^ 10 ≤ p.eta → Within m b (ε + decimals m p.eta) p G) →
      ∃ pre, jobs i = pre ++ rest ∧
        List.Forall₂ (fun q G => 4 / 10 ^ 10 ≤ q.eta → Within m b (ε + decimals m q.eta) q G) pre
          ((c.procs i).done ++ [G]) := by
    intro i p rest G ht hG
    obtain ⟨pre, e1, e2, -⟩ := h.procs i
    refine ⟨pre ++ [p], by rw [e1, ht]; simp, ?_⟩
    exact List.rel_append e2 (.cons hG .nil)
  cases hs with
  | hit i p rest G hf hph ht hg =>
    refine ⟨h.files, other c i _ rfl ?_⟩
    obtain ⟨p', e1, e2⟩ := h.files _ _ hg
    obtain ⟨pre, e3, e4⟩ := finish i p rest G ht (fun hq => within_key σ m ae hm b hb hp e1 hq e2)
    refine ⟨pre, e3, e4, ?_⟩
    simp only [hph]
    trivial
  | eof i p rest hf hph ht hg =>
    refine ⟨h.files, other c i _ rfl ?_⟩
    exact h.procs i
  | miss i p rest G hf hph ht hg hr =>
    refine ⟨h.files, other c i _ rfl ?_⟩
    obtain ⟨pre, e1, e2, -⟩ := h.procs i
    exact ⟨pre, e1, e2, by rw [ht]; rfl, fun h0 => hraw p G h0 hr⟩
  | raise i p rest e hf hph ht hg hr =>
    refine ⟨h.files, other c i _ rfl ?_⟩
    exact h.procs i
  | «open» i p G hf hph =>
    refine ⟨?_, other _ i _ rfl ?_⟩
    · intro k v hv
      have hv' : (c.files.set (cacheKey p) none).get? k = some (some v) := hv
      rw [Dict.get?_set] at hv'
      split at hv'
      · cases hv'
      · exact h.files k v hv'
    · obtain ⟨pre, e1, e2, e3⟩ := h.procs i
      rw [hph] at e3
      exact ⟨pre, e1, e2, e3⟩
  | write i p G hf hph =>
    obtain ⟨pre, e1, e2, e3⟩ := h.procs i
    rw [hph] at e3
    obtain ⟨e3, e4⟩ := e3
    refine ⟨?_, other _ i _ rfl ?_⟩
    · intro k v hv
      have hv' : (c.files.set (cacheKey p) (some G)).get? k = some (some v) := hv
      rw [Dict.get?_set] at hv'
      split at hv'
      · rename_i hk
        cases hv'
        exact ⟨p, hk, e4⟩
      · exact h.files k v hv'
    · cases ht : (c.procs i).todo with
      | nil => rw [ht] at e3; cases e3
      | cons p' rest =>
        rw [ht] at e3
        injection e3 with e3
        subst e3
        obtain ⟨pre, f1, f2⟩ := finish i p' rest G ht (fun hq => within_key σ m ae hm b hb hp rfl hq e4)
        exact ⟨pre, f1, f2, trivial⟩

/-- **C103**, processes at the same time. However the reading and writing of files by several processes is interleaved, a
process may stop with an exception, but every number it has obtained is within `ε + (speed + 2) 10⁻¹⁰ / eta²` of the exact
result at its point. -/
theorem C103_parallel (σ : SetOrder) (m : Model ℝ) (ae : Int) (hm : WellFormed m ae) (b : Built ℝ)
    (hb : buildSystem σ m = .ok b) (hp : Physical m) (ε : ℝ) (raw : Point ℝ → Py ℂ)
    (hraw : ∀ p G, 0 < p.eta → raw p = .ok G → Within m b ε p G) (files : Dict PyStr (Option ℂ))
    (hfiles : ∀ k v, files.get? k = some (some v) → Sound m b ε k v) (jobs : Nat → List (Point ℝ)) (c : World ℝ ℂ)
    (hc : World.Steps raw (World.start files jobs) c) (i : Nat) :
    List.Forall₂ (fun q G => 4 / 10 ^ 10 ≤ q.eta → Within m b (ε + decimals m q.eta) q G)
      ((jobs i).take (c.procs i).done.length) (c.procs i).done := by
  have h : SoundWorld m b ε jobs c := by
    induction hc with
    | refl => exact ⟨hfiles, fun i => ⟨[], rfl, .nil, trivial⟩⟩
    | tail _ hs ih => exact ih.step hm hb hp hraw hs
  obtain ⟨pre, e1, e2, -⟩ := h.procs i
  rw [e1, ← e2.length_eq, List.take_left]
  exact e2

/-- **C103**, for a list of built-in couplings, with the solvers as they are in exact arithmetic: whatever has been computed
in the directory before, for this model, a number returned at `(k, w, eta)` differs from the one without a directory by at
most `(speed + 2) 10⁻¹⁰ / eta²`. -/
theorem C103_assembled (σ : SetOrder) (hopping lattice T : ℝ) (hl : hopping = 0 ∨ (0 < hopping ∧ lattice = 1))
    (cap : Option Int) (hcap : ∀ c, cap = some c → 1 ≤ c) (as : List (AddArgs ℝ)) (hne : as ≠ [])
    (hc : Clean realPrims hopping T as) (hf : ((modes T as).map (·.freq)).Nodup)
    (hbp : (∀ a ∈ as, a.ctype = "BondPeierls") ∨ (∀ a ∈ as, a.ctype ≠ "BondPeierls")) (negative : ℂ → Bool) :
    ∃ m b, (Model.fromParameters hopping lattice T cap 1).adds realPrims as = .ok m ∧ buildSystem σ m = .ok b ∧
      ∀ hist : List ((Point ℝ → Py ℂ) × Point ℝ), (∀ h ∈ hist, 0 < h.2.eta → ∀ G, h.1 h.2 = .ok G → Returned m b h.2 G) →
        List.Forall₂ (fun h r => ∀ G, r = .ok G → 4 / 10 ^ 10 ≤ h.2.eta → Within m b (decimals m h.2.eta) h.2 G)
          hist (runSolves negative ⟨some [], []⟩ hist).1 := by
  obtain ⟨m, b, h1, ⟨ae, h2⟩, h3⟩ := C16_assembled σ realPrims C42_names hopping lattice T cap hcap as hne hc hf hbp
  have hp := physical_assembled h1 hbp hl
  refine ⟨m, b, h1, h3, fun hist hraw => ?_⟩
  have := C103_serial σ m ae h2 b h3 hp 0 negative ⟨some [], []⟩ (by intro d hd c v hv; cases hd; cases hv) hist
    (fun h hh G h0 hG => within_zero h2 h3 hp h0 (hraw h hh h0 G hG))
  simpa only [zero_add] using this

/-! ### the hypotheses are met -/

/-- a Holstein–Peierls model, the dense solver asked for two points with one file name -/
example (σ : SetOrder) (negative : ℂ → Bool) : ∃ m b, (Model.fromParameters (1 : ℝ) 1 0 none 1).adds realPrims exCalls = .ok m ∧
    buildSystem σ m = .ok b ∧ ∃ (raw : Point ℝ → Py ℂ) (G : ℂ), (∀ p, 0 < p.eta → ∃ G, raw p = .ok G ∧ Returned m b p G) ∧
      (runSolves negative ⟨some [], []⟩ [(raw, ⟨0, 0, 1⟩), (raw, ⟨0, 1 / 10 ^ 11, 1⟩)]).1 = [.ok G, .ok G] ∧
      Within m b (decimals m 1) ⟨0, 1 / 10 ^ 11, 1⟩ G := by
  classical
  obtain ⟨h1, h2, h3⟩ := exCalls_clean
  obtain ⟨m, b, k1, ⟨ae, k2⟩, k3⟩ := C16_assembled σ realPrims C42_names 1 1 0 none (by simp) exCalls (by simp [exCalls])
    h1 h2 (Or.inr h3)
  have hp := physical_assembled k1 (Or.inr h3) (Or.inr ⟨one_pos, rfl⟩)
  have hex : ∀ p : Point ℝ, 0 < p.eta → ∃ G, Returned m b p G := fun p h0 => by
    obtain ⟨H, -, -, h4⟩ := C56_operator σ m ae k2 b k3 hp p.k
    exact ⟨_, Or.inr (h4 p.w p.eta h0).2.2⟩
  let raw : Point ℝ → Py ℂ := fun p => if h : 0 < p.eta then .ok (hex p h).choose else .error .linAlgError
  have hraw : ∀ p, 0 < p.eta → ∃ G, raw p = .ok G ∧ Returned m b p G := fun p h =>
    ⟨_, dif_pos h, (hex p h).choose_spec⟩
  obtain ⟨G, e1, e2⟩ := hraw ⟨0, 0, 1⟩ one_pos
  have hkey : cacheKey (⟨0, 0, 1⟩ : Point ℝ) = cacheKey (⟨0, 1 / 10 ^ 11, 1⟩ : Point ℝ) := by
    rw [cacheKey_eq_iff]
    refine ⟨by simp, ⟨by norm_num, ?_⟩, by simp⟩
    rw [round10_small 0 (by norm_num), round10_small (1 / 10 ^ 11) (by rw [abs_of_pos (by positivity)]; norm_num)]
  refine ⟨m, b, k1, k3, raw, G, hraw, second_call negative raw raw _ _ [] hkey G e1, ?_⟩
  have := within_key σ m ae k2 b k3 hp (ε := 0) hkey (by norm_num) (fun h0 => within_zero k2 k3 hp h0 e2)
  simpa only [zero_add] using this

end GGCE.Props
