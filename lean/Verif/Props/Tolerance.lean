import Verif.Spec.Tolerance
import Verif.Props.Diagnostics
import Verif.Props.Residual
import Verif.Props.CacheAccuracy

/-!
Property C112: if the parallel solver reports no failed residual check, its numbers are accurate.
-/

set_option linter.unusedSectionVars false

namespace GGCE.Props
open Spec Dict Petsc

theorem realNorm_eq (l : List ℂ) : realNorm l = vecNorm l.length (fun i => l.getD i 0) := by
  unfold realNorm vecNorm
  congr 1
  rw [Finset.sum_range, ← List.sum_ofFn]
  congr 1
  apply List.ext_getElem <;> simp [List.getD_eq_getElem?_getD]

theorem realNorm_range (n : ℕ) (y : ℕ → ℂ) : realNorm ((List.range n).map y) = vecNorm n y := by
  rw [realNorm_eq]
  simp only [List.length_map, List.length_range]
  exact vecNorm_congr (fun i hi => by simp [List.getD_eq_getElem?_getD, hi])

theorem diff_getD {a v : List ℂ} (h : a.length = v.length) (i : ℕ) :
    (diff a v).getD i 0 = a.getD i 0 - v.getD i 0 := by
  unfold diff
  simp only [List.getD_eq_getElem?_getD, List.getElem?_zipWith]
  by_cases hi : i < a.length
  · simp [List.getElem?_eq_getElem hi, List.getElem?_eq_getElem (h ▸ hi : i < v.length)]
  · rw [List.getElem?_eq_none (by omega), List.getElem?_eq_none (by omega)]; simp

theorem realNorm_le_diff {a v : List ℂ} (h : a.length = v.length) :
    realNorm a ≤ realNorm (diff a v) + realNorm v ∧ realNorm v ≤ realNorm (diff a v) + realNorm a := by
  have hl : (diff a v).length = a.length := by simp [diff, h]
  rw [realNorm_eq a, realNorm_eq v, realNorm_eq (diff a v), hl, ← h]
  constructor
  · refine le_trans (le_of_eq ?_) (vecNorm_add _ _ _)
    exact vecNorm_congr (fun i _ => by rw [diff_getD h]; ring)
  · rw [add_comm]
    refine le_trans (le_of_eq ?_) (vecNorm_sub _ _ _)
    exact vecNorm_congr (fun i _ => by rw [diff_getD h]; ring)

/-- what the number compared with zero says about the distance to the solution -/
theorem excess_near (d : DistSys ℂ) (run : MumpsRun ℂ) {δ rtol : ℝ} (hr : 0 ≤ rtol) (hpc : NearInverse δ d run.pc)
    (hx : run.x.length = d.n) (y : Nat → ℂ) (hy : DistSolution d y) :
    (1 - δ) * realNorm (diff ((List.range d.n).map y) run.x) - rtol * ((1 + δ) * realNorm ((List.range d.n).map y)) ≤
        tolExcess realNorm d run rtol ∧
      tolExcess realNorm d run rtol ≤ (1 + δ) * realNorm (diff ((List.range d.n).map y) run.x) -
        rtol * ((1 - δ) * realNorm ((List.range d.n).map y)) := by
  unfold tolExcess
  rw [← mul_solution hy, distMul_sub _ _ _ (by simp) hx]
  have hl : (diff ((List.range d.n).map y) run.x).length = d.n := by simp [diff, hx]
  obtain ⟨a1, a2⟩ := hpc _ hl
  obtain ⟨b1, b2⟩ := hpc ((List.range d.n).map y) (by simp)
  obtain ⟨a3, a4⟩ := realNorm_le_diff (a := run.pc (d.mul (diff ((List.range d.n).map y) run.x)))
    (v := diff ((List.range d.n).map y) run.x) (by omega)
  obtain ⟨b3, b4⟩ := realNorm_le_diff (a := run.pc (d.mul ((List.range d.n).map y))) (v := (List.range d.n).map y)
    (by simp [b1])
  have h1 := mul_le_mul_of_nonneg_left (show realNorm (run.pc (d.mul ((List.range d.n).map y))) ≤
    (1 + δ) * realNorm ((List.range d.n).map y) by linarith) hr
  have h2 := mul_le_mul_of_nonneg_left (show (1 - δ) * realNorm ((List.range d.n).map y) ≤
    realNorm (run.pc (d.mul ((List.range d.n).map y))) by linarith) hr
  change _ ≤ realNorm (run.pc (d.mul (diff ((List.range d.n).map y) run.x))) - _ ∧
    realNorm (run.pc (d.mul (diff ((List.range d.n).map y) run.x))) - _ ≤ _
  constructor <;> linarith

/-- the solution is not long -/
theorem solution_norm (σ : SetOrder) (m : Model ℝ) (ae : Int) (hm : WellFormed m ae) (b : Built ℝ)
    (hb : buildSystem σ m = .ok b) (hp : Physical m) (p : Point ℝ) (heta : 0 < p.eta) (ls : LinSys ℂ)
    (hls : scaffold realPhys m p (fullBasis b.eqs) b.eqs = .ok ls) (y : ℕ → ℂ)
    (hy : Solution ls (allEqs b.eqs).length y) :
    vecNorm (allEqs b.eqs).length y ≤ √(factorials m) * (sensitivity m p.eta / p.eta) := by
  obtain ⟨-, ls', -, k1, -, -, -, -, hrow, hval, -⟩ := C19_sparse_matrix σ m ae hm b hb realPhys p
  rw [hls] at k1; cases k1
  refine (C83_inverse σ m ae hm b hb hp p heta ls hls y).2.trans ?_
  refine mul_le_mul_of_nonneg_left ?_ (Real.sqrt_nonneg _)
  rw [div_eq_mul_one_div]
  refine mul_le_mul_of_nonneg_left ?_ (sensitivity_nonneg m heta)
  have e : vecNorm (allEqs b.eqs).length (applied ls (allEqs b.eqs).length y) = ‖ls.rhsVal‖ := by
    rw [← vecNorm_target (show ls.rhsRow < (allEqs b.eqs).length by omega)]
    exact vecNorm_congr (fun i hi => hy i hi)
  rw [e, hval]
  exact G0_norm_le _ _ _ _ _ heta

/-- **C112**, one call that computes: MUMPS may return any vector. If its factors invert the matrix up to a relative error
`δ < 1` and no failed residual check is reported, the number differs from the exact one by at most
`rtol (1 + δ)/(1 - δ) √(Π N!) (1 + Σ |g| √N / eta) / eta`. -/
theorem C112_certified (σ : SetOrder) (m : Model ℝ) (ae : Int) (hm : WellFormed m ae) (b : Built ℝ)
    (hb : buildSystem σ m = .ok b) (hp : Physical m) (p : Point ℝ) (heta : 0 < p.eta) (size : Nat)
    (hs : 1 ≤ size) (hN : size ≤ (allEqs b.eqs).length) (δ rtol : ℝ) (hδ : δ < 1) (hδ0 : 0 ≤ δ) (hr : 0 ≤ rtol)
    (mumps : DistSys ℂ → Py (MumpsRun ℂ)) (hrun : Factorises δ mumps) (negative : ℂ → Bool)
    (dir dir' : Option (Dict PyStr ℂ)) (G : ℂ) (info : SolveMeta ℝ) (notes : List Note)
    (h : massSolve realPhys m (fullBasis b.eqs) b.eqs mumps realNorm negative size rtol dir p =
      (.ok (G, some info), dir', notes)) (hnote : Note.residual ∉ notes) :
    Within m b (certified m δ rtol p.eta) p G := by
  intro G1 hG1
  obtain ⟨ls, d, e1, e2, e3, e4, e5⟩ := petscScaffold_ok σ m ae hm b hb realPhys p size hs
  obtain ⟨ls', G', k1, -, ⟨y, hy⟩, hun, k5, k6⟩ := C22_nonsingular σ m ae hm b hb hp p heta
  rw [e1] at k1; cases k1
  have hG1 : G1 = G' := by
    rcases hG1 with ⟨sp, e, e'⟩ | e
    · rw [k5 sp e] at e'; cases e'; rfl
    · rw [k6] at e; cases e; rfl
  subst hG1
  obtain ⟨ls', q1, -, q3, -⟩ := (C21_sparse_dense_agree σ m ae hm b hb realPhys p).2 G1 k6
  rw [e1] at q1; cases q1
  have hyG : y ls.rhsRow = G1 := (q3 y hy).1
  have hny := solution_norm σ m ae hm b hb hp p heta ls e1 y hy
  unfold massSolve at h
  cases hpre : preSolve ⟨dir, []⟩ p with
  | some v => rw [hpre] at h; simp at h
  | none =>
    rw [hpre, e2] at h
    simp only at h
    cases hmu : mumps d with
    | error e => rw [hmu] at h; simp at h
    | ok run =>
      obtain ⟨hlen, hinv⟩ := hrun d run hmu
      rw [hmu] at h
      simp only at h
      rw [readG_ok d.n size hs (by omega) run.x hlen] at h
      simp only [Prod.mk.injEq, Except.ok.injEq] at h
      obtain ⟨⟨rfl, -⟩, -, hn⟩ := h
      have hex : tolExcess realNorm d run rtol ≤ 0 := by
        by_contra hc
        apply hnote
        rw [← hn]
        simp [residualNotes, not_le.1 hc]
      have h1 := (excess_near d run hr hinv hlen y ((e4 y).2 hy)).1.trans hex
      rw [realNorm_range] at h1
      have h2 : ‖run.x[d.n - 1]'(by omega) - G1‖ ≤ realNorm (diff ((List.range d.n).map y) run.x) := by
        rw [norm_sub_rev, ← hyG]
        apply norm_le_realNorm
        rw [List.mem_iff_getElem]
        refine ⟨d.n - 1, by simp [diff, hlen]; omega, ?_⟩
        simp only [diff, List.getElem_zipWith, List.getElem_map, List.getElem_range]
        rw [show ls.rhsRow = d.n - 1 by omega]
      refine h2.trans ?_
      have hpos : 0 < 1 - δ := by linarith
      rw [e3] at h1
      have h3 : rtol * ((1 + δ) * vecNorm (allEqs b.eqs).length y) ≤
          rtol * ((1 + δ) * (√(factorials m) * (sensitivity m p.eta / p.eta))) :=
        mul_le_mul_of_nonneg_left (mul_le_mul_of_nonneg_left hny (by linarith)) hr
      unfold certified
      rw [div_mul_eq_mul_div, le_div_iff₀ hpos]
      rw [e3] at *
      linarith

/-- **C112**, no false alarms: if the vector MUMPS returns is closer to the solution than `rtol (1 - δ)/(1 + δ)` times its
norm, no failed residual check is reported. -/
theorem C112_quiet (F : Phys ℝ ℂ) (m : Model ℝ) (basis : Dict PyStr Nat) (eqs : Dict Nat (List (Equation ℝ)))
    (mumps : DistSys ℂ → Py (MumpsRun ℂ)) (negative : ℂ → Bool) (size : Nat) (δ rtol : ℝ) (hr : 0 ≤ rtol)
    (hrun : Factorises δ mumps) (dir : Option (Dict PyStr ℂ)) (p : Point ℝ)
    (hgood : ∀ d run, petscScaffold F m p basis eqs size = .ok d → mumps d = .ok run → ∃ y, DistSolution d y ∧
      (1 + δ) * realNorm (diff ((List.range d.n).map y) run.x) ≤ rtol * ((1 - δ) * realNorm ((List.range d.n).map y))) :
    Note.residual ∉ (massSolve F m basis eqs mumps realNorm negative size rtol dir p).2.2 := by
  unfold massSolve
  cases hpre : preSolve ⟨dir, []⟩ p with
  | some v => simp
  | none =>
    simp only
    cases hd : petscScaffold F m p basis eqs size with
    | error e => simp
    | ok d =>
      simp only
      cases hmu : mumps d with
      | error e => simp
      | ok run =>
        obtain ⟨y, hy, hle⟩ := hgood d run hd hmu
        obtain ⟨hlen, hinv⟩ := hrun d run hmu
        have h1 := (excess_near d run hr hinv hlen y hy).2
        have hex : ¬ (tolExcess realNorm d run rtol > 0) := by linarith
        have hm : Note.residual ∉ mumpsNotes run.infog1 := by
          unfold mumpsNotes
          split_ifs <;> simp
        simp only
        cases readG d.n size run.x with
        | error e => simp [residualNotes, hex, hm]
        | ok G =>
          simp only [residualNotes, hex, if_false, List.nil_append, List.mem_append, not_or]
          refine ⟨hm, ?_⟩
          split_ifs <;> simp

theorem interaction_nonneg (m : Model ℝ) : 0 ≤ interaction m := by
  unfold interaction
  exact List.sum_nonneg (fun x hx => by
    obtain ⟨h, -, rfl⟩ := List.mem_map.1 hx
    positivity)

theorem certified_mono (m : Model ℝ) {δ r r' x y : ℝ} (hδ : δ < 1) (hδ0 : 0 ≤ δ) (hr : 0 ≤ r) (hrr : r ≤ r') (hx : 0 < x)
    (hxy : x ≤ y) : certified m δ r y ≤ certified m δ r' x := by
  have hi := interaction_nonneg m
  have hpos : 0 < 1 - δ := by linarith
  have hy : 0 < y := lt_of_lt_of_le hx hxy
  have h0 : 0 ≤ r' * (1 + δ) / (1 - δ) := by
    have : 0 ≤ r' := hr.trans hrr
    positivity
  unfold certified sensitivity
  gcongr

/-- every stored number is as accurate as a certified one, for some point with that file name -/
def CertifiedDir (m : Model ℝ) (b : Built ℝ) (δ r : ℝ) (dir : Option (Dict PyStr ℂ)) : Prop :=
  ∀ d, dir = some d → ∀ c v, d.get? c = some v →
    ∃ p : Point ℝ, cacheKey p = c ∧ (0 < p.eta → Within m b (certified m δ r p.eta) p v)

/-- the three ways a call can end -/
theorem massSolve_cases (F : Phys ℝ ℂ) (m : Model ℝ) (basis : Dict PyStr Nat) (eqs : Dict Nat (List (Equation ℝ)))
    (mumps : DistSys ℂ → Py (MumpsRun ℂ)) (negative : ℂ → Bool) (size : Nat) (rtol : ℝ)
    (dir : Option (Dict PyStr ℂ)) (p : Point ℝ) :
    (∃ d G, dir = some d ∧ d.get? (cacheKey p) = some G ∧
      massSolve F m basis eqs mumps realNorm negative size rtol dir p = (.ok (G, none), dir, [])) ∨
    (∃ e notes, massSolve F m basis eqs mumps realNorm negative size rtol dir p = (.error e, dir, notes)) ∨
    (∃ G info notes, massSolve F m basis eqs mumps realNorm negative size rtol dir p =
      (.ok (G, some info), dir.map (fun d => d.set (cacheKey p) G), notes)) := by
  unfold massSolve
  cases hpre : preSolve ⟨dir, []⟩ p with
  | some v =>
    left
    cases dir with
    | none => simp [preSolve] at hpre
    | some d => exact ⟨d, v, rfl, hpre, rfl⟩
  | none =>
    right
    simp only
    cases petscScaffold F m p basis eqs size with
    | error e => exact Or.inl ⟨e, [], rfl⟩
    | ok d =>
      simp only
      cases mumps d with
      | error e => exact Or.inl ⟨e, [], rfl⟩
      | ok run =>
        simp only
        cases readG d.n size run.x with
        | error e => exact Or.inl ⟨e, _, rfl⟩
        | ok G => exact Or.inr ⟨G, _, _, rfl⟩

/-- **C112**, a session: calls one after the other on one results directory, at any points, with any numbers of ranks and
with any behaviour of MUMPS as long as its factors are good to `δ`. If no failed residual check was reported, every number
that was returned, whether computed or read from a file, is as accurate as the tolerance and ten decimals allow. -/
theorem C112_session (σ : SetOrder) (m : Model ℝ) (ae : Int) (hm : WellFormed m ae) (b : Built ℝ)
    (hb : buildSystem σ m = .ok b) (hp : Physical m) (δ r : ℝ) (hδ : δ < 1) (hδ0 : 0 ≤ δ) (negative : ℂ → Bool)
    (calls : List MassCall) (hc : ∀ c ∈ calls, Factorises δ c.mumps ∧ 1 ≤ c.size ∧ c.size ≤ (allEqs b.eqs).length ∧
      0 ≤ c.rtol ∧ c.rtol ≤ r) :
    ∀ dir, CertifiedDir m b δ r dir → Note.residual ∉ (massSession m b negative dir calls).2 →
      List.Forall₂ (fun c x => ∀ G info, x = .ok (G, info) → 4 / 10 ^ 10 ≤ c.point.eta →
          Within m b (certified m δ r (c.point.eta - 1 / 10 ^ 10) + decimals m c.point.eta) c.point G)
        calls (massSession m b negative dir calls).1 := by
  induction calls with
  | nil => intro dir _ _; exact .nil
  | cons c cs ih =>
    intro dir hdir hnote
    obtain ⟨hf, h1, h2, h3, h4⟩ := hc c (by simp)
    have ih' := ih (fun c' hc' => hc c' (by simp [hc']))
    unfold massSession at hnote ⊢
    simp only [List.mem_append, not_or] at hnote ⊢
    obtain ⟨hn1, hn2⟩ := hnote
    have hte : (0 : ℝ) < 1 / 10 ^ 10 := by positivity
    have h40 : (4 : ℝ) / 10 ^ 10 = 4 * (1 / 10 ^ 10) := by ring
    rcases massSolve_cases realPhys m (fullBasis b.eqs) b.eqs c.mumps negative c.size c.rtol dir c.point with
      ⟨d, G, rfl, hG, e⟩ | ⟨er, notes, e⟩ | ⟨G, info, notes, e⟩
    · rw [e] at hn2 ⊢
      refine .cons (fun G' info' hx heta => ?_) (ih' _ hdir hn2)
      simp only [Except.ok.injEq, Prod.mk.injEq] at hx
      obtain ⟨rfl, -⟩ := hx
      obtain ⟨q, hq, hw⟩ := hdir d rfl _ _ hG
      have hq3 := abs_le.1 (C31_key_near q c.point hq).2.2
      refine within_key σ m ae hm b hb hp hq heta (fun hpos G1 hG1 => ?_)
      refine (hw hpos G1 hG1).trans (certified_mono m hδ hδ0 (h3.trans h4) le_rfl ?_ ?_)
      · linarith
      · linarith
    · rw [e] at hn2 ⊢
      exact .cons (fun G' info' hx _ => by cases hx) (ih' _ hdir hn2)
    · rw [e] at hn1 hn2 ⊢
      have hcert : ∀ h0 : 0 < c.point.eta, Within m b (certified m δ c.rtol c.point.eta) c.point G := fun h0 =>
        C112_certified σ m ae hm b hb hp c.point h0 c.size h1 h2 δ c.rtol hδ hδ0 h3 c.mumps hf negative dir _ G info notes e hn1
      refine .cons (fun G' info' hx heta => ?_) (ih' _ ?_ hn2)
      · simp only [Except.ok.injEq, Prod.mk.injEq] at hx
        obtain ⟨rfl, -⟩ := hx
        have h0 : 0 < c.point.eta := by linarith
        intro G1 hG1
        refine (hcert h0 G1 hG1).trans ?_
        have := certified_mono m hδ hδ0 h3 h4 (show 0 < c.point.eta - 1 / 10 ^ 10 by linarith)
          (show c.point.eta - 1 / 10 ^ 10 ≤ c.point.eta by linarith)
        have := decimals_nonneg m c.point.eta
        linarith
      · intro d' hd' k v hv
        cases dir with
        | none => simp at hd'
        | some d =>
          simp only [Option.map_some, Option.some.injEq] at hd'
          subst hd'
          rw [get?_set] at hv
          split_ifs at hv with hk
          · cases hv
            exact ⟨c.point, hk, fun h0 G1 hG1 => (hcert h0 G1 hG1).trans (certified_mono m hδ hδ0 h3 h4 h0 le_rfl)⟩
          · exact hdir d rfl k v hv

/-- **C112** for models assembled by calls of `add_`, with the tolerance of the code and an empty directory. -/
theorem C112_assembled (σ : SetOrder) (hopping lattice T : ℝ) (hl : hopping = 0 ∨ (0 < hopping ∧ lattice = 1))
    (cap : Option Int) (hcap : ∀ c, cap = some c → 1 ≤ c) (as : List (AddArgs ℝ)) (hne : as ≠ [])
    (hc : Clean realPrims hopping T as) (hf : ((modes T as).map (·.freq)).Nodup)
    (hbp : (∀ a ∈ as, a.ctype = "BondPeierls") ∨ (∀ a ∈ as, a.ctype ≠ "BondPeierls")) (negative : ℂ → Bool) :
    ∃ m b, (Model.fromParameters hopping lattice T cap 1).adds realPrims as = .ok m ∧ buildSystem σ m = .ok b ∧
      ∀ calls : List MassCall, (∀ c ∈ calls, Factorises (1 / 2) c.mumps ∧ c.size = 1 ∧ c.rtol = 1 / 10 ^ 10) →
        Note.residual ∉ (massSession m b negative (some []) calls).2 →
        List.Forall₂ (fun c x => ∀ G info, x = .ok (G, info) → 4 / 10 ^ 10 ≤ c.point.eta →
            Within m b (certified m (1 / 2) (1 / 10 ^ 10) (c.point.eta - 1 / 10 ^ 10) + decimals m c.point.eta) c.point G)
          calls (massSession m b negative (some []) calls).1 := by
  obtain ⟨m, b, h1, ⟨ae, h2⟩, h3⟩ := C16_assembled σ realPrims C42_names hopping lattice T cap hcap as hne hc hf hbp
  have hp := physical_assembled h1 hbp hl
  refine ⟨m, b, h1, h3, fun calls hcalls hn => ?_⟩
  refine C112_session σ m ae h2 b h3 hp (1 / 2) (1 / 10 ^ 10) (by norm_num) (by norm_num) negative calls (fun c hc => ?_)
    (some []) (by intro d hd c v hv; cases hd; cases hv) hn
  obtain ⟨a1, a2, a3⟩ := hcalls c hc
  have := (ready_of_built h2 h3).length_pos
  exact ⟨a1, by omega, by omega, by rw [a3]; positivity, by rw [a3]⟩

/-- Exact factors meet the premise for every `δ ≥ 0`, and so do factors that are off by the factor `1 + δ`. -/
theorem factorises_scaled {δ : ℝ} (hδ : 0 ≤ δ) {d : DistSys ℂ} {pc : List ℂ → List ℂ} (h : Inverts d pc) :
    NearInverse δ d pc ∧ NearInverse δ d (fun v => (pc v).map (fun z => ((1 + δ : ℝ) : ℂ) * z)) := by
  constructor
  · intro v hv
    rw [h v hv]
    refine ⟨hv, ?_⟩
    have : realNorm (diff v v) = 0 := by
      simp [realNorm, diff, List.zipWith_self]
    rw [this]
    exact mul_nonneg hδ (realNorm_nonneg v)
  · intro v hv
    simp only [h v hv, List.length_map, hv, true_and]
    rw [realNorm_eq, realNorm_eq]
    have hl : (diff (v.map (fun z => ((1 + δ : ℝ) : ℂ) * z)) v).length = v.length := by simp [diff]
    rw [hl]
    have e : ∀ i, (diff (v.map (fun z => ((1 + δ : ℝ) : ℂ) * z)) v).getD i 0 = (δ : ℂ) * v.getD i 0 := by
      intro i
      rw [diff_getD (by simp)]
      simp only [List.getD_eq_getElem?_getD, List.getElem?_map]
      cases v[i]? with
      | none => simp
      | some z => simp; ring
    simp only [e]
    unfold vecNorm
    nth_rewrite 2 [← Real.sqrt_sq hδ]
    rw [← Real.sqrt_mul (sq_nonneg _), Finset.mul_sum]
    refine le_of_eq ?_
    congr 1
    refine Finset.sum_congr rfl (fun i _ => ?_)
    rw [norm_mul, Complex.norm_real, Real.norm_of_nonneg hδ]
    ring

/-- The premises hold for every physical model: there are runs with factors that are wrong by one half, whose number is
returned without any message. -/
example (σ : SetOrder) (m : Model ℝ) (ae : Int) (hm : WellFormed m ae) (b : Built ℝ)
    (hb : buildSystem σ m = .ok b) (hp : Physical m) (p : Point ℝ) (heta : 0 < p.eta) :
    ∃ mumps, Factorises (1 / 2) mumps ∧ (∃ d run, mumps d = .ok run ∧ ¬ Inverts d run.pc) ∧
      ∃ G info, massSession m b (fun _ => false) (some []) [⟨mumps, 1, 1 / 10 ^ 10, p⟩] = ([.ok (G, some info)], []) := by
  obtain ⟨mumps, h1, h2⟩ := exists_run
  obtain ⟨ls, d, e1, e2, e3, e4, e5⟩ := petscScaffold_ok σ m ae hm b hb realPhys p 1 le_rfl
  obtain ⟨ls', G', k1, -, hex, hun, -, k6⟩ := C22_nonsingular σ m ae hm b hb hp p heta
  rw [e1] at k1; cases k1
  obtain ⟨run, r1, r2, r3, r4, r5⟩ := h2 d (hex.imp fun x hx => (e4 x).2 hx) (fun x y hx hy => by
    rw [e3]; exact hun x y ((e4 x).1 hx) ((e4 y).1 hy))
  let pc' : List ℂ → List ℂ := fun v => (run.pc v).map (fun z => ((1 + 1 / 2 : ℝ) : ℂ) * z)
  let mumps' : DistSys ℂ → Py (MumpsRun ℂ) := fun d' => match mumps d' with
    | .ok run' => .ok { run' with pc := fun v => (run'.pc v).map (fun z => ((1 + 1 / 2 : ℝ) : ℂ) * z) }
    | .error e => .error e
  have hf : Factorises (1 / 2) mumps' := by
    intro d' run' h
    simp only [mumps'] at h
    split at h
    · rename_i run'' hh
      cases h
      obtain ⟨a1, a2⟩ := h1 _ _ hh
      exact ⟨a1, (factorises_scaled (by norm_num) a2).2⟩
    · cases h
  have hm' : mumps' d = .ok { run with pc := pc' } := by simp only [mumps', r1, pc']
  refine ⟨mumps', hf, ⟨d, _, hm', ?_⟩, ?_⟩
  · intro h
    have hpos := (ready_of_built hm hb).length_pos
    have := h (List.replicate d.n 1) (by simp)
    simp only [pc', r3 (List.replicate d.n 1) (by simp), List.map_replicate] at this
    have h0 : d.n ≠ 0 := by omega
    rw [List.replicate_right_inj h0] at this
    norm_num at this
  · have hx : (List.range d.n).map (fun i => run.x.getD i 0) = run.x := by
      apply List.ext_getElem
      · simp [r2]
      · intro i h1 h2
        simp [List.getD_eq_getElem?_getD, h2]
    have hex := (excess_near d { run with pc := pc' } (rtol := 1 / 10 ^ 10) (δ := 1 / 2) (by positivity)
      (factorises_scaled (by norm_num) r3).2 r2 _ r4).2
    have hz : realNorm (diff run.x run.x) = 0 := by simp [realNorm, diff, List.zipWith_self]
    have h0 := realNorm_nonneg run.x
    rw [hx, hz] at hex
    have hneg : ¬ (tolExcess realNorm d { run with pc := pc' } (1 / 10 ^ 10) > 0) := by
      have : (0 : ℝ) ≤ 1 / 10 ^ 10 * ((1 - 1 / 2) * realNorm run.x) := by positivity
      linarith
    have hpos := (ready_of_built hm hb).length_pos
    have hpre : preSolve (⟨some [], []⟩ : CacheState ℝ ℂ) p = none := rfl
    refine ⟨run.x[d.n - 1]'(by omega), ⟨run.infog1, totalMem run.infog31,
      tolExcess realNorm d { run with pc := pc' } (1 / 10 ^ 10)⟩, ?_⟩
    simp only [r5] at hneg
    unfold massSession massSolve
    simp only [hpre, e2, hm', readG_ok d.n 1 le_rfl (by omega) run.x r2, massSession, residualNotes, hneg, if_false, r5,
      mumpsNotes, if_true, postSolve, Bool.false_eq_true]
    rfl

end GGCE.Props
