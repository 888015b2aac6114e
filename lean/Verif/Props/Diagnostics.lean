import Verif.Spec.Diagnostics
import Verif.Props.Petsc
import Verif.Props.Cache

/-!
Property C73: what the checks of the PETSc solver on its own result are worth.
-/

set_option linter.unusedSectionVars false

namespace GGCE.Props
open Spec Dict Petsc

theorem norm_le_realNorm {x : List ℂ} {z : ℂ} (h : z ∈ x) : ‖z‖ ≤ realNorm x := by
  unfold realNorm
  apply Real.le_sqrt_of_sq_le
  exact List.single_le_sum (by simp only [List.mem_map]; rintro _ ⟨y, -, rfl⟩; positivity) _ (List.mem_map.2 ⟨z, h, rfl⟩)

theorem realNorm_nonneg (x : List ℂ) : 0 ≤ realNorm x := Real.sqrt_nonneg _

theorem sum_range_list (n : Nat) (f : Nat → ℂ) : ((List.range n).map f).sum = ∑ j ∈ Finset.range n, f j := rfl

/-- the vector of a solution -/
theorem mul_solution {d : DistSys ℂ} {x : Nat → ℂ} (h : DistSolution d x) :
    d.mul ((List.range d.n).map x) = d.rhsVec := by
  unfold DistSys.mul DistSys.rhsVec
  apply List.map_congr_left
  intro i hi
  rw [← h i (List.mem_range.1 hi), sum_range_list]
  apply Finset.sum_congr rfl
  intro j hj
  rw [Finset.mem_range] at hj
  simp [List.getD_eq_getElem?_getD, hj]

theorem distMul_sub (d : DistSys ℂ) (x y : List ℂ) (hx : x.length = d.n) (hy : y.length = d.n) :
    List.zipWith (· - ·) (d.mul x) (d.mul y) = d.mul (List.zipWith (· - ·) x y) := by
  unfold DistSys.mul
  rw [List.zipWith_map_left, List.zipWith_map_right, List.zipWith_self]
  apply List.map_congr_left
  intro i _
  simp only [sum_range_list]
  rw [← Finset.sum_sub_distrib]
  apply Finset.sum_congr rfl
  intro j hj
  rw [Finset.mem_range] at hj
  rw [← mul_sub]
  congr 1
  simp [List.getD_eq_getElem?_getD, hx, hy, hj]

/-- The residual check measures the distance to the exact solution: if the preconditioner is the inverse,
the excess is the norm of the error minus `rtol` times the norm of the solution. -/
theorem C73_excess (d : DistSys ℂ) (run : MumpsRun ℂ) (rtol : ℝ) (hpc : Inverts d run.pc) (hx : run.x.length = d.n)
    (y : Nat → ℂ) (hy : DistSolution d y) :
    tolExcess realNorm d run rtol =
      realNorm (List.zipWith (· - ·) ((List.range d.n).map y) run.x) - rtol * realNorm ((List.range d.n).map y) := by
  unfold tolExcess
  rw [← mul_solution hy, distMul_sub _ _ _ (by simp) hx, hpc _ (by simp [hx]), hpc _ (by simp)]

/-- C73, the part that holds: for a physical model and positive broadening, if the preconditioner is the inverse
of the matrix and the solver reports no failed residual check, the value it returns is within `rtol` times the
norm of the exact solution of the value of the serial solvers. What is missing: values with a report are
returned and stored like any other (`C73_flagged_stored`), and without an accurate preconditioner there may be
no report (`C73_blind`). -/
theorem C73_certified_partial (σ : SetOrder) (m : Model ℝ) (ae : Int) (hm : WellFormed m ae) (b : Built ℝ)
    (hb : buildSystem σ m = .ok b) (hp : Physical m) (p : Point ℝ) (heta : 0 < p.eta) (size : Nat)
    (hs : 1 ≤ size) (hN : size ≤ (allEqs b.eqs).length) (mumps : DistSys ℂ → Py (MumpsRun ℂ))
    (hrun : ∀ d run, mumps d = .ok run → run.x.length = d.n ∧ Inverts d run.pc) (negative : ℂ → Bool)
    (rtol : ℝ) (dir dir' : Option (Dict PyStr ℂ)) (G : ℂ) (info : SolveMeta ℝ) (notes : List Note)
    (h : massSolve realPhys m (fullBasis b.eqs) b.eqs mumps realNorm negative size rtol dir p =
      (.ok (G, some info), dir', notes)) (hnote : Note.residual ∉ notes) :
    ∃ G' d y, denseSolve realPhys m p (localBasis b.eqs) b.eqs = .ok (some G') ∧
      petscScaffold realPhys m p (fullBasis b.eqs) b.eqs size = .ok d ∧ DistSolution d y ∧
      ‖G - G'‖ ≤ rtol * realNorm ((List.range d.n).map y) := by
  obtain ⟨ls, d, e1, e2, e3, e4, e5⟩ := petscScaffold_ok σ m ae hm b hb realPhys p size hs
  obtain ⟨ls', G', k1, -, ⟨y, hy⟩, hun, -, k6⟩ := C22_nonsingular σ m ae hm b hb hp p heta
  rw [e1] at k1; cases k1
  obtain ⟨ls', q1, -, q3, -⟩ := (C21_sparse_dense_agree σ m ae hm b hb realPhys p).2 G' k6
  rw [e1] at q1; cases q1
  have hyG : y ls.rhsRow = G' := (q3 y hy).1
  refine ⟨G', d, y, k6, e2, (e4 y).2 hy, ?_⟩
  unfold massSolve at h
  cases hpre : preSolve ⟨dir, []⟩ p with
  | some v => rw [hpre] at h; simp at h
  | none =>
    rw [hpre, e2] at h
    simp only at h
    cases hmu : mumps d with
    | error e => rw [hmu] at h; simp at h
    | ok run =>
      obtain ⟨hlen, hinv⟩ := hrun d run hmu
      rw [hmu] at h
      simp only at h
      rw [readG_ok d.n size hs (by omega) run.x hlen] at h
      simp only [Prod.mk.injEq, Except.ok.injEq] at h
      obtain ⟨⟨rfl, -⟩, -, hn⟩ := h
      have hex : tolExcess realNorm d run rtol ≤ 0 := by
        by_contra hc
        apply hnote
        rw [← hn]
        simp [residualNotes, not_le.1 hc]
      rw [C73_excess d run rtol hinv hlen y ((e4 y).2 hy)] at hex
      refine le_trans ?_ (sub_nonpos.1 hex)
      rw [norm_sub_rev, ← hyG]
      apply norm_le_realNorm
      rw [List.mem_iff_getElem]
      refine ⟨d.n - 1, by simp [hlen]; omega, ?_⟩
      simp only [List.getElem_zipWith, List.getElem_map, List.getElem_range]
      rw [show ls.rhsRow = d.n - 1 by omega]

/-- C73, no false alarms: if MUMPS returns the exact solution with exit code 0, nothing is reported, the excess
is `-rtol` times the norm of the solution, and the value is that of the serial solvers. -/
theorem C73_quiet (σ : SetOrder) (m : Model ℝ) (ae : Int) (hm : WellFormed m ae) (b : Built ℝ)
    (hb : buildSystem σ m = .ok b) (hp : Physical m) (p : Point ℝ) (heta : 0 < p.eta) (size : Nat)
    (hs : 1 ≤ size) (hN : size ≤ (allEqs b.eqs).length) (mumps : DistSys ℂ → Py (MumpsRun ℂ))
    (hrun : ∀ d, petscScaffold realPhys m p (fullBasis b.eqs) b.eqs size = .ok d → ∃ run, mumps d = .ok run ∧
      run.x.length = d.n ∧ Inverts d run.pc ∧ DistSolution d (fun i => run.x.getD i 0) ∧ run.infog1 = 0)
    (rtol : ℝ) (hr : 0 ≤ rtol) (dir : Dict PyStr ℂ) (hd : dir.get? (cacheKey p) = none) :
    ∃ G info dir', massSolve realPhys m (fullBasis b.eqs) b.eqs mumps realNorm (fun G => negativeA (some G)) size rtol
        (some dir) p = (.ok (G, some info), some dir', []) ∧
      denseSolve realPhys m p (localBasis b.eqs) b.eqs = .ok (some G) ∧ info.exitCode = 0 ∧ info.excess ≤ 0 := by
  obtain ⟨ls, d, e1, e2, e3, e4, e5⟩ := petscScaffold_ok σ m ae hm b hb realPhys p size hs
  obtain ⟨ls', G', k1, -, ⟨y, hy⟩, hun, -, k6⟩ := C22_nonsingular σ m ae hm b hb hp p heta
  rw [e1] at k1; cases k1
  obtain ⟨ls', q1, -, q3, -⟩ := (C21_sparse_dense_agree σ m ae hm b hb realPhys p).2 G' k6
  rw [e1] at q1; cases q1
  obtain ⟨run, hmu, hlen, hinv, hsol, hcode⟩ := hrun d e2
  have hG : run.x[d.n - 1]'(by omega) = G' := by
    rw [← (q3 _ ((e4 _).1 hsol)).1, show ls.rhsRow = d.n - 1 by omega, List.getD_eq_getElem?_getD,
      List.getElem?_eq_getElem (by omega), Option.getD_some]
  have hex : tolExcess realNorm d run rtol ≤ 0 := by
    rw [C73_excess d run rtol hinv hlen _ hsol]
    have : (List.range d.n).map (fun i => run.x.getD i 0) = run.x := by
      apply List.ext_getElem (by simp [hlen])
      intro i h1 h2
      simp [List.getD_eq_getElem?_getD, List.getElem?_eq_getElem h2]
    rw [this]
    have hz : realNorm (List.zipWith (· - ·) run.x run.x) = 0 := by
      unfold realNorm
      rw [List.zipWith_self]
      simp
    rw [hz, zero_sub]
    exact neg_nonpos.2 (mul_nonneg hr (realNorm_nonneg _))
  have hneg : negativeA (some G') = false := by
    have := (C23_spectral_positive σ m ae hm b hb hp p heta G' (Or.inr k6)).1
    unfold negativeA
    simp [this.le]
  refine ⟨G', ⟨0, totalMem run.infog31, tolExcess realNorm d run rtol⟩, dir.set (cacheKey p) G', ?_, k6, rfl, hex⟩
  unfold massSolve preSolve
  simp only [hd, e2, hmu, readG_ok d.n size hs (by omega) run.x hlen, hG, postSolve, hneg, hcode]
  simp [residualNotes, mumpsNotes, not_lt.2 hex]

section Failures
variable {R K : Type} [Field R] [LinearOrder R] [Field K] [FloorRing R]

/-- C73 is false: whatever MUMPS reports and however large the residual is, the value is returned, stored, and
given out by the next call without any message and without meta information. -/
theorem C73_flagged_stored (σ : SetOrder) (m : Model R) (ae : Int) (hm : WellFormed m ae) (b : Built R)
    (hb : buildSystem σ m = .ok b) (F : Phys R K) (p : Point R) (size : Nat) (hs : 1 ≤ size)
    (hN : size ≤ (allEqs b.eqs).length) (nrm : List K → R) (negative : K → Bool) (rtol : R) (dir : Dict PyStr K)
    (hd : dir.get? (cacheKey p) = none) (code : Int) (hcode : code < 0) (G : K) (pc : List K → List K) :
    ∃ mumps : DistSys K → Py (MumpsRun K), ∃ dir' info notes,
      massSolve F m (fullBasis b.eqs) b.eqs mumps nrm negative size rtol (some dir) p =
        (.ok (G, some info), some dir', notes) ∧ info.exitCode = code ∧ Note.mumpsError ∈ notes ∧
      massSolve F m (fullBasis b.eqs) b.eqs mumps nrm negative size rtol (some dir') p =
        (.ok (G, none), some dir', []) := by
  obtain ⟨ls, d, e1, e2, e3, e4, e5⟩ := petscScaffold_ok σ m ae hm b hb F p size hs
  refine ⟨fun d => .ok ⟨List.replicate d.n G, pc, code, 0⟩, dir.set (cacheKey p) G,
    ⟨code, totalMem 0, tolExcess nrm d ⟨List.replicate d.n G, pc, code, 0⟩ rtol⟩,
    residualNotes (tolExcess nrm d ⟨List.replicate d.n G, pc, code, 0⟩ rtol) ++ mumpsNotes code ++
      (if negative G then [.negative] else []), ?_, rfl, ?_, ?_⟩
  · unfold massSolve preSolve
    simp only [hd, e2, readG_ok d.n size hs (by omega) (List.replicate d.n G) (by simp), List.getElem_replicate,
      postSolve, Option.map_some]
    by_cases hn : negative G = true <;> simp [hn]
  · have : mumpsNotes code = [.mumpsError] := by
      unfold mumpsNotes
      rw [if_neg (by omega), if_pos hcode]
    simp [this]
  · unfold massSolve preSolve
    simp only [get?_set, if_true]

/-- C73, the messages and the meta dictionary of a computed point: there is one message for each check that is not
passed, and no other; the exit code and the excess are those of the run that gave the value. -/
theorem C73_messages (F : Phys R K) (m : Model R) (basis : Dict PyStr Nat) (eqs : Dict Nat (List (Equation R)))
    (mumps : DistSys K → Py (MumpsRun K)) (nrm : List K → R) (negative : K → Bool) (size : Nat) (rtol : R)
    (dir dir' : Option (Dict PyStr K)) (p : Point R) (G : K) (info : SolveMeta R) (notes : List Note)
    (h : massSolve F m basis eqs mumps nrm negative size rtol dir p = (.ok (G, some info), dir', notes)) :
    ∃ d run, petscScaffold F m p basis eqs size = .ok d ∧ mumps d = .ok run ∧ info.exitCode = run.infog1 ∧
      info.excess = tolExcess nrm d run rtol ∧ info.memTot = totalMem run.infog31 ∧ notes.Nodup ∧
      (Note.residual ∈ notes ↔ 0 < info.excess) ∧ (Note.mumpsError ∈ notes ↔ info.exitCode < 0) ∧
      (Note.mumpsWarning ∈ notes ↔ 0 < info.exitCode) ∧ (Note.negative ∈ notes ↔ negative G = true) := by
  unfold massSolve at h
  cases hpre : preSolve ⟨dir, []⟩ p with
  | some v => rw [hpre] at h; simp at h
  | none =>
    rw [hpre] at h
    simp only at h
    cases hd : petscScaffold F m p basis eqs size with
    | error e => rw [hd] at h; simp at h
    | ok d =>
      rw [hd] at h
      simp only at h
      cases hmu : mumps d with
      | error e => rw [hmu] at h; simp at h
      | ok run =>
        rw [hmu] at h
        simp only at h
        cases hg : readG d.n size run.x with
        | error e => rw [hg] at h; simp at h
        | ok G' =>
          rw [hg] at h
          simp only [Prod.mk.injEq, Except.ok.injEq, Option.some.injEq] at h
          obtain ⟨⟨rfl, rfl⟩, -, rfl⟩ := h
          refine ⟨d, run, rfl, hmu, rfl, rfl, rfl, ?_⟩
          simp only [residualNotes, mumpsNotes, postSolve]
          rcases lt_trichotomy run.infog1 0 with h2 | h2 | h2
          · by_cases h1 : tolExcess nrm d run rtol > 0 <;> by_cases h4 : negative G' = true <;>
              simp [h1, h2, h4, h2.ne, h2.not_gt]
          · by_cases h1 : tolExcess nrm d run rtol > 0 <;> by_cases h4 : negative G' = true <;>
              simp [h1, h2, h4]
          · by_cases h1 : tolExcess nrm d run rtol > 0 <;> by_cases h4 : negative G' = true <;>
              simp [h1, h2, h4, h2.ne', h2.not_gt]

end Failures

/-- C73, the memory in the meta dictionary: MUMPS counts in millions of bytes; the reported number is in gigabytes
(`2^30` bytes) up to a relative error below `10^-6`, which is due to the constant in the code. -/
theorem C73_memory (x : Int) :
    |totalMem x - (x : ℝ) * 10 ^ 6 / 2 ^ 30| ≤ 1 / 10 ^ 6 * |(x : ℝ) * 10 ^ 6 / 2 ^ 30| ∧
      (x ≠ 0 → totalMem x ≠ (x : ℝ) * 10 ^ 6 / 2 ^ 30) := by
  have e : (totalMem x : ℝ) - x * 10 ^ 6 / 2 ^ 30 = (550 / 1073741274) * (x * 10 ^ 6 / 2 ^ 30) := by
    unfold totalMem bytesToGB
    ring
  constructor
  · rw [e, abs_mul]
    refine mul_le_mul_of_nonneg_right ?_ (abs_nonneg _)
    norm_num [abs_of_pos]
  · intro hx h
    rw [h, sub_self] at e
    have : (x : ℝ) ≠ 0 := by exact_mod_cast hx
    have h2 := e.symm
    simp [this] at h2

/-- C73 is false in a second way: the residual is measured after applying the preconditioner whose accuracy is in
question. A factorisation that returns zeros passes every check, and the value 0 it gives is never right. -/
theorem C73_blind (σ : SetOrder) (m : Model ℝ) (ae : Int) (hm : WellFormed m ae) (b : Built ℝ)
    (hb : buildSystem σ m = .ok b) (hp : Physical m) (p : Point ℝ) (heta : 0 < p.eta) (size : Nat)
    (hs : 1 ≤ size) (hN : size ≤ (allEqs b.eqs).length) (rtol : ℝ) (dir : Option (Dict PyStr ℂ))
    (hd : preSolve ⟨dir, []⟩ p = none) :
    ∃ dir' G', massSolve realPhys m (fullBasis b.eqs) b.eqs
        (fun d => .ok ⟨List.replicate d.n 0, fun _ => List.replicate d.n 0, 0, 0⟩) realNorm
        (fun G => negativeA (some G)) size rtol dir p = (.ok (0, some ⟨0, 0, 0⟩), dir', []) ∧
      denseSolve realPhys m p (localBasis b.eqs) b.eqs = .ok (some G') ∧ G' ≠ 0 := by
  obtain ⟨ls, d, e1, e2, e3, e4, e5⟩ := petscScaffold_ok σ m ae hm b hb realPhys p size hs
  obtain ⟨ls', G', -, -, -, -, -, k6⟩ := C22_nonsingular σ m ae hm b hb hp p heta
  have hz : realNorm (List.replicate d.n 0) = 0 := by simp [realNorm]
  refine ⟨(postSolve (fun G => negativeA (some G)) ⟨dir, []⟩ p (0 : ℂ)).dir, G', ?_, k6, ?_⟩
  · unfold massSolve
    simp only [hd, e2, readG_ok d.n size hs (by omega) (List.replicate d.n (0 : ℂ)) (by simp), List.getElem_replicate]
    simp [tolExcess, hz, residualNotes, mumpsNotes, postSolve, negativeA, totalMem]
  · rintro rfl
    have := (C23_spectral_positive σ m ae hm b hb hp p heta 0 (Or.inr k6)).1
    simp at this

open Classical in
/-- Runs as in `C73_certified_partial` and `C73_quiet` exist for every system with exactly one solution. -/
theorem exists_run : ∃ mumps : DistSys ℂ → Py (MumpsRun ℂ),
    (∀ d run, mumps d = .ok run → run.x.length = d.n ∧ Inverts d run.pc) ∧
    ∀ d, (∃ x, DistSolution d x) → (∀ x y, DistSolution d x → DistSolution d y → ∀ i < d.n, x i = y i) →
      ∃ run, mumps d = .ok run ∧ run.x.length = d.n ∧ Inverts d run.pc ∧
        DistSolution d (fun i => run.x.getD i 0) ∧ run.infog1 = 0 := by
  let inv : DistSys ℂ → List ℂ → List ℂ := fun d z =>
    if h : ∃ y : List ℂ, y.length = d.n ∧ d.mul y = z then h.choose else []
  obtain ⟨ksp, hk⟩ := exists_distExact (K := ℂ)
  refine ⟨fun d => match ksp d with
    | .ok x => if x.length = d.n ∧ Inverts d (inv d) then .ok ⟨x, inv d, 0, 0⟩ else .error .linAlgError
    | .error e => .error e, ?_, ?_⟩
  · intro d run h
    simp only at h
    split at h
    · split at h
      · rename_i hc
        cases h
        exact hc
      · cases h
    · cases h
  · intro d hex hun
    obtain ⟨l, k1, k2, k3⟩ := hk d hex hun
    have hinv : Inverts d (inv d) := by
      intro y hy
      have hc : ∃ y' : List ℂ, y'.length = d.n ∧ d.mul y' = d.mul y := ⟨y, hy, rfl⟩
      simp only [inv, dif_pos hc]
      obtain ⟨c1, c2⟩ := hc.choose_spec
      set y' := hc.choose
      obtain ⟨x, hx⟩ := hex
      have hsol : DistSolution d (fun j => x j + (y'.getD j 0 - y.getD j 0)) := by
        intro i hi
        simp only [mul_add, _root_.mul_sub, Finset.sum_add_distrib, Finset.sum_sub_distrib]
        rw [hx i hi]
        have := congrArg (fun l : List ℂ => l.getD i 0) c2
        simp only [DistSys.mul, List.getD_eq_getElem?_getD, List.getElem?_map, List.getElem?_range hi, Option.map_some,
          Option.getD_some, sum_range_list] at this
        simp only [List.getD_eq_getElem?_getD]
        rw [this]
        simp
      apply List.ext_getElem (by rw [c1, hy])
      intro i h1 h2
      have := hun _ _ hsol hx i (by omega)
      simp only [add_eq_left, sub_eq_zero, List.getD_eq_getElem?_getD, List.getElem?_eq_getElem h1,
        List.getElem?_eq_getElem h2, Option.getD_some] at this
      exact this
    refine ⟨⟨l, inv d, 0, 0⟩, ?_, k2, hinv, k3, rfl⟩
    simp [k1, k2, hinv]

/-- The hypotheses of `C73_certified_partial` and `C73_quiet` hold for every physical model: here on one rank
with the tolerance of the code. -/
example (σ : SetOrder) (m : Model ℝ) (ae : Int) (hm : WellFormed m ae) (b : Built ℝ)
    (hb : buildSystem σ m = .ok b) (hp : Physical m) (p : Point ℝ) (heta : 0 < p.eta) :
    ∃ mumps G info dir', massSolve realPhys m (fullBasis b.eqs) b.eqs mumps realNorm (fun G => negativeA (some G)) 1
        (10 ^ (-10 : ℤ)) (some []) p = (.ok (G, some info), some dir', []) ∧
      denseSolve realPhys m p (localBasis b.eqs) b.eqs = .ok (some G) ∧
      ∀ d run, mumps d = .ok run → run.x.length = d.n ∧ Inverts d run.pc := by
  obtain ⟨mumps, h1, h2⟩ := exists_run
  obtain ⟨ls, d, e1, e2, e3, e4, e5⟩ := petscScaffold_ok σ m ae hm b hb realPhys p 1 le_rfl
  obtain ⟨ls', G', k1, -, hex, hun, -, k6⟩ := C22_nonsingular σ m ae hm b hb hp p heta
  rw [e1] at k1; cases k1
  obtain ⟨G, info, dir', q1, q2, -⟩ := C73_quiet σ m ae hm b hb hp p heta 1 le_rfl (by omega) mumps (by
    intro d' hd'
    rw [e2] at hd'; cases hd'
    exact h2 d (hex.imp fun x hx => (e4 x).2 hx) (fun x y hx hy => by
      rw [e3]; exact hun x y ((e4 x).1 hx) ((e4 y).1 hy))) (10 ^ (-10 : ℤ)) (by positivity) [] rfl
  exact ⟨mumps, G, info, dir', q1, q2, h1⟩

end GGCE.Props
