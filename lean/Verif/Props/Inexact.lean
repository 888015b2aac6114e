import Verif.Props.Interrupt
import Verif.Props.Residual
import Verif.Spec.Inexact

/-! C108: programs, killed or not, whose linear solver is not exact. -/

set_option linter.unusedSectionVars false

namespace GGCE.Props
open GGCE.Spec

theorem vecNorm_nonneg' (n : ℕ) (x : ℕ → ℂ) : 0 ≤ vecNorm n x := Real.sqrt_nonneg _

theorem falls_residual (m : Model ℝ) {ρ : ℝ} (hρ : 0 ≤ ρ) : Falls (residualError m ρ) := by
  have hi : 0 ≤ interaction m := by
    unfold interaction
    exact List.sum_nonneg (fun x hx => by
      obtain ⟨h, -, rfl⟩ := List.mem_map.1 hx
      positivity)
  refine ⟨fun x h => ?_, fun x y h hxy => ?_⟩
  · unfold residualError sensitivity
    positivity
  · have hy : 0 < y := lt_of_lt_of_le h hxy
    unfold residualError sensitivity
    gcongr

theorem good_relative {m : Model ℝ} {ae : Int} (hm : WellFormed m ae) (hp : Physical m) {ρ : ℝ} (hρ : 0 ≤ ρ)
    (kind : SolverKind ℂ) (hk : KindRelative ρ kind) : Good m ae (residualError m ρ) kind := by
  intro o ho p v h0 hv
  cases o with
  | dense s basis =>
    have h1 : kind = .dense := ho.1
    obtain ⟨G, e1, e2⟩ := raw_exact (kind := kind) hm hp (by rw [h1]; trivial) ho p h0
    rw [e1] at hv
    cases hv
    exact ⟨G, G, rfl, e2, by simpa using (falls_residual m hρ).nonneg p.eta h0⟩
  | sparse s basis sp =>
    obtain ⟨rfl, hs, hbs⟩ := ho
    obtain ⟨σ, b, hb, he⟩ := hs.eqs
    have h5 : sparseSolve realPhys s.model p (fullBasis b.eqs) b.eqs sp =
        sparseSolve realPhys m p (fullBasis b.eqs) b.eqs sp := by
      rcases hs.model with e | e
      · rw [e]
      · rw [e, sparseSolve_jsonRT]
    simp only [SolverObj.raw, he, hbs _ he, h5] at hv
    obtain ⟨-, ls, -, k1, -, hrows, hcols, -, hrow, hval, -⟩ := C19_sparse_matrix σ m ae hm b hb realPhys p
    obtain ⟨ls', G, q1, -, q3, q4, -, q6⟩ := C22_nonsingular σ m ae hm b hb hp p h0
    rw [k1] at q1
    cases q1
    simp only [sparseSolve, k1, (ready_of_built hm hb).green_ix] at hv
    change (Except.map some (sp ls >>= fun res => pure (res ((allEqs b.eqs).length - 1)))) = _ at hv
    cases hx : sp ls with
    | error e => rw [hx] at hv; cases hv
    | ok x =>
      rw [hx] at hv
      have e1 : v = some (x ((allEqs b.eqs).length - 1)) := by cases hv; rfl
      have e2 : (allEqs b.eqs).length - 1 = ls.rhsRow := by omega
      obtain ⟨G', g1⟩ := exists_exactAt hm hp σ p
      refine ⟨_, G', e1, g1, ?_⟩
      rw [e2]
      have h6 := C83_residual σ m ae hm b hb hp p h0 ls k1 G' (exact_returned hm hb hp h0 g1) x
      have h7 := hk ls _ hrows hcols hrow q3 q4 x hx
      have h8 : ‖ls.rhsVal‖ ≤ 1 / p.eta := by rw [hval]; exact G0_norm_le _ _ _ _ _ h0
      refine h6.trans (mul_le_mul_of_nonneg_left (h7.trans ?_) (sensitivity_nonneg m h0))
      calc ρ * ‖ls.rhsVal‖ ≤ ρ * (1 / p.eta) := mul_le_mul_of_nonneg_left h8 hρ
        _ = ρ / p.eta := by ring

theorem good_answers {m : Model ℝ} {ae : Int} (hm : WellFormed m ae) (hp : Physical m) (kind : SolverKind ℂ)
    (hk : KindAnswers kind) (o : SolverObj ℝ ℂ) (ho : GoodObj m kind o) (p : Point ℝ) (h0 : 0 < p.eta) :
    ∃ G, o.raw realPhys p = .ok (some G) := by
  cases o with
  | dense s basis =>
    have h1 : kind = .dense := ho.1
    obtain ⟨G, e1, -⟩ := raw_exact (kind := kind) hm hp (by rw [h1]; trivial) ho p h0
    exact ⟨G, e1⟩
  | sparse s basis sp =>
    obtain ⟨rfl, hs, hbs⟩ := ho
    obtain ⟨σ, b, hb, he⟩ := hs.eqs
    have h5 : sparseSolve realPhys s.model p (fullBasis b.eqs) b.eqs sp =
        sparseSolve realPhys m p (fullBasis b.eqs) b.eqs sp := by
      rcases hs.model with e | e
      · rw [e]
      · rw [e, sparseSolve_jsonRT]
    obtain ⟨-, ls, -, k1, -, hrows, hcols, -, hrow, -⟩ := C19_sparse_matrix σ m ae hm b hb realPhys p
    obtain ⟨ls', G, q1, -, q3, q4, -⟩ := C22_nonsingular σ m ae hm b hb hp p h0
    rw [k1] at q1
    cases q1
    obtain ⟨x, hx⟩ := hk ls _ hrows hcols hrow q3 q4
    refine ⟨x ((allEqs b.eqs).length - 1), ?_⟩
    simp only [SolverObj.raw, he, hbs _ he, h5]
    simp only [sparseSolve, k1, (ready_of_built hm hb).green_ix]
    change (Except.map some (sp ls >>= fun res => pure (res ((allEqs b.eqs).length - 1)))) = _
    rw [hx]
    rfl

/-- **C108**. Take any disk that programs for one model have left, killed at any moment or not, which use the dense solver or
a sparse solver whose residuals are at most `ρ` times the right-hand side. Every number that a further such program prints
for a call with a broadening of at least `4e-10` differs from the exact one by at most
`(1 + Σ_h |g_h| √N_h / eta) ρ / eta` without a root. With a root, the errors of ten decimals in the names of the files are
added once, and do not pile up over the programs. -/
theorem C108_accuracy (m : Model ℝ) (ae : Int) (hm : WellFormed m ae) (hp : Physical m) (ρ : ℝ) (hρ : 0 ≤ ρ)
    (st st' : Store ℝ ℂ) (h : History m (KindRelative ρ) st) (s : Script ℝ ℂ) (hk : KindRelative ρ s.kind)
    (out : List (Py (Answer ℂ))) (hx : (out, st') ∈ s.life realPhys m st) (j : Nat) (c : Call ℝ) (a : Answer ℂ)
    (hc : s.calls[j]? = some c) (ha : out[j]? = some (.ok a)) (h4 : 4 / 10 ^ 10 ≤ Call.eta c) :
    ExpectedTo m ae (toleranceTo m ρ s.source.solverRoot) c a := by
  have hf := falls_residual m hρ
  have := (life_safe hm hp hf s (good_relative hm hp hρ _ hk)
    (history_fine hm hp hf (good_relative hm hp hρ) h) _ hx).2 j c a hc ha h4
  have e : tolAcc m (residualError m ρ) s.source.solverRoot.isSome = toleranceTo m ρ s.source.solverRoot := by
    funext eta
    cases s.source.solverRoot <;> simp [tolAcc, toleranceTo]
  rwa [e] at this

/-- **C108**, the whole run: on such a disk, a program that constructs its system and whose linear solver does not raise runs to
its end and prints a number of that accuracy for every call, if its results directory holds no incomplete file. -/
theorem C108_runs (m : Model ℝ) (ae : Int) (hm : WellFormed m ae) (hp : Physical m) (ρ : ℝ) (hρ : 0 ≤ ρ)
    (st : Store ℝ ℂ) (h : History m (KindRelative ρ) st) (s : Script ℝ ℂ) (hk : KindRelative ρ s.kind)
    (hr : KindAnswers s.kind) (hc : ∀ c ∈ s.calls, Call.Ok c) (r r' : Option String)
    (lim : Int) (hs : s.source = .fresh r lim r') (ht : ∀ q, r' = some q → ∀ c, (st.results q).get? c ≠ some .torn) :
    ∃ out st', (s.life realPhys m st).getLast? = some (out, st') ∧
      List.Forall₂ (fun c x => ∃ a, x = .ok a ∧ ExpectedTo m ae (toleranceTo m ρ s.source.solverRoot) c a) s.calls out :=
  life_ends hm st s (fun o ho p h0 => good_answers hm hp _ hr o ho p h0) hc r r' lim hs ht
    (fun out st' hx => C108_accuracy m ae hm hp ρ hρ st st' h s hk out hx)

/-- **C108**, exact solvers are those with residual zero: the bound then is that of C107. -/
theorem C108_exact (kind : SolverKind ℂ) (hk : KindExact kind) : KindRelative 0 kind := by
  cases kind with
  | dense => trivial
  | sparse sp =>
    intro ls n h1 h2 h3 h4 h5 x hx
    obtain ⟨y, e1, e2⟩ := hk ls n h1 h2 h3 h4 h5
    rw [hx] at e1
    cases e1
    have : residualNorm ls n x = 0 := by
      unfold residualNorm vecNorm
      rw [Finset.sum_eq_zero, Real.sqrt_zero]
      intro i hi
      have := e2 i (Finset.mem_range.1 hi)
      simp only [applied, target, this, sub_self, norm_zero]
      norm_num
    simp [this]

/-- There are such solvers that are not exact: take an exact one and add an error to one unknown. -/
theorem relative_perturbed {sp : LinSys ℂ → Py (ℕ → ℂ)} (hsp : Exact sp) {ρ : ℝ} (hρ : 0 ≤ ρ) :
    Relative ρ (fun ls => (sp ls).map (fun x i => x i +
      if i = ls.rhsRow then ((ρ * ‖ls.rhsVal‖ / (matNorm ls (ls.rhsRow + 1) + 1) : ℝ) : ℂ) else 0)) := by
  intro ls n h1 h2 h3 h4 h5 x hx
  obtain ⟨y, e1, e2⟩ := hsp ls n h1 h2 h3 h4 h5
  simp only [e1, Except.map] at hx
  cases hx
  subst h3
  set δ : ℝ := ρ * ‖ls.rhsVal‖ / (matNorm ls (ls.rhsRow + 1) + 1) with hδ
  have hM : 0 ≤ matNorm ls (ls.rhsRow + 1) := Real.sqrt_nonneg _
  have hδ0 : 0 ≤ δ := by positivity
  have h6 : ∀ i < ls.rhsRow + 1, applied ls (ls.rhsRow + 1) (fun i => y i + if i = ls.rhsRow then (δ : ℂ) else 0) i -
      target ls i = cooEntry ls.triples i ls.rhsRow * δ := by
    intro i hi
    have := e2 i hi
    unfold applied target
    rw [← this, ← Finset.sum_sub_distrib,
      Finset.sum_eq_single_of_mem ls.rhsRow (Finset.mem_range.2 (Nat.lt_succ_self _))]
    · simp only [if_true]
      ring
    · intro j _ hj
      simp only [hj, if_false]
      ring
  have h7 : residualNorm ls (ls.rhsRow + 1) (fun i => y i + if i = ls.rhsRow then (δ : ℂ) else 0) ≤
      matNorm ls (ls.rhsRow + 1) * δ := by
    unfold residualNorm vecNorm matNorm
    rw [← Real.sqrt_sq hδ0, ← Real.sqrt_mul (by positivity)]
    apply Real.sqrt_le_sqrt
    rw [Real.sqrt_sq hδ0, Finset.sum_mul]
    refine Finset.sum_le_sum (fun i hi => ?_)
    simp only [h6 i (Finset.mem_range.1 hi), norm_mul, mul_pow]
    have : ‖(δ : ℂ)‖ = δ := by rw [Complex.norm_real, Real.norm_of_nonneg hδ0]
    rw [this]
    refine mul_le_mul_of_nonneg_right ?_ (by positivity)
    exact Finset.single_le_sum (f := fun j => ‖cooEntry ls.triples i j‖ ^ 2) (fun j _ => by positivity)
      (Finset.mem_range.2 (Nat.lt_succ_self ls.rhsRow))
  refine h7.trans ?_
  rw [hδ, ← mul_div_assoc, div_le_iff₀ (by positivity)]
  have := mul_nonneg hρ (norm_nonneg ls.rhsVal)
  nlinarith

/-- the hypotheses are met: a program with a linear solver that is not exact, with relative residuals of up to
`1e-6` -/
example (m : Model ℝ) (ae : Int) (hm : WellFormed m ae) (hp : Physical m) (σ : SetOrder) (p : Point ℝ)
    (hq : 4 / 10 ^ 10 ≤ p.eta) : ∃ sp : LinSys ℂ → Py (ℕ → ℂ), Relative (1 / 10 ^ 6) sp ∧ Answers sp ∧ ¬ Exact sp ∧
      ∃ G G' st', ((⟨σ, .sparse sp, .fresh (some "a") 0 (some "b"), [.solve p]⟩ : Script ℝ ℂ).life realPhys m
        ⟨fun _ => none, fun _ => []⟩).getLast? = some ([.ok (.value (some G))], st') ∧ ExactAt m ae p G' ∧
        ‖G - G'‖ ≤ residualError m (1 / 10 ^ 6) (p.eta - 1 / 10 ^ 10) + decimals m p.eta := by
  obtain ⟨sp0, h0⟩ := exists_exact ℂ
  have hrel := relative_perturbed h0 (ρ := 1 / 10 ^ 6) (by positivity)
  have hans : Answers (fun ls => (sp0 ls).map (fun x i => x i +
      if i = ls.rhsRow then ((1 / 10 ^ 6 * ‖ls.rhsVal‖ / (matNorm ls (ls.rhsRow + 1) + 1) : ℝ) : ℂ) else 0)) := by
    intro ls n h1 h2 h3 h4 h5
    obtain ⟨x, e1, -⟩ := h0 ls n h1 h2 h3 h4 h5
    exact ⟨_, by simp only [e1, Except.map]; rfl⟩
  refine ⟨_, hrel, hans, ?_, ?_⟩
  · intro hex
    have hs : ∀ x : ℕ → ℂ, Solution (⟨[(0, 0, 1)], 0, 1⟩ : LinSys ℂ) 1 x ↔ x 0 = 1 := by
      intro x
      simp [Solution, cooEntry]
    obtain ⟨x, e1, e2⟩ := hex ⟨[(0, 0, 1)], 0, 1⟩ 1 (by decide) (by decide) rfl ⟨fun _ => 1, (hs _).2 rfl⟩
      (fun x y hx hy i hi => by
        obtain rfl : i = 0 := by omega
        rw [(hs x).1 hx, (hs y).1 hy])
    obtain ⟨y, e3, e4⟩ := h0 ⟨[(0, 0, 1)], 0, 1⟩ 1 (by decide) (by decide) rfl ⟨fun _ => 1, (hs _).2 rfl⟩
      (fun x y hx hy i hi => by
        obtain rfl : i = 0 := by omega
        rw [(hs x).1 hx, (hs y).1 hy])
    simp only [e3, Except.map] at e1
    cases e1
    have e5 := (hs _).1 e2
    rw [(hs y).1 e4] at e5
    have hM : 0 ≤ matNorm (⟨[(0, 0, 1)], 0, 1⟩ : LinSys ℂ) (0 + 1) := Real.sqrt_nonneg _
    simp only [if_true, norm_one, mul_one] at e5
    have e6 : (((1 : ℝ) / 10 ^ 6 / (matNorm (⟨[(0, 0, 1)], 0, 1⟩ : LinSys ℂ) (0 + 1) + 1) : ℝ) : ℂ) = 0 := by
      linear_combination e5
    rw [Complex.ofReal_eq_zero] at e6
    have : (0 : ℝ) < 1 / 10 ^ 6 / (matNorm (⟨[(0, 0, 1)], 0, 1⟩ : LinSys ℂ) (0 + 1) + 1) := by positivity
    exact this.ne' e6
  · obtain ⟨out, st', e1, e2⟩ := C108_runs m ae hm hp (1 / 10 ^ 6) (by positivity) ⟨fun _ => none, fun _ => []⟩
      (.empty ⟨fun _ => rfl, fun _ => rfl⟩) ⟨σ, .sparse _, .fresh (some "a") 0 (some "b"), [.solve p]⟩ hrel hans
      (by intro c hc; rw [List.mem_singleton.1 hc]; exact hq) (some "a") (some "b") 0 rfl
      (by intro q _ c h; simp [Dict.get?] at h)
    simp only [List.forall₂_cons_left_iff, List.forall₂_nil_left_iff] at e2
    obtain ⟨_, _, ⟨a, rfl, ha⟩, rfl, rfl⟩ := e2
    cases a with
    | matrix M => exact ha.elim
    | value v =>
      obtain ⟨G, G', rfl, g1, g2⟩ := ha
      exact ⟨G, G', st', e1, g1, g2⟩

end GGCE.Props
