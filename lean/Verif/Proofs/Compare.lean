import Mathlib.Algebra.Order.BigOperators.Group.List
import Verif.Spec.Edge
import Verif.Proofs.Gauge
import Verif.Proofs.Edge

/-! A model that binds more strongly has larger matrix elements, and so a lower edge of the spectrum. -/

set_option linter.unusedSectionVars false

namespace GGCE
open Spec Complex
open scoped InnerProductSpace

variable {m m' : Model ℝ} {ae ae' : ℤ}

theorem Spec.Stronger.allowed (h : Stronger m m' ae ae') (h0 : Allowed m' ae' 0) {n : Occ} (hn : Allowed m ae n) :
    Allowed m' ae' n where
  nonneg := hn.nonneg
  types t x hx := (hn.types t x hx).trans_le h.types
  cap c' hc' t x := by
    obtain ⟨c, hc, hle⟩ := h.cap c' hc'
    exact (hn.cap c hc t x).trans hle
  window t x t' y hx hy := (hn.window t x t' y hx hy).trans h.window
  extent t M' hM' x y hx hy := by
    obtain ⟨M, hM, hle⟩ := h.extent t M' (hn.types t x hx) hM'
    exact (hn.extent t M hM x y hx hy).trans hle
  number t N' hN' := by
    by_cases ht : t < m.nTypes
    · obtain ⟨N, hN, hle⟩ := h.number t N' ht hN'
      exact (hn.number t N hN).trans hle
    · have : ∀ x, n t x = 0 := fun x => by by_contra hc; exact ht (hn.types t x hc)
      have h1 := h0.number t N' hN'
      simp only [Pi.zero_apply, finsum_zero, this] at h1 ⊢
      exact h1

theorem Spec.Stronger.energy (h : Stronger m m' ae ae') {n : Occ} (hn : Allowed m ae n) : occEnergy m' n ≤ occEnergy m n := by
  unfold occEnergy
  have h1 : ∑ t ∈ Finset.range m'.nTypes, m'.ham.freqs.getD t 0 * ((∑ᶠ x, n t x : ℤ) : ℝ) =
      ∑ t ∈ Finset.range m.nTypes, m'.ham.freqs.getD t 0 * ((∑ᶠ x, n t x : ℤ) : ℝ) := by
    symm
    refine Finset.sum_subset (Finset.range_subset_range.2 h.types) (fun t _ ht => ?_)
    have : ∀ x, n t x = 0 := fun x => by by_contra hc; exact ht (Finset.mem_range.2 (hn.types t x hc))
    simp only [this, finsum_zero, Int.cast_zero, mul_zero]
  rw [h1]
  refine Finset.sum_le_sum (fun t ht => mul_le_mul_of_nonneg_right (h.freqs t (Finset.mem_range.1 ht)) ?_)
  exact_mod_cast hn.total_nonneg t

theorem Spec.OneSign.signs (h : OneSign m) : ∃ ε : ℕ → ℤˣ, ∀ t ∈ m.ham.terms,
    (((ε t.phononIndex : ℤˣ) : ℤ) : ℝ) * t.coupling = -|t.coupling| := by
  classical
  refine ⟨fun i => if ∃ t ∈ m.ham.terms, t.phononIndex = i ∧ 0 < t.coupling then -1 else 1, fun t ht => ?_⟩
  by_cases hp : ∃ t' ∈ m.ham.terms, t'.phononIndex = t.phononIndex ∧ 0 < t'.coupling
  · simp only [if_pos hp]
    obtain ⟨t', h1, h2, h3⟩ := hp
    have h4 := h t' h1 t ht h2
    have h5 : 0 ≤ t.coupling := by
      by_contra hc
      rw [not_le] at hc
      have := mul_neg_of_pos_of_neg h3 hc
      linarith
    rw [abs_of_nonneg h5]; simp
  · simp only [if_neg hp]
    have h5 : t.coupling ≤ 0 := by
      by_contra hc
      exact hp ⟨t, ht, rfl, not_le.1 hc⟩
    rw [abs_of_nonpos h5]; simp

/-- `f` lives on the allowed occupations and is, up to phases, at most `g`, which has the signs `s` -/
def Dominated (m : Model ℝ) (ae : ℤ) (s : Occ → ℂ) (f g : States) : Prop :=
  (∀ n, ¬ Allowed m ae n → f n = 0) ∧ ∀ n, ∃ r : ℝ, ‖f n‖ ≤ r ∧ g n = s n * r

theorem Dominated.norm_le {s : Occ → ℂ} (hs : ∀ n, ‖s n‖ = 1) {f g : States} (h : Dominated m ae s f g) : ‖f‖ ≤ ‖g‖ := by
  have h1 : ∀ n, ‖f n‖ ≤ ‖g n‖ := by
    intro n
    obtain ⟨r, hr, hg⟩ := h.2 n
    rw [hg, norm_mul, hs, one_mul, Complex.norm_real]
    exact hr.trans (le_abs_self r)
  have e : ∀ u : States, ‖u‖ ^ 2 = ∑' n, ‖u n‖ ^ 2 := fun u => by
    have := lp.norm_rpow_eq_tsum (p := 2) (by norm_num) u
    simpa using this
  have sm : ∀ u : States, Summable (fun n => ‖u n‖ ^ 2) := fun u => by
    have := (lp.memℓp u).summable (p := 2) (by norm_num)
    simpa using this
  refine le_of_sq_le_sq ?_ (norm_nonneg _)
  rw [e, e]
  exact (sm f).tsum_le_tsum (fun n => pow_le_pow_left₀ (norm_nonneg _) (h1 n) 2) (sm g)

theorem shift_op_apply (hm : ListsOk m) (c k : ℝ) (f : States) (n : Occ) :
    ((algebraMap ℝ (States →L[ℂ] States) c - hamOp m ae k) f) n = c * f n - frame m ae k f n := by
  rw [← hamOp_apply hm, sub_apply, Algebra.algebraMap_eq_smul_one]
  show ((c • (1 : States →L[ℂ] States)) f - hamOp m ae k f : States) n = _
  rw [lp.coeFn_sub, Pi.sub_apply, show (c • (1 : States →L[ℂ] States)) f = (c : ℂ) • f from rfl, lp.coeFn_smul, Pi.smul_apply,
    smul_eq_mul]

theorem occSign_jump {n : Occ} {ε : ℕ → ℤˣ} (hn : Allowed m ae n) {h : SingleTerm ℝ} (hi : h.phononIndex < m.nTypes) :
    occSign m.nTypes ε (jump h n) = ε h.phononIndex * occSign m.nTypes ε n := by
  unfold jump
  rw [occSign_shift, occSign_act hn.finite _ hi]

open Classical in
/-- the effect of `c - H` at zero momentum on amplitudes with the signs of the ground state -/
theorem signed_step (hm' : ListsOk m') (hi' : ∀ h ∈ m'.ham.terms, h.phononIndex < m'.nTypes) {ε : ℕ → ℤˣ}
    (hε : ∀ t ∈ m'.ham.terms, (((ε t.phononIndex : ℤˣ) : ℤ) : ℝ) * t.coupling = -|t.coupling|) {c : ℝ} {g : States}
    {r : Occ → ℝ} (hg : ∀ n, g n = unitC (occSign m'.nTypes ε n) * r n) {n : Occ} (hn' : Allowed m' ae' n) :
    ((algebraMap ℝ (States →L[ℂ] States) c - hamOp m' ae' 0) g) n = unitC (occSign m'.nTypes ε n) *
      ((c - occEnergy m' n) * r n + m'.ham.hopping * (r (n.shift 1) + r (n.shift (-1))) +
        (m'.ham.terms.map (fun h => |h.coupling| * ladder h n *
          if Allowed m' ae' (jump h n) then r (jump h n) else 0)).sum : ℝ) := by
  set T : SingleTerm ℝ → ℝ := fun h => |h.coupling| * ladder h n * if Allowed m' ae' (jump h n) then r (jump h n) else 0
    with hT
  rw [shift_op_apply hm']
  unfold frame
  rw [if_pos hn']
  have e0 : ∀ s : ℤ, g (n.shift s) = unitC (occSign m'.nTypes ε n) * r (n.shift s) := by
    intro s
    rw [hg]
    simp only [occSign_shift]
  have e1 : (m'.ham.terms.map (fun h : SingleTerm ℝ => (h.coupling : ℂ) * (ladder h n : ℂ) *
      exp (-(I * ((0 : ℝ) * m'.latticeConstant * electronSite h 0))) *
      if Allowed m' ae' (jump h n) then g (jump h n) else 0)).sum =
      -(unitC (occSign m'.nTypes ε n) * ((m'.ham.terms.map T).sum : ℝ)) := by
    have key : ∀ l : List (SingleTerm ℝ), (∀ h ∈ l, h ∈ m'.ham.terms) →
        (l.map (fun h : SingleTerm ℝ => (h.coupling : ℂ) * (ladder h n : ℂ) *
          exp (-(I * ((0 : ℝ) * m'.latticeConstant * electronSite h 0))) *
          if Allowed m' ae' (jump h n) then g (jump h n) else 0)).sum =
          -(unitC (occSign m'.nTypes ε n) * ((l.map T).sum : ℝ)) := by
      intro l hl
      induction l with
      | nil => simp
      | cons h l ih =>
        rw [List.map_cons, List.map_cons, List.sum_cons, List.sum_cons, ih (fun x hx => hl x (List.mem_cons_of_mem _ hx))]
        have hh := hl h List.mem_cons_self
        have s1 : (((ε h.phononIndex : ℤˣ) : ℤ) : ℂ) * (h.coupling : ℂ) = -((|h.coupling| : ℝ) : ℂ) := by
          have := congrArg (fun x : ℝ => (x : ℂ)) (hε h hh)
          simpa using this
        simp only [hT, Complex.ofReal_zero, zero_mul, mul_zero, neg_zero, Complex.exp_zero, mul_one]
        by_cases ha : Allowed m' ae' (jump h n)
        · rw [if_pos ha, if_pos ha, hg]
          rw [occSign_jump hn' (hi' h hh), unitC_mul]
          push_cast
          have s2 : unitC (ε h.phononIndex) = (((ε h.phononIndex : ℤˣ) : ℤ) : ℂ) := rfl
          rw [s2]
          linear_combination (ladder h n : ℂ) * unitC (occSign m'.nTypes ε n) * (r (jump h n) : ℂ) * s1
        · rw [if_neg ha, if_neg ha]
          push_cast
          ring
    exact key _ (fun _ h => h)
  rw [e1, e0, e0, hg]
  simp only [Complex.ofReal_zero, zero_mul, mul_zero, neg_zero, Complex.exp_zero, one_mul]
  push_cast
  ring

open Classical in
theorem Dominated.step (hm : ListsOk m) (hm' : ListsOk m') (h0 : Allowed m' ae' 0)
    (hi' : ∀ h ∈ m'.ham.terms, h.phononIndex < m'.nTypes) (hst : Stronger m m' ae ae') {ε : ℕ → ℤˣ}
    (hε : ∀ t ∈ m'.ham.terms, (((ε t.phononIndex : ℤˣ) : ℤ) : ℝ) * t.coupling = -|t.coupling|) {c k : ℝ}
    (hc : energyBound m ≤ c) (hc' : energyBound m' ≤ c) {f g : States}
    (h : Dominated m ae (fun n => unitC (occSign m'.nTypes ε n)) f g) :
    Dominated m ae (fun n => unitC (occSign m'.nTypes ε n)) ((algebraMap ℝ (States →L[ℂ] States) c - hamOp m ae k) f)
      ((algebraMap ℝ (States →L[ℂ] States) c - hamOp m' ae' 0) g) := by
  obtain ⟨hout, hdom⟩ := h
  choose r hr hg using hdom
  have hr0 : ∀ n, 0 ≤ r n := fun n => (norm_nonneg _).trans (hr n)
  have hc0 : 0 ≤ c := (energyBound_nonneg m).trans hc
  have ht0 : 0 ≤ m'.ham.hopping := (abs_nonneg _).trans hst.hopping
  refine ⟨fun n hn => ?_, fun n => ?_⟩
  · rw [shift_op_apply hm, hout n hn, mul_zero]
    unfold frame
    rw [if_neg hn, sub_zero]
  rw [shift_op_apply hm, shift_op_apply hm']
  by_cases hn' : Allowed m' ae' n
  · -- the right hand side
    set T : SingleTerm ℝ → ℝ := fun h => |h.coupling| * ladder h n * if Allowed m' ae' (jump h n) then r (jump h n) else 0
      with hT
    have hT0 : ∀ h, 0 ≤ T h := by
      intro h
      rw [hT]
      simp only
      refine mul_nonneg (mul_nonneg (abs_nonneg _) (ladder_nonneg h n)) ?_
      split
      · exact hr0 _
      · exact le_rfl
    have hE' : occEnergy m' n ≤ c := (le_abs_self _).trans ((hn'.energy_le hm').trans hc')
    set S := (c - occEnergy m' n) * r n + m'.ham.hopping * (r (n.shift 1) + r (n.shift (-1))) + (m'.ham.terms.map T).sum
      with hS
    have hsum0 : 0 ≤ (m'.ham.terms.map T).sum := by
      refine List.sum_nonneg (fun x hx => ?_)
      obtain ⟨h, -, rfl⟩ := List.mem_map.1 hx
      exact hT0 h
    refine ⟨S, ?_, ?_⟩
    · by_cases hn : Allowed m ae n
      · have hE : occEnergy m n ≤ c := (le_abs_self _).trans ((hn.energy_le hm).trans hc)
        have hEE := hst.energy hn
        unfold frame
        rw [if_pos hn]
        set T0 : SingleTerm ℝ → ℂ := fun h => (h.coupling : ℂ) * (ladder h n : ℂ) *
          exp (-(I * (k * m.latticeConstant * electronSite h 0))) * if Allowed m ae (jump h n) then f (jump h n) else 0 with hT0'
        have e1 : (c : ℂ) * f n - (occEnergy m n * f n - m.ham.hopping * (exp (I * (k * m.latticeConstant)) * f (n.shift 1) +
            exp (-(I * (k * m.latticeConstant))) * f (n.shift (-1))) + (m.ham.terms.map T0).sum) =
            ((c - occEnergy m n : ℝ) : ℂ) * f n + (m.ham.hopping : ℂ) * (exp (I * ((k * m.latticeConstant : ℝ) : ℂ)) * f (n.shift 1) +
            exp (-(I * ((k * m.latticeConstant : ℝ) : ℂ))) * f (n.shift (-1))) - (m.ham.terms.map T0).sum := by
          push_cast; ring
        rw [e1]
        have b1 : ‖((c - occEnergy m n : ℝ) : ℂ) * f n‖ ≤ (c - occEnergy m' n) * r n := by
          rw [norm_mul, Complex.norm_real, Real.norm_eq_abs, abs_of_nonneg (by linarith)]
          exact mul_le_mul (by linarith) (hr n) (norm_nonneg _) (by linarith)
        have b2 : ‖(m.ham.hopping : ℂ) * (exp (I * ((k * m.latticeConstant : ℝ) : ℂ)) * f (n.shift 1) +
            exp (-(I * ((k * m.latticeConstant : ℝ) : ℂ))) * f (n.shift (-1)))‖ ≤
            m'.ham.hopping * (r (n.shift 1) + r (n.shift (-1))) := by
          rw [norm_mul, Complex.norm_real, Real.norm_eq_abs]
          refine mul_le_mul hst.hopping ?_ (norm_nonneg _) ht0
          refine (norm_add_le _ _).trans ?_
          rw [norm_mul, norm_mul, norm_phase, norm_phase', one_mul, one_mul]
          exact add_le_add (hr _) (hr _)
        have b3 : ‖(m.ham.terms.map T0).sum‖ ≤ (m'.ham.terms.map T).sum := by
          obtain ⟨l, hl, hf⟩ := hst.terms
          have q1 : ‖(m.ham.terms.map T0).sum‖ ≤ (l.map T).sum := by
            clear hl e1
            generalize m.ham.terms = l0 at hf
            induction hf with
            | nil => simp
            | @cons h h' l1 l2 hh _ ih =>
              rw [List.map_cons, List.map_cons, List.sum_cons, List.sum_cons]
              refine (norm_add_le _ _).trans (add_le_add ?_ ih)
              obtain ⟨p1, p2, p3, p4, p5⟩ := hh
              have j1 : jump h' n = jump h n := by
                unfold jump bosonSite electronSite; rw [p1, p2, p3, p4]
              have j2 : ladder h' n = ladder h n := by
                unfold ladder bosonSite; rw [p1, p2, p3, p4]
              rw [hT0', hT]
              simp only
              rw [j1, j2, norm_mul, norm_mul, norm_mul, Complex.norm_real, Complex.norm_real, Real.norm_eq_abs,
                Real.norm_eq_abs, abs_of_nonneg (ladder_nonneg h n)]
              have j3 : ‖exp (-(I * (k * m.latticeConstant * electronSite h 0)))‖ = 1 := by
                have := norm_phase' (k * m.latticeConstant * electronSite h 0)
                push_cast at this
                exact this
              rw [j3, mul_one]
              refine mul_le_mul (mul_le_mul_of_nonneg_right p5 (ladder_nonneg h n)) ?_ (norm_nonneg _)
                (mul_nonneg (abs_nonneg _) (ladder_nonneg h n))
              by_cases ha : Allowed m ae (jump h n)
              · rw [if_pos ha, if_pos (hst.allowed h0 ha)]
                exact hr _
              · rw [if_neg ha, norm_zero]
                split
                · exact hr0 _
                · exact le_rfl
          refine q1.trans ?_
          refine List.Sublist.sum_le_sum (hl.map T) (fun x hx => ?_)
          obtain ⟨h, -, rfl⟩ := List.mem_map.1 hx
          exact hT0 h
        rw [hS]
        refine (norm_sub_le _ _).trans (add_le_add ((norm_add_le _ _).trans (add_le_add b1 b2)) b3)
      · have hfr : frame m ae k f n = 0 := by unfold frame; rw [if_neg hn]
        rw [hout n hn, mul_zero, hfr, sub_zero, norm_zero, hS]
        have := hr0 n
        have := hr0 (n.shift 1)
        have := hr0 (n.shift (-1))
        have : 0 ≤ c - occEnergy m' n := by linarith
        positivity
    · rw [← shift_op_apply hm', signed_step hm' hi' hε hg hn']
  · refine ⟨c * r n, ?_, ?_⟩
    · have hn : ¬ Allowed m ae n := fun h => hn' (hst.allowed h0 h)
      have hfr : frame m ae k f n = 0 := by unfold frame; rw [if_neg hn]
      rw [hout n hn, mul_zero, hfr, sub_zero, norm_zero]
      exact mul_nonneg hc0 (hr0 n)
    · unfold frame
      rw [if_neg hn', hg]
      push_cast
      ring

end GGCE
