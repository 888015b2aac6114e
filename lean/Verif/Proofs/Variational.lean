import Verif.Spec.Variational
import Verif.Proofs.Krylov
import Verif.Proofs.Untruncated
import Verif.Props.Edge

/-! The lower edge at zero momentum is a lower bound for the energy of every state that the Hamiltonian links to the
bare electron. -/

set_option linter.unusedSectionVars false

namespace GGCE
open Spec Complex ComplexConjugate Props
open scoped InnerProductSpace

variable {m : Model ℝ} {ae : ℤ}

/-! ### finite states as vectors -/

/-- the vector with finitely many amplitudes -/
noncomputable def vec (f : Occ →₀ ℂ) : States :=
  ⟨fun n => f n, (memℓp_zero (f := fun n => f n) (by
    refine f.support.finite_toSet.subset (fun n hn => ?_)
    simpa using hn)).of_exponent_ge zero_le⟩

@[simp] theorem vec_apply (f : Occ →₀ ℂ) (n : Occ) : (vec f : States) n = f n := rfl

theorem vec_inner (f : Occ →₀ ℂ) (g : States) : ⟪vec f, g⟫_ℂ = ∑ n ∈ f.support, conj (f n) * g n := by
  rw [lp.inner_eq_tsum, tsum_eq_sum (s := f.support)]
  · refine Finset.sum_congr rfl (fun n _ => ?_)
    rw [RCLike.inner_apply, vec_apply, mul_comm]
  · intro n hn
    rw [RCLike.inner_apply, vec_apply, Finsupp.notMem_support_iff.1 hn]
    simp

theorem vec_norm (f : Occ →₀ ℂ) : ‖vec f‖ ^ 2 = weightOf f := by
  have h : ((‖vec f‖ ^ 2 : ℝ) : ℂ) = (weightOf f : ℝ) := by
    have := vec_inner f (vec f)
    rw [inner_self_eq_norm_sq_to_K] at this
    push_cast at this ⊢
    refine Eq.trans this ?_
    unfold weightOf
    push_cast
    refine Finset.sum_congr rfl (fun n _ => ?_)
    rw [vec_apply, Complex.conj_mul']
  exact_mod_cast h

theorem vec_energy (hm : ListsOk m) (k : ℝ) (f : Occ →₀ ℂ) :
    (⟪vec f, hamOp m ae k (vec f)⟫_ℂ).re = trialEnergy m ae k f := by
  rw [vec_inner]
  unfold trialEnergy
  congr 1
  refine Finset.sum_congr rfl (fun n _ => ?_)
  rw [hamOp_apply hm]
  rfl

/-- a bound on finite states inside a set of occupations extends to all states inside it -/
theorem form_dense {H : States →L[ℂ] States} {S : Occ → Prop} {e : ℝ}
    (h : ∀ f : Occ →₀ ℂ, (∀ n ∈ f.support, S n) → e * ‖vec f‖ ^ 2 ≤ (⟪vec f, H (vec f)⟫_ℂ).re) {u : States}
    (hu : ∀ n, ¬ S n → u n = 0) : e * ‖u‖ ^ 2 ≤ (⟪u, H u⟫_ℂ).re := by
  classical
  have hs := lp.hasSum_single (p := 2) (by norm_num) u
  set P : Finset Occ → States := fun s => ∑ i ∈ s, lp.single 2 i (u i) with hP
  have hP' : ∀ s, P s = vec (Finsupp.onFinset s (fun n => if n ∈ s then u n else 0) (fun n hn => by
      by_contra hc; simp [hc] at hn)) := by
    intro s
    ext n
    rw [vec_apply, Finsupp.onFinset_apply, hP]
    simp only [lp.coeFn_sum, Finset.sum_apply, lp.single_apply]
    by_cases hn : n ∈ s
    · rw [if_pos hn, Finset.sum_eq_single n]
      · simp
      · intro i _ hi
        simp [Pi.single_apply, Ne.symm hi]
      · exact fun hc => absurd hn hc
    · rw [if_neg hn]
      refine Finset.sum_eq_zero (fun i hi => ?_)
      have : n ≠ i := fun hc => hn (hc ▸ hi)
      simp [Pi.single_apply, this]
  have hb : ∀ s, e * ‖P s‖ ^ 2 ≤ (⟪P s, H (P s)⟫_ℂ).re := by
    intro s
    rw [hP' s]
    refine h _ (fun n hn => ?_)
    by_contra hc
    rw [Finsupp.mem_support_iff, Finsupp.onFinset_apply] at hn
    exact hn (by rw [hu n hc]; simp)
  have t : Filter.Tendsto P Filter.atTop (nhds u) := hs
  refine le_of_tendsto_of_tendsto ((t.norm.pow 2).const_mul e)
    ((Complex.continuous_re.tendsto _).comp (t.inner ((H.continuous.tendsto u).comp t))) (Filter.Eventually.of_forall hb)

/-! ### positivity -/

theorem Spec.Linked.allowed (h0 : Allowed m ae 0) {n : Occ} (h : Linked m ae n) : Allowed m ae n := by
  induction h with
  | zero => exact h0
  | right _ _ ih => exact allowed_shift.1 ih
  | left _ _ ih => exact allowed_shift.1 ih
  | term _ _ h _ _ => exact h

theorem ladder_pos {h : SingleTerm ℝ} {n : Occ} (hn : Allowed m ae n) (hj : Allowed m ae (jump h n)) : 0 < ladder h n := by
  unfold ladder
  have h1 := hn.nonneg h.phononIndex (bosonSite h 0)
  have h2 := (allowed_jump.1 hj).nonneg h.phononIndex (bosonSite h 0)
  unfold Occ.act at h2
  rw [if_pos ⟨rfl, rfl⟩] at h2
  cases hd : h.dag
  · refine Real.sqrt_pos.2 ?_
    have : (0 : ℝ) ≤ (n h.phononIndex (bosonSite h 0) : ℝ) := by exact_mod_cast h1
    linarith
  · rw [hd] at h2
    simp only [Dag.delta] at h2
    refine Real.sqrt_pos.2 ?_
    have : 0 < n h.phononIndex (bosonSite h 0) := by omega
    exact_mod_cast this

theorem unitC_ne (u : ℤˣ) : unitC u ≠ 0 := fun h => by
  have := unitC_norm u
  rw [h, norm_zero] at this
  exact zero_ne_one this

/-- the powers of `c - H` on the bare electron have the signs of the ground state, and eventually no zero at `n` -/
theorem linked_positive (hm : WellFormed m ae) (hst : 0 ≤ m.ham.hopping) {ε : ℕ → ℤˣ}
    (hε : ∀ t ∈ m.ham.terms, (((ε t.phononIndex : ℤˣ) : ℤ) : ℝ) * t.coupling = -|t.coupling|) {c : ℝ}
    (hc : energyBound m < c) {n : Occ} (hn : Linked m ae n) : ∃ J, ∀ j, J ≤ j → ∃ r : ℝ, 0 < r ∧
      (((algebraMap ℝ (States →L[ℂ] States) c - hamOp m ae 0) ^ j) bare) n = unitC (occSign m.nTypes ε n) * r := by
  have h0 : Allowed m ae 0 := allowed_zero hm.toShaped
  set A := algebraMap ℝ (States →L[ℂ] States) c - hamOp m ae 0 with hA
  have hd : ∀ (j : ℕ) (n : Occ), ∃ r : ℝ, 0 ≤ r ∧ ((A ^ j) bare) n = unitC (occSign m.nTypes ε n) * r := by
    intro j n
    obtain ⟨r, h1, h2⟩ := (dominated_powers (k := 0) hm hm (stronger_refl hst) hε hc.le hc.le j).2 n
    exact ⟨r, (norm_nonneg _).trans h1, h2⟩
  choose r hr0 hr using hd
  have hstep : ∀ (j : ℕ) (n : Occ), Allowed m ae n → r (j + 1) n = (c - occEnergy m n) * r j n +
      m.ham.hopping * (r j (n.shift 1) + r j (n.shift (-1))) + (m.ham.terms.map (fun h => |h.coupling| * ladder h n *
        open Classical in if Allowed m ae (jump h n) then r j (jump h n) else 0)).sum := by
    intro j n hn
    have h1 := hr (j + 1) n
    rw [pow_succ'] at h1
    have h2 := signed_step (c := c) hm.toListsOk hm.index hε (hr j) hn
    have h3 : unitC (occSign m.nTypes ε n) * _ = unitC (occSign m.nTypes ε n) * _ := h1.symm.trans h2
    have h4 := mul_left_cancel₀ (unitC_ne _) h3
    exact_mod_cast h4
  have hT0 : ∀ (j : ℕ) (n : Occ) (h : SingleTerm ℝ), 0 ≤ |h.coupling| * ladder h n *
      open Classical in if Allowed m ae (jump h n) then r j (jump h n) else 0 := by
    intro j n h
    refine mul_nonneg (mul_nonneg (abs_nonneg _) (ladder_nonneg h n)) ?_
    split
    · exact hr0 _ _
    · exact le_rfl
  have hS0 : ∀ (j : ℕ) (n : Occ), 0 ≤ (m.ham.terms.map (fun h => |h.coupling| * ladder h n *
        open Classical in if Allowed m ae (jump h n) then r j (jump h n) else 0)).sum := by
    intro j n
    refine List.sum_nonneg (fun x hx => ?_)
    obtain ⟨h, -, rfl⟩ := List.mem_map.1 hx
    exact hT0 j n h
  have hE : ∀ n, Allowed m ae n → 0 < c - occEnergy m n := fun n hn => by
    have := (le_abs_self _).trans (hn.energy_le hm.toListsOk)
    linarith
  have key : ∃ J, ∀ j, J ≤ j → 0 < r j n := by
    induction hn with
    | zero =>
      refine ⟨0, fun j _ => ?_⟩
      induction j with
      | zero =>
        have := hr 0 0
        rw [pow_zero, occSign_zero, unitC_one, one_mul] at this
        have h1 : ((1 : States →L[ℂ] States) bare) 0 = (bare : States) 0 := rfl
        rw [h1, bare_apply, if_pos rfl] at this
        have : (1 : ℝ) = r 0 0 := Complex.ofReal_injective (by rw [← this, Complex.ofReal_one])
        linarith
      | succ j ih =>
        rw [hstep j 0 h0]
        have h1 := mul_pos (hE 0 h0) (ih (Nat.zero_le _))
        have h2 := mul_nonneg hst (add_nonneg (hr0 j ((0 : Occ).shift 1)) (hr0 j ((0 : Occ).shift (-1))))
        linarith [hS0 j 0]
    | @right n ht hl ih =>
      obtain ⟨J, hJ⟩ := ih
      refine ⟨J + 1, fun j hj => ?_⟩
      obtain ⟨i, rfl⟩ : ∃ i, j = i + 1 := ⟨j - 1, by omega⟩
      have hn : Allowed m ae n := allowed_shift.1 (hl.allowed h0)
      rw [hstep i n hn]
      have h1 := mul_nonneg (hE n hn).le (hr0 i n)
      have h2 := mul_pos ht (add_pos_of_pos_of_nonneg (hJ i (by omega)) (hr0 i (n.shift (-1))))
      linarith [hS0 i n]
    | @left n ht hl ih =>
      obtain ⟨J, hJ⟩ := ih
      refine ⟨J + 1, fun j hj => ?_⟩
      obtain ⟨i, rfl⟩ : ∃ i, j = i + 1 := ⟨j - 1, by omega⟩
      have hn : Allowed m ae n := allowed_shift.1 (hl.allowed h0)
      rw [hstep i n hn]
      have h1 := mul_nonneg (hE n hn).le (hr0 i n)
      have h2 := mul_pos ht (add_pos_of_nonneg_of_pos (hr0 i (n.shift 1)) (hJ i (by omega)))
      linarith [hS0 i n]
    | @term n h hh hg hn hl ih =>
      obtain ⟨J, hJ⟩ := ih
      refine ⟨J + 1, fun j hj => ?_⟩
      obtain ⟨i, rfl⟩ : ∃ i, j = i + 1 := ⟨j - 1, by omega⟩
      rw [hstep i n hn]
      have h1 := mul_nonneg (hE n hn).le (hr0 i n)
      have h2 := mul_nonneg hst (add_nonneg (hr0 i (n.shift 1)) (hr0 i (n.shift (-1))))
      have hj := hl.allowed h0
      have h3 : 0 < |h.coupling| * ladder h n *
          open Classical in if Allowed m ae (jump h n) then r i (jump h n) else 0 := by
        rw [if_pos hj]
        exact mul_pos (mul_pos (abs_pos.2 hg) (ladder_pos hn hj)) (hJ i (by omega))
      have h4 := List.single_le_sum (l := m.ham.terms.map (fun h => |h.coupling| * ladder h n *
          open Classical in if Allowed m ae (jump h n) then r i (jump h n) else 0)) (fun x hx => by
            obtain ⟨h, -, rfl⟩ := List.mem_map.1 hx
            exact hT0 i n h) _ (List.mem_map.2 ⟨h, hh, rfl⟩)
      linarith
  obtain ⟨J, hJ⟩ := key
  exact ⟨J, fun j hj => ⟨r j n, hJ j hj, hr j n⟩⟩

/-- a finite state of linked occupations is dominated by a power of `c - H` on the bare electron -/
theorem linked_dominated (hm : WellFormed m ae) (hst : 0 ≤ m.ham.hopping) {ε : ℕ → ℤˣ}
    (hε : ∀ t ∈ m.ham.terms, (((ε t.phononIndex : ℤˣ) : ℤ) : ℝ) * t.coupling = -|t.coupling|) {c : ℝ}
    (hc : energyBound m < c) (f : Occ →₀ ℂ) (hf : ∀ n ∈ f.support, Linked m ae n) : ∃ (J : ℕ) (C : ℝ), 0 ≤ C ∧
      Dominated m ae (fun n => unitC (occSign m.nTypes ε n)) (vec f)
        ((C : ℂ) • ((algebraMap ℝ (States →L[ℂ] States) c - hamOp m ae 0) ^ J) bare) := by
  classical
  have h0 : Allowed m ae 0 := allowed_zero hm.toShaped
  set A := algebraMap ℝ (States →L[ℂ] States) c - hamOp m ae 0 with hA
  have hd : ∀ (j : ℕ) (n : Occ), ∃ r : ℝ, 0 ≤ r ∧ ((A ^ j) bare) n = unitC (occSign m.nTypes ε n) * r := by
    intro j n
    obtain ⟨r, h1, h2⟩ := (dominated_powers (k := 0) hm hm (stronger_refl hst) hε hc.le hc.le j).2 n
    exact ⟨r, (norm_nonneg _).trans h1, h2⟩
  choose r hr0 hr using hd
  have hp : ∀ n, ∃ J, n ∈ f.support → ∀ j, J ≤ j → 0 < r j n := by
    intro n
    by_cases hn : n ∈ f.support
    · obtain ⟨J, hJ⟩ := linked_positive hm hst hε hc (hf n hn)
      refine ⟨J, fun _ j hj => ?_⟩
      obtain ⟨x, hx, e⟩ := hJ j hj
      have e' := e.symm.trans (hr j n)
      have := mul_left_cancel₀ (unitC_ne _) e'
      have : x = r j n := by exact_mod_cast this
      rwa [← this]
    · exact ⟨0, fun h => absurd h hn⟩
  choose J hJ using hp
  set j := f.support.sup J with hj
  have hpos : ∀ n ∈ f.support, 0 < r j n := fun n hn => hJ n hn j (Finset.le_sup hn)
  refine ⟨j, ∑ n ∈ f.support, ‖f n‖ / r j n, Finset.sum_nonneg (fun n hn => div_nonneg (norm_nonneg _) (hr0 _ _)),
    fun n hn => ?_, fun n => ?_⟩
  · rw [vec_apply]
    by_contra hc'
    exact hn ((hf n (Finsupp.mem_support_iff.2 hc')).allowed h0)
  · refine ⟨(∑ n ∈ f.support, ‖f n‖ / r j n) * r j n, ?_, ?_⟩
    · rw [vec_apply]
      by_cases hn : n ∈ f.support
      · have h1 := Finset.single_le_sum (f := fun n => ‖f n‖ / r j n) (fun n _ => div_nonneg (norm_nonneg _) (hr0 _ _)) hn
        have h2 := mul_le_mul_of_nonneg_right h1 (hr0 j n)
        refine le_trans (le_of_eq ?_) h2
        have := (hpos n hn).ne'
        field_simp
      · rw [Finsupp.notMem_support_iff.1 hn, norm_zero]
        exact mul_nonneg (Finset.sum_nonneg (fun n hn => div_nonneg (norm_nonneg _) (hr0 _ _))) (hr0 _ _)
    · show ((_ : ℂ) • ((A ^ j) bare : States)) n = _
      rw [lp.coeFn_smul, Pi.smul_apply, smul_eq_mul, hr]
      push_cast
      ring

/-- If the powers of `c - H` on the bare electron at zero momentum grow as if the spectrum began at `e`, then no state of
linked occupations, of any momentum, has an energy below `e`. -/
theorem form_of_powers (hm : WellFormed m ae) (hp : Physical m) (hone : OneSign m) {e c : ℝ}
    (hc : energyBound m < c) (hec : e < c)
    (he : ∀ j : ℕ, ‖((algebraMap ℝ (States →L[ℂ] States) c - hamOp m ae 0) ^ j) bare‖ ≤ (c - e) ^ j) (k : ℝ) (f : Occ →₀ ℂ)
    (hf : ∀ n ∈ f.support, Linked m ae n) : e * weightOf f ≤ trialEnergy m ae k f := by
  have hst : 0 ≤ m.ham.hopping := by rcases hp.lattice with h | h <;> [exact h.ge; exact h.1.le]
  obtain ⟨ε, hε⟩ := hone.signs
  obtain ⟨s, hsh⟩ := hp.shifts
  have hH : IsSelfAdjoint (hamOp m ae k) := hamOp_selfAdjoint hm.toListsOk hsh hp.adj
  set A := algebraMap ℝ (States →L[ℂ] States) c - hamOp m ae k with hA
  set A0 := algebraMap ℝ (States →L[ℂ] States) c - hamOp m ae 0 with hA0
  obtain ⟨J, C, hC, hd⟩ := linked_dominated hm hst hε hc f hf
  have hdj : ∀ j : ℕ, Dominated m ae (fun n => unitC (occSign m.nTypes ε n)) ((A ^ j) (vec f))
      ((C : ℂ) • (A0 ^ (j + J)) bare) := by
    intro j
    induction j with
    | zero => rw [zero_add]; exact hd
    | succ j ih =>
      have h1 := ih.step (k := k) hm.toListsOk hm.toListsOk (allowed_zero hm.toShaped) hm.index (stronger_refl hst) hε hc.le hc.le
      rw [pow_succ', show j + 1 + J = (j + J) + 1 by ring, pow_succ']
      rw [map_smul] at h1
      exact h1
  have hr : 0 ≤ c - e := by linarith
  have hgrow : ∀ j : ℕ, ‖(A ^ j) (vec f)‖ ≤ (C * (c - e) ^ J) * (c - e) ^ j := by
    intro j
    refine ((hdj j).norm_le (fun n => unitC_norm _)).trans ?_
    rw [norm_smul, Complex.norm_real, Real.norm_eq_abs, abs_of_nonneg hC, mul_assoc, ← pow_add, add_comm J j]
    exact mul_le_mul_of_nonneg_left (he (j + J)) hC
  have h1 := GrowsLike.energy hH hec ⟨C * (c - e) ^ J, by positivity, hgrow⟩
  rwa [vec_norm, vec_energy hm.toListsOk] at h1

/-! ### everything is linked -/

theorem linked_shift (ht : 0 < m.ham.hopping) {n : Occ} {s : ℤ} (h : Linked m ae (n.shift s)) : Linked m ae n := by
  induction s using Int.induction_on generalizing n with
  | zero => simpa using h
  | succ i ih =>
    refine ih (Linked.right ht ?_)
    rw [shift_shift]; exact h
  | pred i ih =>
    refine ih (Linked.left ht ?_)
    rw [shift_shift]; exact h

theorem Spec.Allowed.below {n n' : Occ} (h : Allowed m ae n) (h0 : ∀ t x, 0 ≤ n' t x) (hle : ∀ t x, n' t x ≤ n t x) :
    Allowed m ae n' := by
  have hz : ∀ t x, n' t x ≠ 0 → n t x ≠ 0 := fun t x hx => by
    have := h0 t x; have := hle t x; omega
  exact
  { nonneg := h0
    types := fun t x hx => h.types t x (hz t x hx)
    cap := fun c hc t x => (hle t x).trans (h.cap c hc t x)
    window := fun t x t' y hx hy => h.window t x t' y (hz _ _ hx) (hz _ _ hy)
    extent := fun t M hM x y hx hy => h.extent t M hM x y (hz _ _ hx) (hz _ _ hy)
    number := fun t N hN => by
      refine le_trans ?_ (h.number t N hN)
      rw [finsum_eq_sum_of_support_subset (s := (h.finite t).toFinset) _ (fun x hx => by simpa using hz t x hx),
        finsum_eq_sum_of_support_subset (s := (h.finite t).toFinset) _ (by simp)]
      exact Finset.sum_le_sum (fun x _ => hle t x) }

theorem linked_all (ht : 0 < m.ham.hopping)
    (hmin : ∀ t < m.nTypes, ∃ h ∈ m.ham.terms, h.phononIndex = t ∧ h.dag = .minus ∧ h.coupling ≠ 0) {n : Occ}
    (hn : Allowed m ae n) : Linked m ae n := by
  obtain ⟨N, hN⟩ : ∃ N : ℕ, phononCount m n = N := ⟨(phononCount m n).toNat, by
    have := hn.conceivable.count_nonneg; omega⟩
  induction N using Nat.strong_induction_on generalizing n with
  | _ N ih =>
    by_cases hz : n = 0
    · rw [hz]; exact Linked.zero
    obtain ⟨t, x, hx⟩ : ∃ t x, n t x ≠ 0 := by
      by_contra hc
      push Not at hc
      exact hz (by funext t x; exact hc t x)
    obtain ⟨h, hh, e1, e2, e3⟩ := hmin t (hn.types t x hx)
    set s := bosonSite h 0 - x with hs
    refine linked_shift ht (s := s) ?_
    set n' := n.shift s with hn'
    have ha : Allowed m ae n' := hn.shift s
    have hval : n' h.phononIndex (bosonSite h 0) = n t x := by
      rw [hn', e1]
      show n t (bosonSite h 0 - s) = _
      rw [hs]; congr 1; ring
    have hpos : 0 < n' h.phononIndex (bosonSite h 0) := by
      rw [hval]; have := hn.nonneg t x; omega
    have hj : Allowed m ae (jump h n') := by
      rw [allowed_jump]
      refine ha.below (fun t' y => ?_) (fun t' y => ?_)
      · unfold Occ.act
        rw [e2]
        have := ha.nonneg t' y
        split
        · rename_i hc
          rw [hc.1, hc.2] at *
          simp only [Dag.delta]
          omega
        · omega
      · unfold Occ.act
        rw [e2]
        split
        · simp only [Dag.delta]; omega
        · omega
    refine Linked.term hh e3 ha (ih (N - 1) ?_ hj ?_)
    all_goals
      have h1 := ha.conceivable.count_jump h
      rw [if_pos (by rw [e1]; exact hn.types t x hx), e2, hn', count_shift, hN] at h1
      have h2 := hj.conceivable.count_nonneg
      simp only [Dag.delta] at h1
      rw [← hn'] at h1
      omega

/-! ### without limits -/

/-- limits that admit the state do not change its energy -/
theorem trial_exact {m m' : Model ℝ} (hs : SameSystem m m') {ae : ℤ} {k : ℝ} {f : Occ →₀ ℂ}
    (hf : ∀ n ∈ f.support, Allowed m' ae n) : trialEnergy m' ae k f = exactEnergy m k f := by
  unfold trialEnergy exactEnergy
  congr 1
  refine Finset.sum_congr rfl (fun n hn => ?_)
  congr 1
  unfold frame frameAll
  rw [if_pos (hf n hn), hs.ham, hs.lattice]
  have e1 : occEnergy m' n = occEnergy m n := by unfold occEnergy; rw [hs.types, hs.ham]
  rw [e1]
  congr 2
  refine List.map_congr_left (fun h _ => ?_)
  congr 1
  by_cases h0 : f (jump h n) = 0
  · simp [h0]
  · have ha := hf _ (Finsupp.mem_support_iff.2 h0)
    have hc : Conceivable m (jump h n) := ⟨ha.nonneg, fun t x hx => hs.types ▸ ha.types t x hx, ha.finite⟩
    rw [if_pos ha, if_pos hc]

/-- finitely many occupations are allowed when the limits are large enough -/
theorem support_allowed {m : Model ℝ} (s : Finset Occ) (hs : ∀ n ∈ s, Conceivable m n) : ∃ B : ℤ,
    ∀ (m' : Model ℝ) (ae : ℤ), m'.nTypes = m.nTypes → ListsOk m' → LimitsAtLeast B m' ae → ∀ n ∈ s, Allowed m' ae n := by
  classical
  induction s using Finset.induction_on with
  | empty => exact ⟨0, by simp⟩
  | insert a s _ ih =>
    obtain ⟨B, hB⟩ := ih (fun n hn => hs n (Finset.mem_insert_of_mem hn))
    obtain ⟨C, hC⟩ := (hs a (Finset.mem_insert_self _ _)).allowed
    have low : ∀ {A D : ℤ} {m' : Model ℝ} {ae : ℤ}, A ≤ D → LimitsAtLeast D m' ae → LimitsAtLeast A m' ae :=
      fun h q => ⟨h.trans q.window, fun M hM => h.trans (q.extent M hM), fun N hN => h.trans (q.number N hN),
        fun c hc => h.trans (q.cap c hc)⟩
    refine ⟨max B C, fun m' ae h1 h2 h3 n hn => ?_⟩
    rcases Finset.mem_insert.1 hn with rfl | hn
    · exact hC m' ae h1 h2 (low (le_max_right _ _) h3)
    · exact hB m' ae h1 h2 (low (le_max_left _ _) h3) n hn

end GGCE
