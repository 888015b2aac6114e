import Verif.Proofs.Reach
import Verif.Proofs.Floor
import Verif.Spec.Variance

/-! The second power of the Hamiltonian on the bare electron. -/

set_option linter.unusedSectionVars false

namespace GGCE
open Spec Complex ComplexConjugate

variable {m m' : Model ℝ} {ae : ℤ} {k : ℝ} {c : ℤ} {n : Occ}

/-- the phase of a term -/
noncomputable def turn (x : ℝ) (h : SingleTerm ℝ) : ℂ := exp (-(I * (x * electronSite h 0)))

/-- `h'` absorbs the phonon emitted by `h` -/
def Pairs (h h' : SingleTerm ℝ) : Prop :=
  h.dag = .plus ∧ h'.dag = .minus ∧ h'.phononIndex = h.phononIndex ∧ bosonSite h' 0 = bosonSite h 0 - electronSite h 0

instance (h h' : SingleTerm ℝ) : Decidable (Pairs h h') := by unfold Pairs; infer_instance

/-- the contribution of a pair to the second moment -/
noncomputable def pairWeight (x : ℝ) (h h' : SingleTerm ℝ) : ℂ :=
  if Pairs h h' then (h.coupling * turn x h) * (h'.coupling * turn x h') else 0

theorem jump_zero_apply (h : SingleTerm ℝ) (t : ℕ) (y : ℤ) : jump h 0 t y =
    if t = h.phononIndex ∧ y = bosonSite h 0 - electronSite h 0 then Dag.delta h.dag else 0 := by
  unfold jump Occ.shift Occ.act
  simp only [Pi.zero_apply, zero_add, sub_neg_eq_add]
  congr 1
  exact propext ⟨fun q => ⟨q.1, by omega⟩, fun q => ⟨q.1, by omega⟩⟩

theorem jump_zero_ne' (h : SingleTerm ℝ) : jump h 0 ≠ 0 := by
  intro q
  have := congrFun (congrFun q h.phononIndex) (bosonSite h 0 - electronSite h 0)
  rw [jump_zero_apply, if_pos ⟨rfl, rfl⟩] at this
  cases hd : h.dag <;> rw [hd] at this <;> simp [Dag.delta] at this

theorem jump_conceivable {h : SingleTerm ℝ} (hd : h.dag = .plus) (hi : h.phononIndex < m.nTypes) :
    Conceivable m (jump h 0) where
  nonneg t y := by rw [jump_zero_apply, hd]; split <;> simp [Dag.delta]
  types t y hy := by
    rw [jump_zero_apply] at hy
    by_contra hc
    exact hy (if_neg (fun q : t = h.phononIndex ∧ _ => hc (q.1 ▸ hi)))
  finite t := (Set.finite_singleton (bosonSite h 0 - electronSite h 0)).subset (fun y hy => by
    rw [Function.mem_support, jump_zero_apply] at hy
    by_contra hc
    exact hy (if_neg (fun q => hc q.2)))

theorem jump_eq_zero (h' : SingleTerm ℝ) (n : Occ) :
    jump h' n = 0 ↔ ∀ t y, n t y + (if t = h'.phononIndex ∧ y = bosonSite h' 0 then Dag.delta h'.dag else 0) = 0 := by
  unfold jump
  constructor
  · intro q t y
    have := congrFun (congrFun q t) (y - electronSite h' 0)
    unfold Occ.shift Occ.act at this
    rwa [sub_neg_eq_add, sub_add_cancel] at this
  · intro q
    funext t y
    exact q t _

theorem jump_jump {h h' : SingleTerm ℝ} (hd : h.dag = .plus) : jump h' (jump h 0) = 0 ↔ Pairs h h' := by
  rw [jump_eq_zero]
  constructor
  · intro q
    have h1 := q h.phononIndex (bosonSite h 0 - electronSite h 0)
    rw [jump_zero_apply, if_pos ⟨rfl, rfl⟩, hd] at h1
    by_cases hc : h.phononIndex = h'.phononIndex ∧ bosonSite h 0 - electronSite h 0 = bosonSite h' 0
    · rw [if_pos hc] at h1
      refine ⟨hd, ?_, hc.1.symm, hc.2.symm⟩
      cases hd' : h'.dag with
      | plus => rw [hd'] at h1; simp [Dag.delta] at h1
      | minus => rfl
    · rw [if_neg hc] at h1; simp [Dag.delta] at h1
  · rintro ⟨-, h2, h3, h4⟩ t y
    rw [jump_zero_apply, h3, h4, hd, h2]
    split <;> simp [Dag.delta]

theorem shift_ne {s : ℤ} (h : n ≠ 0) : n.shift s ≠ 0 := by
  intro q
  have := congrArg (fun n : Occ => n.shift (-s)) q
  simp only [shift_shift, add_neg_cancel, shift_zero, zero_shift] at this
  exact h this

open Classical in
theorem powers_one_zero (m : Model ℝ) (k : ℝ) :
    powers m k 1 0 = ((-(2 * m.ham.hopping * Real.cos (k * m.latticeConstant)) : ℝ) : ℂ) := by
  show (if Conceivable m 0 then frameAll m k (powers m k 0) 0 else 0) = _
  rw [if_pos conceivable_zero]
  unfold frameAll
  have e1 : occEnergy m 0 = 0 := by unfold occEnergy; simp
  have e2 : (m.ham.terms.map (fun h : SingleTerm ℝ => (h.coupling : ℂ) * (ladder h 0 : ℂ) *
        exp (-(I * (k * m.latticeConstant * electronSite h 0))) *
        open Classical in if Conceivable m (jump h 0) then powers m k 0 (jump h 0) else 0)).sum = 0 := by
    apply List.sum_eq_zero
    intro x hx
    obtain ⟨h, -, rfl⟩ := List.mem_map.1 hx
    have : powers m k 0 (jump h 0) = 0 := if_neg (jump_zero_ne' h)
    rw [this, ite_self, mul_zero]
  have e3 : powers m k 0 0 = 1 := if_pos rfl
  rw [e2, e1, zero_shift, zero_shift, e3]
  push_cast
  rw [Complex.cos, mul_comm I, ← neg_mul]
  ring

open Classical in
theorem powers_one_jump {h : SingleTerm ℝ} (hd : h.dag = .plus) (hi : h.phononIndex < m.nTypes) :
    powers m k 1 (jump h 0) = (m.ham.terms.map (fun h' =>
      if Pairs h h' then h'.coupling * turn (k * m.latticeConstant) h' else 0)).sum := by
  show (if Conceivable m (jump h 0) then frameAll m k (powers m k 0) (jump h 0) else 0) = _
  rw [if_pos (jump_conceivable hd hi)]
  unfold frameAll
  have z0 : ∀ {n : Occ}, n ≠ 0 → powers m k 0 n = 0 := fun hn => if_neg hn
  rw [z0 (jump_zero_ne' h), z0 (shift_ne (jump_zero_ne' h)), z0 (shift_ne (jump_zero_ne' h))]
  simp only [mul_zero, add_zero, sub_zero, zero_add]
  congr 1
  apply List.map_congr_left
  intro h' _
  by_cases hp : Pairs h h'
  · have h0 := (jump_jump hd).2 hp
    rw [if_pos hp, h0, if_pos conceivable_zero, show powers m k 0 0 = 1 from if_pos rfl, mul_one]
    have hl : ladder h' (jump h 0) = 1 := by
      unfold ladder
      rw [hp.2.1]
      simp only
      rw [jump_zero_apply, if_pos ⟨hp.2.2.1, hp.2.2.2⟩, hd]
      simp [Dag.delta]
    rw [hl]
    unfold turn
    push_cast
    ring
  · rw [if_neg hp, z0 (fun q => hp ((jump_jump hd).1 q)), ite_self, mul_zero]

open Classical in
theorem moment_two (hi : ∀ h ∈ m.ham.terms, h.phononIndex < m.nTypes) :
    moment m k 2 = ((-(2 * m.ham.hopping * Real.cos (k * m.latticeConstant)) : ℝ) : ℂ) ^ 2 +
      (m.ham.terms.map (fun h => (m.ham.terms.map (pairWeight (k * m.latticeConstant) h)).sum)).sum := by
  show (if Conceivable m 0 then frameAll m k (powers m k 1) 0 else 0) = _
  rw [if_pos conceivable_zero]
  unfold frameAll
  have e1 : occEnergy m 0 = 0 := by unfold occEnergy; simp
  rw [e1, zero_shift, zero_shift, powers_one_zero]
  congr 1
  · push_cast
    rw [Complex.cos, mul_comm I, ← neg_mul]
    ring_nf
  · congr 1
    apply List.map_congr_left
    intro h hh
    cases hd : h.dag with
    | minus =>
      have hl : ladder h 0 = 0 := by unfold ladder; rw [hd]; simp
      rw [hl]
      simp only [ofReal_zero, mul_zero, zero_mul]
      refine (List.sum_eq_zero (fun x hx => ?_)).symm
      obtain ⟨h', -, rfl⟩ := List.mem_map.1 hx
      exact if_neg (fun q => by rw [q.1] at hd; cases hd)
    | plus =>
      have hl : ladder h 0 = 1 := by unfold ladder; rw [hd]; simp
      rw [hl, if_pos (jump_conceivable hd (hi h hh)), powers_one_jump hd (hi h hh), ← List.sum_map_mul_left]
      congr 1
      apply List.map_congr_left
      intro h' _
      unfold pairWeight turn
      split
      · push_cast; ring
      · rw [mul_zero]

/-! ### built-in couplings -/

theorem pairs_termsOf {ct : String} (hk : Known ct) (g f x : ℝ) (i : ℕ) :
    ((termsOf ct g i f).map (fun h => ((termsOf ct g i f).map (pairWeight x h)).sum)).sum = (spread ct x * g ^ 2 : ℝ) := by
  have hE : exp (I * x) * exp (-(I * x)) = 1 := by rw [← Complex.exp_add]; simp
  have hS : (Real.sin x : ℂ) ^ 2 = -(exp (I * x) - exp (-(I * x))) ^ 2 / 4 := by
    rw [Complex.ofReal_sin, Complex.sin, mul_comm I, neg_mul]
    rw [div_pow, mul_pow, Complex.I_sq]
    ring
  rcases hk with rfl | rfl | rfl | rfl
  · simp [termsOf, termShapes, spread, pairWeight, Pairs, bosonSite, electronSite, turn, Num.int]
    ring
  · simp [termsOf, termShapes, spread, pairWeight, Pairs, bosonSite, electronSite, turn, Num.int]
    linear_combination (2 * (g : ℂ) ^ 2) * hE
  · simp [termsOf, termShapes, spread, pairWeight, Pairs, bosonSite, electronSite, turn, Num.int]
    linear_combination (2 * (g : ℂ) ^ 2) * hE
  · simp [termsOf, termShapes, spread, pairWeight, Pairs, bosonSite, electronSite, turn, Num.int]
    rw [← Complex.ofReal_sin, hS]
    linear_combination (2 * (g : ℂ) ^ 2) * hE

theorem pairWeight_index {x : ℝ} {h h' : SingleTerm ℝ} (hne : h.phononIndex ≠ h'.phononIndex) : pairWeight x h h' = 0 :=
  if_neg (fun q => hne q.2.2.1.symm)

theorem pairs_partTerms (x : ℝ) : ∀ (ds : List (Part ℝ)) (i : ℕ), (∀ d ∈ ds, Known d.ctype) →
    ((partTerms ds i).map (fun h => ((partTerms ds i).map (pairWeight x h)).sum)).sum =
      ((ds.map (fun d => spread d.ctype x * d.g ^ 2)).sum : ℝ)
  | [], _, _ => by simp [partTerms]
  | d :: ds, i, hk => by
    have ih := pairs_partTerms x ds (i + 1) (fun d hd => hk d (List.mem_cons_of_mem _ hd))
    have h0 := pairs_termsOf (hk d List.mem_cons_self) d.g d.freq x i
    rw [partTerms_cons, List.map_append, List.sum_append, List.map_cons, List.sum_cons]
    push_cast
    rw [ofReal_mul, ofReal_pow] at h0
    rw [← h0, ← ih]
    congr 1
    · congr 1
      apply List.map_congr_left
      intro h hh
      rw [List.map_append, List.sum_append]
      conv_rhs => rw [← add_zero (List.sum _)]
      congr 1
      refine List.sum_eq_zero (fun y hy => ?_)
      obtain ⟨h', hh', rfl⟩ := List.mem_map.1 hy
      have a1 := termsOf_index hh
      have a2 := partTerms_index ds (i + 1) hh'
      exact pairWeight_index (by omega)
    · congr 1
      apply List.map_congr_left
      intro h hh
      rw [List.map_append, List.sum_append]
      conv_rhs => rw [← zero_add (List.sum _)]
      congr 1
      refine List.sum_eq_zero (fun y hy => ?_)
      obtain ⟨h', hh', rfl⟩ := List.mem_map.1 hy
      have a1 := termsOf_index hh'
      have a2 := partTerms_index ds (i + 1) hh
      exact pairWeight_index (by omega)

/-! ### one step -/

theorem reach_one {n : Occ} (h : (hops m k).Reach 1 n) : ∃ (t : ℕ) (x : ℤ), ∀ t' x', n t' x' ≠ 0 → t' = t ∧ x' = x := by
  have hz : ∀ {n : Occ}, n = 0 → ∃ (t : ℕ) (x : ℤ), ∀ t' x', n t' x' ≠ 0 → t' = t ∧ x' = x := by
    rintro n rfl
    exact ⟨0, 0, fun t x hx => absurd rfl hx⟩
  rcases h.2 with h2 | ⟨μ, hμ, h2⟩
  · exact hz h2
  · have hs : ∀ s : ℤ, n.shift s = 0 → n = 0 := fun s q => by
      by_contra hc
      exact shift_ne hc q
    rcases List.mem_cons.1 hμ with rfl | hμ
    · exact hz (hs 1 h2)
    · rcases List.mem_cons.1 hμ with rfl | hμ
      · exact hz (hs (-1) h2)
      · obtain ⟨h, -, rfl⟩ := List.mem_map.1 hμ
        have h3 := (jump_eq_zero h n).1 h2
        refine ⟨h.phononIndex, bosonSite h 0, fun t x hx => ?_⟩
        by_contra hc
        have := h3 t x
        rw [if_neg hc, add_zero] at this
        exact hx this

/-- what is reached in one step is inside all limits -/
theorem reach_one_allowed {e' c' : ℝ} (hQ : (hops m k).Ok e' c') (ht : m'.nTypes = m.nTypes)
    (hB : LimitsAtLeast 1 m' ae) {n : Occ} (h : (hops m k).Reach 1 n) : Allowed m' ae n := by
  obtain ⟨t0, x0, h0⟩ := reach_one h
  have hc : Conceivable m n := Hops.reach_S hQ h
  have hN : phononCount m n ≤ 1 := by
    have := (Hops.reach_upto hQ h).2
    have h2 : ((phononCount m n : ℤ) : ℝ) ≤ ((1 : ℕ) : ℝ) := this
    exact_mod_cast h2
  have hw : ∀ M : ℤ, 1 ≤ M → ∀ t x t' y, n t x ≠ 0 → n t' y ≠ 0 → y - x + 1 ≤ M := by
    intro M hM t x t' y h1 h2
    have a1 := (h0 t x h1).2
    have a2 := (h0 t' y h2).2
    omega
  refine ⟨hc.nonneg, fun t x hne => ht ▸ hc.types t x hne, fun c hcap t x => ?_, hw ae hB.window, ?_, ?_⟩
  · have a1 := (hc.le_total t x).trans (hc.total_le t)
    have a2 := hB.cap c hcap
    omega
  · intro t M hM x y h1 h2
    exact hw M (hB.extent M (List.mem_of_getElem? hM)) t x t y h1 h2
  · intro t N hN'
    have a1 := hc.total_le t
    have a2 := hB.number N (List.mem_of_getElem? hN')
    omega

end GGCE
