import Verif.Spec.Untruncated
import Verif.Proofs.Frame
import Verif.Proofs.Galerkin

/-! The Hamiltonian without limits, and its restrictions, as instances of `Hops`. -/

set_option linter.unusedSectionVars false

namespace GGCE
open Spec Complex ComplexConjugate

variable {m m' : Model ℝ} {ae : ℤ} {k : ℝ} {c : ℤ} {n : Occ}

/-! ### occupations with finitely many phonons -/

theorem conceivable_zero : Conceivable m 0 where
  nonneg _ _ := le_refl _
  types _ _ h := absurd rfl h
  finite t := by convert Set.finite_empty; ext x; simp

theorem Spec.Conceivable.shift (h : Conceivable m n) (s : ℤ) : Conceivable m (n.shift s) where
  nonneg t _ := h.nonneg t _
  types t _ := h.types t _
  finite t := (h.finite t).preimage (sub_left_injective.injOn) (f := fun x => x - s)

theorem conceivable_shift {s : ℤ} : Conceivable m (n.shift s) ↔ Conceivable m n := by
  constructor
  · intro h
    have := h.shift (-s)
    simpa using this
  · exact fun h => h.shift s

theorem Spec.Conceivable.le_total (h : Conceivable m n) (t : ℕ) (x : ℤ) : n t x ≤ ∑ᶠ y, n t y :=
  single_le_finsum x (h.finite t) (h.nonneg t)

theorem Spec.Conceivable.total_nonneg (h : Conceivable m n) (t : ℕ) : 0 ≤ ∑ᶠ y, n t y := finsum_nonneg (h.nonneg t)

theorem Spec.Conceivable.total_le (h : Conceivable m n) (t : ℕ) : ∑ᶠ y, n t y ≤ phononCount m n := by
  by_cases ht : t < m.nTypes
  · unfold phononCount
    exact Finset.single_le_sum (f := fun t => ∑ᶠ y, n t y) (fun t _ => h.total_nonneg t) (Finset.mem_range.2 ht)
  · have : ∀ x, n t x = 0 := fun x => by by_contra hc; exact ht (h.types t x hc)
    simp only [this, finsum_zero]
    exact Finset.sum_nonneg (fun t _ => h.total_nonneg t)

theorem Spec.Conceivable.count_nonneg (h : Conceivable m n) : 0 ≤ phononCount m n :=
  Finset.sum_nonneg (fun t _ => h.total_nonneg t)

theorem count_shift (s : ℤ) : phononCount m (n.shift s) = phononCount m n := by
  unfold phononCount; simp only [finsum_shift]

theorem finsum_act {t : ℕ} (hf : (Function.support (n t)).Finite) (d : Dag) (t' : ℕ) (x : ℤ) :
    ∑ᶠ y, n.act d t' x t y = ∑ᶠ y, n t y + if t = t' then Dag.delta d else 0 := by
  by_cases h : t = t'
  · rw [if_pos h]
    have e : ∀ y, n.act d t' x t y = n t y + if y = x then Dag.delta d else 0 := fun y => by
      show n t y + (if t = t' ∧ y = x then Dag.delta d else 0) = _
      simp [h]
    simp only [e]
    rw [finsum_add_distrib hf ((Set.finite_singleton x).subset (fun y hy => by
      by_contra hc
      exact hy (if_neg hc)))]
    congr 1
    exact finsum_eq_single _ x (fun y hy => if_neg hy) |>.trans (if_pos rfl)
  · rw [if_neg h, add_zero]
    refine finsum_congr (fun y => ?_)
    show n t y + (if t = t' ∧ y = x then Dag.delta d else 0) = _
    simp [h]

theorem Spec.Conceivable.count_jump (hn : Conceivable m n) (h : SingleTerm ℝ) :
    phononCount m (jump h n) = phononCount m n + if h.phononIndex < m.nTypes then Dag.delta h.dag else 0 := by
  unfold jump
  rw [count_shift]
  unfold phononCount
  simp only [finsum_act (hn.finite _), Finset.sum_add_distrib]
  congr 1
  rw [Finset.sum_ite_eq' (Finset.range m.nTypes) h.phononIndex (fun _ => Dag.delta h.dag)]
  simp

theorem Spec.Allowed.conceivable (h : Allowed m ae n) : Conceivable m n := ⟨h.nonneg, h.types, h.finite⟩

theorem Spec.Allowed.count_le (hm : ListsOk m) (h : Allowed m ae n) : phononCount m n ≤ m.nTypes * numBound m := by
  unfold phononCount
  refine (Finset.sum_le_card_nsmul _ _ (numBound m) (fun t _ => h.total_le hm t)).trans ?_
  simp

/-- every occupation is allowed when the limits are large enough -/
theorem Spec.Conceivable.allowed (h : Conceivable m n) : ∃ B : ℤ, ∀ (m' : Model ℝ) (ae : ℤ), m'.nTypes = m.nTypes →
    ListsOk m' → LimitsAtLeast B m' ae → Allowed m' ae n := by
  have hfin : (⋃ t ∈ Finset.range m.nTypes, Function.support (n t)).Finite :=
    (Finset.range m.nTypes).finite_toSet.biUnion (fun t _ => h.finite t)
  obtain ⟨lo, hlo⟩ := hfin.bddBelow
  obtain ⟨hi, hhi⟩ := hfin.bddAbove
  have hx : ∀ t x, n t x ≠ 0 → lo ≤ x ∧ x ≤ hi := fun t x hne => by
    have : x ∈ ⋃ t ∈ Finset.range m.nTypes, Function.support (n t) :=
      Set.mem_biUnion (Finset.mem_range.2 (h.types t x hne)) hne
    exact ⟨hlo this, hhi this⟩
  refine ⟨max (hi - lo + 1) (phononCount m n), fun m' ae ht hl hB => ?_⟩
  have hw : ∀ M, max (hi - lo + 1) (phononCount m n) ≤ M → ∀ t x t' y, n t x ≠ 0 → n t' y ≠ 0 → y - x + 1 ≤ M := by
    intro M hM t x t' y h1 h2
    have a1 := hx t x h1
    have a2 := hx t' y h2
    have a3 := (le_max_left _ _).trans hM
    omega
  refine ⟨h.nonneg, fun t x hne => ht ▸ h.types t x hne, fun c hc t x => ?_, hw ae hB.window, ?_, ?_⟩
  · exact ((h.le_total t x).trans (h.total_le t)).trans ((le_max_right _ _).trans (hB.cap c hc))
  · intro t M hM x y h1 h2
    exact hw M (hB.extent M (List.mem_of_getElem? hM)) t x t y h1 h2
  · intro t N hN
    exact (h.total_le t).trans ((le_max_right _ _).trans (hB.number N (List.mem_of_getElem? hN)))

/-! ### the instance -/

/-- the weight of a coupling term -/
noncomputable def termWeight (m : Model ℝ) (k : ℝ) (h : SingleTerm ℝ) (n : Occ) : ℂ :=
  (h.coupling : ℂ) * (ladder h n : ℂ) * exp (-(I * (k * m.latticeConstant * electronSite h 0)))

/-- the weight of a hop -/
noncomputable def hopWeight (m : Model ℝ) (k : ℝ) : ℂ := -(m.ham.hopping * exp (I * (k * m.latticeConstant)))

/-- the Hamiltonian in the frame of the electron -/
noncomputable def hops (m : Model ℝ) (k : ℝ) : Hops Occ where
  S := Conceivable m
  o := 0
  N n := phononCount m n
  E n := occEnergy m n
  moves := (shiftE 1, fun _ => hopWeight m k) :: (shiftE (-1), fun _ => hopWeight m (-k)) ::
    m.ham.terms.map (fun h => (jumpE h, termWeight m k h))

theorem hops_same (h : SameSystem m m') : hops m' k = hops m k := by
  have e1 : Conceivable m' = Conceivable m := by
    funext n
    exact propext ⟨fun q => ⟨q.nonneg, fun t x hx => h.types ▸ q.types t x hx, q.finite⟩,
      fun q => ⟨q.nonneg, fun t x hx => h.types.symm ▸ q.types t x hx, q.finite⟩⟩
  have e2 : (fun n => occEnergy m' n) = fun n => occEnergy m n := by
    funext n; unfold occEnergy; rw [h.types, h.ham]
  have e3 : (fun n => (phononCount m' n : ℝ)) = fun n => (phononCount m n : ℝ) := by
    funext n; unfold phononCount; rw [h.types]
  have e4 : ∀ k, hopWeight m' k = hopWeight m k := fun k => by unfold hopWeight; rw [h.ham, h.lattice]
  have e5 : ∀ x, termWeight m' k x = termWeight m k x := fun x => by
    funext n; unfold termWeight; rw [h.lattice]
  unfold hops
  rw [e1, e2, e3, e4, e4, h.ham]
  simp only [e5]

/-- a bound for the weights -/
noncomputable def weightBound (m : Model ℝ) : ℝ := |m.ham.hopping| + (m.ham.terms.map (fun h => |h.coupling|)).sum

/-- a bound for the energies -/
noncomputable def freqBound (m : Model ℝ) : ℝ := ∑ t ∈ Finset.range m.nTypes, |m.ham.freqs.getD t 0|

theorem list_sum_nonneg (l : List (SingleTerm ℝ)) : 0 ≤ (l.map (fun h => |h.coupling|)).sum := by
  refine List.sum_nonneg (fun x hx => ?_)
  obtain ⟨h, -, rfl⟩ := List.mem_map.1 hx
  exact abs_nonneg _

theorem le_list_sum {l : List (SingleTerm ℝ)} {h : SingleTerm ℝ} (hh : h ∈ l) :
    |h.coupling| ≤ (l.map (fun h => |h.coupling|)).sum := by
  refine List.single_le_sum (fun x hx => ?_) _ (List.mem_map_of_mem hh)
  obtain ⟨h, -, rfl⟩ := List.mem_map.1 hx
  exact abs_nonneg _

theorem ladder_le_count (hn : Conceivable m n) (h : SingleTerm ℝ) :
    ladder h n ≤ Real.sqrt (phononCount m (jump h n) + 2) := by
  have h1 : n h.phononIndex (bosonSite h 0) ≤ phononCount m n := (hn.le_total _ _).trans (hn.total_le _)
  have h2 := hn.count_jump h
  unfold ladder
  cases hd : h.dag with
  | plus =>
    refine Real.sqrt_le_sqrt ?_
    rw [hd] at h2
    have : n h.phononIndex (bosonSite h 0) + 1 ≤ phononCount m (jump h n) + 2 := by
      rw [h2]; split <;> simp [Dag.delta] <;> omega
    exact_mod_cast this
  | minus =>
    refine Real.sqrt_le_sqrt ?_
    rw [hd] at h2
    have : n h.phononIndex (bosonSite h 0) ≤ phononCount m (jump h n) + 2 := by
      rw [h2]; split <;> simp [Dag.delta] <;> omega
    exact_mod_cast this

theorem termWeight_norm (h : SingleTerm ℝ) (n : Occ) : ‖termWeight m k h n‖ = |h.coupling| * ladder h n := by
  have := norm_phase' (k * m.latticeConstant * electronSite h 0)
  push_cast at this
  unfold termWeight
  rw [norm_mul, norm_mul, this, mul_one, Complex.norm_real, Complex.norm_real, Real.norm_eq_abs, Real.norm_eq_abs,
    abs_of_nonneg (ladder_nonneg h n)]

theorem hopWeight_norm (k : ℝ) : ‖hopWeight m k‖ = |m.ham.hopping| := by
  have := norm_phase (k * m.latticeConstant)
  push_cast at this
  unfold hopWeight
  rw [norm_neg, norm_mul, Complex.norm_real, Real.norm_eq_abs, this, mul_one]

theorem one_le_root (hn : Conceivable m n) : 1 ≤ Real.sqrt (phononCount m n + 2) := by
  rw [Real.one_le_sqrt]
  have : (0 : ℝ) ≤ phononCount m n := by exact_mod_cast hn.count_nonneg
  linarith

theorem termWeight_adjoint {h : SingleTerm ℝ} (hp : h.psi.tw % 2 = 0) (n : Occ) :
    termWeight m k (adjoint h) (jump h n) = conj (termWeight m k h n) := by
  unfold termWeight
  rw [ladder_adjoint hp]
  have e1 : electronSite (adjoint h) 0 = -electronSite h 0 := by
    unfold electronSite adjoint; simp only; omega
  rw [e1, map_mul, map_mul, Complex.conj_ofReal, Complex.conj_ofReal, ← Complex.exp_conj]
  show (h.coupling : ℂ) * _ * _ = _
  congr 2
  simp

theorem hopWeight_conj (k : ℝ) : conj (hopWeight m k) = hopWeight m (-k) := by
  unfold hopWeight
  rw [map_neg, map_mul, Complex.conj_ofReal, ← Complex.exp_conj]
  congr 3
  simp

theorem hops_ok (hs : Props.ShiftsOk m c) (hadj : (m.ham.terms.map adjoint).Perm m.ham.terms) :
    (hops m k).Ok (freqBound m) (weightBound m) where
  base := conceivable_zero
  baseN := by
    show ((phononCount m 0 : ℤ) : ℝ) = 0
    unfold phononCount; simp
  nonneg n hn := by
    show (0 : ℝ) ≤ (phononCount m n : ℤ)
    exact_mod_cast Conceivable.count_nonneg hn
  epos := Finset.sum_nonneg (fun _ _ => abs_nonneg _)
  cpos := add_nonneg (abs_nonneg _) (list_sum_nonneg _)
  diag n hn := by
    show |occEnergy m n| ≤ freqBound m * (phononCount m n : ℤ)
    unfold occEnergy freqBound
    refine (Finset.abs_sum_le_sum_abs _ _).trans ?_
    rw [Finset.sum_mul]
    refine Finset.sum_le_sum (fun t _ => ?_)
    have hn' : Conceivable m n := hn
    rw [abs_mul, abs_of_nonneg (a := ((∑ᶠ x, n t x : ℤ) : ℝ)) (by exact_mod_cast hn'.total_nonneg t)]
    exact mul_le_mul_of_nonneg_left (by exact_mod_cast hn'.total_le t) (abs_nonneg _)
  weight μ hμ n hn hn' := by
    have hroot : 1 ≤ Real.sqrt ((hops m k).N (μ.1 n) + 2) := one_le_root (m := m) hn'
    have hhop : |m.ham.hopping| ≤ weightBound m * Real.sqrt ((hops m k).N (μ.1 n) + 2) := by
      have h1 : |m.ham.hopping| ≤ weightBound m := by
        unfold weightBound; linarith [list_sum_nonneg m.ham.terms]
      have h0 : 0 ≤ weightBound m := (abs_nonneg _).trans h1
      nlinarith
    rcases List.mem_cons.1 hμ with rfl | hμ
    · refine le_trans (le_of_eq ?_) hhop; exact hopWeight_norm k
    rcases List.mem_cons.1 hμ with rfl | hμ
    · refine le_trans (le_of_eq ?_) hhop; exact hopWeight_norm (-k)
    obtain ⟨h, hh, rfl⟩ := List.mem_map.1 hμ
    show ‖termWeight m k h n‖ ≤ weightBound m * Real.sqrt (phononCount m (jump h n) + 2)
    rw [termWeight_norm]
    refine mul_le_mul ?_ (ladder_le_count hn h) (ladder_nonneg h n) ?_
    · have := le_list_sum hh
      unfold weightBound
      linarith [abs_nonneg m.ham.hopping]
    · exact add_nonneg (abs_nonneg _) (list_sum_nonneg _)
  step μ hμ n hn hn' := by
    rcases List.mem_cons.1 hμ with rfl | hμ
    · show |((phononCount m (n.shift 1) : ℤ) : ℝ) - (phononCount m n : ℤ)| ≤ 1
      rw [count_shift]; simp
    rcases List.mem_cons.1 hμ with rfl | hμ
    · show |((phononCount m (n.shift (-1)) : ℤ) : ℝ) - (phononCount m n : ℤ)| ≤ 1
      rw [count_shift]; simp
    obtain ⟨h, hh, rfl⟩ := List.mem_map.1 hμ
    show |((phononCount m (jump h n) : ℤ) : ℝ) - (phononCount m n : ℤ)| ≤ 1
    rw [Conceivable.count_jump hn h]
    push_cast
    rw [add_sub_cancel_left]
    split
    · cases h.dag <;> simp [Dag.delta]
    · simp
  symm := by
    have e1 : ∀ k, Hops.rev (shiftE 1, fun _ => hopWeight m k) = (shiftE (-1), fun _ => hopWeight m (-k)) := by
      intro k
      unfold Hops.rev
      refine Prod.ext (Equiv.ext (fun n => rfl)) ?_
      funext n
      exact hopWeight_conj k
    have e2 : Hops.rev (shiftE (-1), fun _ => hopWeight m (-k)) = (shiftE 1, fun _ => hopWeight m k) := by
      unfold Hops.rev
      refine Prod.ext (Equiv.ext (fun n => ?_)) ?_
      · show n.shift (- -1) = n.shift 1
        rw [neg_neg]
      · funext n
        show conj (hopWeight m (-k)) = _
        rw [hopWeight_conj, neg_neg]
    have e3 : ∀ h ∈ m.ham.terms, Hops.rev (jumpE h, termWeight m k h) =
        (jumpE (adjoint h), termWeight m k (adjoint h)) := by
      intro h hh
      have hp := (hs h hh).1
      unfold Hops.rev
      have e4 : ∀ n, (jumpE h).symm n = jump (adjoint h) n := fun n => by
        have := jump_adjoint hp ((jumpE h).symm n)
        rw [← this]
        congr 1
        exact (jumpE h).apply_symm_apply n
      refine Prod.ext (Equiv.ext e4) ?_
      funext n
      show conj (termWeight m k h ((jumpE h).symm n)) = _
      rw [← termWeight_adjoint hp]
      congr 1
      exact (jumpE h).apply_symm_apply n
    unfold hops
    simp only [List.map_cons, e1, e2, List.map_map]
    refine (List.Perm.swap _ _ _).trans ((List.Perm.cons _ (List.Perm.cons _ ?_)))
    have e5 : m.ham.terms.map (Hops.rev ∘ fun h => (jumpE h, termWeight m k h)) =
        (m.ham.terms.map adjoint).map (fun h => (jumpE h, termWeight m k h)) := by
      rw [List.map_map]
      exact List.map_congr_left e3
    rw [e5]
    exact hadj.map _

theorem hops_sub (hm : ListsOk m) (h0 : Allowed m ae 0) :
    (hops m k).Sub (Allowed m ae) (m.nTypes * numBound m : ℤ) :=
  ⟨fun _ h => h.conceivable, h0, fun n h => by
    show ((phononCount m n : ℤ) : ℝ) ≤ _
    exact_mod_cast h.count_le hm⟩

theorem hops_act_allowed (f : Occ → ℂ) (n : Occ) : (hops m k).act (Allowed m ae) f n = frame m ae k f n := by
  unfold Hops.act Hops.diagIn Hops.inside hops frame
  by_cases hn : Allowed m ae n
  · rw [if_pos hn, if_pos hn]
    simp only [List.map_cons, List.sum_cons, List.map_map]
    rw [if_pos ⟨hn, (allowed_shift (s := 1)).2 hn⟩, if_pos ⟨hn, (allowed_shift (s := -1)).2 hn⟩]
    have e1 : (m.ham.terms.map ((fun μ : (Occ ≃ Occ) × (Occ → ℂ) =>
          (open Classical in if Allowed m ae n ∧ Allowed m ae (μ.1 n) then μ.2 n else 0) * f (μ.1 n)) ∘
          fun h => (jumpE h, termWeight m k h))).sum =
        (m.ham.terms.map (fun h : SingleTerm ℝ => (h.coupling : ℂ) * (ladder h n : ℂ) *
        exp (-(I * (k * m.latticeConstant * electronSite h 0))) *
        open Classical in if Allowed m ae (jump h n) then f (jump h n) else 0)).sum := by
      congr 1
      apply List.map_congr_left
      intro h _
      simp only [Function.comp]
      show (open Classical in if Allowed m ae n ∧ Allowed m ae (jump h n) then termWeight m k h n else 0) * f (jump h n) = _
      by_cases hj : Allowed m ae (jump h n)
      · rw [if_pos ⟨hn, hj⟩, if_pos hj]; rfl
      · rw [if_neg (fun q => hj q.2), if_neg hj, zero_mul, mul_zero]
    rw [e1]
    unfold hopWeight
    show _ + (_ * f (n.shift 1) + (_ * f (n.shift (-1)) + _)) = _
    push_cast
    rw [show I * (-(k : ℂ) * m.latticeConstant) = -(I * (k * m.latticeConstant)) by ring]
    ring
  · rw [if_neg hn, if_neg hn, zero_mul, zero_add]
    refine List.sum_eq_zero (fun x hx => ?_)
    obtain ⟨μ, -, rfl⟩ := List.mem_map.1 hx
    rw [if_neg (fun q => hn q.1), zero_mul]

theorem hops_act_all (f : Occ → ℂ) {n : Occ} (hn : Conceivable m n) :
    (hops m k).act (Conceivable m) f n = frameAll m k f n := by
  unfold Hops.act Hops.diagIn Hops.inside hops frameAll
  rw [if_pos hn]
  simp only [List.map_cons, List.sum_cons, List.map_map]
  rw [if_pos ⟨hn, (conceivable_shift (s := 1)).2 hn⟩, if_pos ⟨hn, (conceivable_shift (s := -1)).2 hn⟩]
  have e1 : (m.ham.terms.map ((fun μ : (Occ ≃ Occ) × (Occ → ℂ) =>
        (open Classical in if Conceivable m n ∧ Conceivable m (μ.1 n) then μ.2 n else 0) * f (μ.1 n)) ∘
        fun h => (jumpE h, termWeight m k h))).sum =
      (m.ham.terms.map (fun h : SingleTerm ℝ => (h.coupling : ℂ) * (ladder h n : ℂ) *
      exp (-(I * (k * m.latticeConstant * electronSite h 0))) *
      open Classical in if Conceivable m (jump h n) then f (jump h n) else 0)).sum := by
    congr 1
    apply List.map_congr_left
    intro h _
    simp only [Function.comp]
    show (open Classical in if Conceivable m n ∧ Conceivable m (jump h n) then termWeight m k h n else 0) * f (jump h n) = _
    by_cases hj : Conceivable m (jump h n)
    · rw [if_pos ⟨hn, hj⟩, if_pos hj]; rfl
    · rw [if_neg (fun q => hj q.2), if_neg hj, zero_mul, mul_zero]
  rw [e1]
  unfold hopWeight
  show _ + (_ * f (n.shift 1) + (_ * f (n.shift (-1)) + _)) = _
  push_cast
  rw [show I * (-(k : ℂ) * m.latticeConstant) = -(I * (k * m.latticeConstant)) by ring]
  ring

end GGCE
