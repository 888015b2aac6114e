import Verif.Proofs.Variance
import Verif.Spec.Binding
import Verif.Proofs.FewSplit

/-! The third power of the Hamiltonian on the bare electron. -/

set_option linter.unusedSectionVars false

namespace GGCE
open Spec Complex ComplexConjugate

variable {m : Model ℝ} {k : ℝ} {n : Occ}

/-- one phonon of type `t` at the distance `y` from the electron -/
def oneAt (t : ℕ) (y : ℤ) : Occ := fun t' y' => if t' = t ∧ y' = y then 1 else 0

theorem jump_plus {h : SingleTerm ℝ} (hd : h.dag = .plus) :
    jump h 0 = oneAt h.phononIndex (bosonSite h 0 - electronSite h 0) := by
  funext t y
  rw [jump_zero_apply, hd]
  rfl

theorem oneAt_shift (t : ℕ) (y s : ℤ) : (oneAt t y).shift s = oneAt t (y + s) := by
  funext t' y'
  show (if t' = t ∧ y' - s = y then (1 : ℤ) else 0) = if t' = t ∧ y' = y + s then 1 else 0
  congr 1
  exact propext ⟨fun q => ⟨q.1, by omega⟩, fun q => ⟨q.1, by omega⟩⟩

theorem oneAt_ne (t : ℕ) (y : ℤ) : oneAt t y ≠ 0 := by
  intro q
  have := congrFun (congrFun q t) y
  simp [oneAt] at this

theorem oneAt_conceivable {t : ℕ} (ht : t < m.nTypes) (y : ℤ) : Conceivable m (oneAt t y) where
  nonneg t' y' := by unfold oneAt; split <;> simp
  types t' y' hy := by
    by_contra hc
    exact hy (if_neg (fun q : t' = t ∧ _ => hc (q.1 ▸ ht)))
  finite t' := (Set.finite_singleton y).subset (fun y' hy => by
    by_contra hc
    exact hy (if_neg (fun q => hc q.2)))

/-- `h'` absorbs a phonon of type `t` at the distance `y` -/
def Absorbs (t : ℕ) (y : ℤ) (h' : SingleTerm ℝ) : Prop := h'.dag = .minus ∧ h'.phononIndex = t ∧ bosonSite h' 0 = y

instance (t : ℕ) (y : ℤ) (h' : SingleTerm ℝ) : Decidable (Absorbs t y h') := by unfold Absorbs; infer_instance

/-- the amplitude of this state in `H |bare⟩` -/
noncomputable def kick (m : Model ℝ) (x : ℝ) (t : ℕ) (y : ℤ) : ℂ :=
  (m.ham.terms.map (fun h' => if Absorbs t y h' then h'.coupling * turn x h' else 0)).sum

theorem jump_oneAt {t : ℕ} {y : ℤ} {h' : SingleTerm ℝ} : jump h' (oneAt t y) = 0 ↔ Absorbs t y h' := by
  rw [jump_eq_zero]
  constructor
  · intro q
    have h1 := q t y
    rw [show oneAt t y t y = 1 from if_pos ⟨rfl, rfl⟩] at h1
    by_cases hc : t = h'.phononIndex ∧ y = bosonSite h' 0
    · rw [if_pos hc] at h1
      refine ⟨?_, hc.1.symm, hc.2.symm⟩
      cases hd' : h'.dag with
      | plus => rw [hd'] at h1; simp [Dag.delta] at h1
      | minus => rfl
    · rw [if_neg hc] at h1; simp at h1
  · rintro ⟨h2, h3, h4⟩ t' y'
    rw [h3, h4, h2]
    unfold oneAt
    split <;> simp [Dag.delta]

theorem ladder_oneAt {t : ℕ} {y : ℤ} {h' : SingleTerm ℝ} (h : Absorbs t y h') : ladder h' (oneAt t y) = 1 := by
  unfold ladder
  rw [h.1, h.2.1, h.2.2]
  simp [oneAt]

theorem powers_zero {n : Occ} (hn : n ≠ 0) : powers m k 0 n = 0 := if_neg hn

open Classical in
/-- `H |bare⟩` away from the bare state -/
theorem powers_one_away (hc : Conceivable m n) (hn : n ≠ 0) :
    powers m k 1 n = (m.ham.terms.map (fun h : SingleTerm ℝ => (h.coupling : ℂ) * (ladder h n : ℂ) *
      exp (-(I * (k * m.latticeConstant * electronSite h 0))) * if jump h n = 0 then 1 else 0)).sum := by
  show (if Conceivable m n then frameAll m k (powers m k 0) n else 0) = _
  rw [if_pos hc]
  unfold frameAll
  rw [powers_zero hn, powers_zero (shift_ne hn), powers_zero (shift_ne hn)]
  simp only [mul_zero, add_zero, sub_zero, zero_add]
  congr 1
  apply List.map_congr_left
  intro h' _
  by_cases h0 : jump h' n = 0
  · rw [h0, if_pos conceivable_zero, if_pos rfl, show powers m k 0 0 = 1 from if_pos rfl]
  · rw [if_neg h0, powers_zero h0, ite_self]

theorem powers_one_oneAt {t : ℕ} (ht : t < m.nTypes) (y : ℤ) :
    powers m k 1 (oneAt t y) = kick m (k * m.latticeConstant) t y := by
  rw [powers_one_away (oneAt_conceivable ht y) (oneAt_ne t y)]
  unfold kick
  congr 1
  apply List.map_congr_left
  intro h' _
  by_cases ha : Absorbs t y h'
  · rw [if_pos ha, if_pos (jump_oneAt.2 ha), ladder_oneAt ha]
    unfold turn
    push_cast
    ring
  · rw [if_neg ha, if_neg (fun q => ha (jump_oneAt.1 q)), mul_zero]

/-- two phonons are not reached in one step -/
theorem powers_one_two (hn : 2 ≤ phononCount m n) : powers m k 1 n = 0 := by
  by_cases hc : Conceivable m n
  · have h0 : n ≠ 0 := by
      rintro rfl
      simp [phononCount] at hn
    rw [powers_one_away hc h0]
    refine List.sum_eq_zero (fun x hx => ?_)
    obtain ⟨h, -, rfl⟩ := List.mem_map.1 hx
    rw [if_neg, mul_zero]
    intro q
    have h1 := hc.count_jump h
    rw [q] at h1
    have h2 : phononCount m 0 = 0 := by simp [phononCount]
    rw [h2] at h1
    have h3 : -1 ≤ Dag.delta h.dag := by cases h.dag <;> simp [Dag.delta]
    split at h1 <;> omega
  · exact if_neg hc

theorem sum_oneAt (t : ℕ) (y : ℤ) (t' : ℕ) : ∑ᶠ x, oneAt t y t' x = if t' = t then 1 else 0 := by
  by_cases h : t' = t
  · subst h
    rw [if_pos rfl, finsum_eq_single (oneAt t' y t') y (fun x hx => if_neg (fun q => hx q.2))]
    exact if_pos ⟨rfl, rfl⟩
  · rw [if_neg h]
    refine finsum_eq_zero_of_forall_eq_zero (fun x => if_neg (fun q => h q.1))

theorem count_oneAt {t : ℕ} (ht : t < m.nTypes) (y : ℤ) : phononCount m (oneAt t y) = 1 := by
  unfold phononCount
  simp only [sum_oneAt]
  rw [Finset.sum_ite_eq' (Finset.range m.nTypes) t (fun _ => (1 : ℤ)), if_pos (Finset.mem_range.2 ht)]

theorem energy_oneAt {t : ℕ} (ht : t < m.nTypes) (y : ℤ) : occEnergy m (oneAt t y) = m.ham.freqs.getD t 0 := by
  unfold occEnergy
  simp only [sum_oneAt]
  rw [Finset.sum_eq_single t]
  · simp
  · intro t' _ h; simp [h]
  · intro h; exact absurd (Finset.mem_range.2 ht) h

/-- the energy of the free electron -/
noncomputable def freeE (m : Model ℝ) (k : ℝ) : ℝ := -(2 * m.ham.hopping * Real.cos (k * m.latticeConstant))

open Classical in
theorem powers_two_oneAt {t : ℕ} (ht : t < m.nTypes) (y : ℤ) :
    powers m k 2 (oneAt t y) =
      (m.ham.freqs.getD t 0 + freeE m k) * kick m (k * m.latticeConstant) t y -
        m.ham.hopping * (exp (I * (k * m.latticeConstant)) * kick m (k * m.latticeConstant) t (y + 1) +
          exp (-(I * (k * m.latticeConstant))) * kick m (k * m.latticeConstant) t (y - 1)) := by
  have hc := oneAt_conceivable (m := m) ht y
  show (if Conceivable m (oneAt t y) then frameAll m k (powers m k 1) (oneAt t y) else 0) = _
  rw [if_pos hc]
  unfold frameAll
  rw [oneAt_shift, oneAt_shift, powers_one_oneAt ht, powers_one_oneAt ht, powers_one_oneAt ht, energy_oneAt ht]
  have e1 : (m.ham.terms.map (fun h : SingleTerm ℝ => (h.coupling : ℂ) * (ladder h (oneAt t y) : ℂ) *
        exp (-(I * (k * m.latticeConstant * electronSite h 0))) *
        if Conceivable m (jump h (oneAt t y)) then powers m k 1 (jump h (oneAt t y)) else 0)).sum =
      freeE m k * kick m (k * m.latticeConstant) t y := by
    unfold kick
    rw [← List.sum_map_mul_left]
    congr 1
    apply List.map_congr_left
    intro h _
    by_cases ha : Absorbs t y h
    · rw [if_pos ha, jump_oneAt.2 ha, if_pos conceivable_zero, powers_one_zero, ladder_oneAt ha]
      unfold turn freeE
      push_cast
      ring
    · rw [if_neg ha, mul_zero]
      cases hd : h.dag with
      | minus =>
        have hl : ladder h (oneAt t y) = 0 := by
          unfold ladder
          rw [hd]
          have : oneAt t y h.phononIndex (bosonSite h 0) = 0 := if_neg (fun q => ha ⟨hd, q.1, q.2⟩)
          simp [this]
        rw [hl]; simp
      | plus =>
        split
        · rename_i hj
          by_cases hi : h.phononIndex < m.nTypes
          · have : 2 ≤ phononCount m (jump h (oneAt t y)) := by
              rw [hc.count_jump h, if_pos hi, hd, count_oneAt ht]; simp [Dag.delta]
            rw [powers_one_two this, mul_zero]
          · exfalso
            apply hi
            apply hj.types h.phononIndex (bosonSite h 0 - electronSite h 0)
            unfold jump Occ.shift Occ.act
            have h1 := hc.nonneg h.phononIndex (bosonSite h 0)
            simp [hd, Dag.delta]
            omega
        · rw [mul_zero]
  rw [e1]
  ring_nf

/-- the contribution of a pair to the third moment: the electron makes `s` steps between emission and absorption -/
noncomputable def pairAt (x : ℝ) (s : ℤ) (h h' : SingleTerm ℝ) : ℂ :=
  if h.dag = .plus ∧ Absorbs h.phononIndex (bosonSite h 0 - electronSite h 0 + s) h' then
    (h.coupling * turn x h) * (h'.coupling * turn x h') else 0

theorem pairAt_zero (x : ℝ) (h h' : SingleTerm ℝ) : pairAt x 0 h h' = pairWeight x h h' := by
  unfold pairAt pairWeight
  congr 1
  unfold Absorbs Pairs
  rw [add_zero]

/-- the contribution of an emission to the third moment -/
noncomputable def returnAmp (m : Model ℝ) (k : ℝ) (l : List (SingleTerm ℝ)) (h : SingleTerm ℝ) : ℂ :=
  m.ham.freqs.getD h.phononIndex 0 * (l.map (pairAt (k * m.latticeConstant) 0 h)).sum -
    m.ham.hopping * (exp (I * (k * m.latticeConstant)) * (l.map (pairAt (k * m.latticeConstant) 1 h)).sum +
      exp (-(I * (k * m.latticeConstant))) * (l.map (pairAt (k * m.latticeConstant) (-1) h)).sum)

theorem kick_pairAt {h : SingleTerm ℝ} (hd : h.dag = .plus) (x : ℝ) (s : ℤ) :
    (h.coupling * turn x h) * kick m x h.phononIndex (bosonSite h 0 - electronSite h 0 + s) =
      (m.ham.terms.map (pairAt x s h)).sum := by
  unfold kick
  rw [← List.sum_map_mul_left]
  congr 1
  apply List.map_congr_left
  intro h' _
  unfold pairAt
  by_cases ha : Absorbs h.phononIndex (bosonSite h 0 - electronSite h 0 + s) h'
  · rw [if_pos ha, if_pos ⟨hd, ha⟩]
  · rw [if_neg ha, if_neg (fun q => ha q.2), mul_zero]

theorem pairAt_minus {h : SingleTerm ℝ} (hd : h.dag = .minus) (x : ℝ) (s : ℤ) (l : List (SingleTerm ℝ)) :
    (l.map (pairAt x s h)).sum = 0 := by
  refine List.sum_eq_zero (fun y hy => ?_)
  obtain ⟨h', -, rfl⟩ := List.mem_map.1 hy
  exact if_neg (fun q => by rw [q.1] at hd; cases hd)

open Classical in
theorem moment_three (hi : ∀ h ∈ m.ham.terms, h.phononIndex < m.nTypes) :
    moment m k 3 = freeE m k * moment m k 2 + freeE m k * (moment m k 2 - freeE m k ^ 2) +
      (m.ham.terms.map (returnAmp m k m.ham.terms)).sum := by
  have h2 := moment_two (k := k) hi
  have h2' : moment m k 2 - (freeE m k : ℂ) ^ 2 =
      (m.ham.terms.map (fun h => (m.ham.terms.map (pairWeight (k * m.latticeConstant) h)).sum)).sum := by
    rw [h2]; unfold freeE; ring
  show (if Conceivable m 0 then frameAll m k (powers m k 2) 0 else 0) = _
  rw [if_pos conceivable_zero, h2', add_assoc]
  unfold frameAll
  have e1 : occEnergy m 0 = 0 := by unfold occEnergy; simp
  rw [e1, zero_shift, zero_shift, show powers m k 2 0 = moment m k 2 from rfl]
  congr 1
  · unfold freeE
    push_cast
    rw [Complex.cos, mul_comm I, ← neg_mul]
    ring_nf
  · rw [← List.sum_map_mul_left, ← List.sum_map_add]
    congr 1
    apply List.map_congr_left
    intro h hh
    cases hd : h.dag with
    | minus =>
      have hl : ladder h 0 = 0 := by unfold ladder; rw [hd]; simp
      rw [hl]
      unfold returnAmp
      rw [pairAt_minus hd, pairAt_minus hd, pairAt_minus hd]
      have : (m.ham.terms.map (pairWeight (k * m.latticeConstant) h)).sum = 0 := by
        have := pairAt_minus hd (k * m.latticeConstant) 0 m.ham.terms
        rwa [show pairAt (k * m.latticeConstant) 0 h = pairWeight (k * m.latticeConstant) h from
          funext (pairAt_zero _ h)] at this
      rw [this]
      simp
    | plus =>
      have hl : ladder h 0 = 1 := by unfold ladder; rw [hd]; simp
      have hc := jump_conceivable (m := m) hd (hi h hh)
      rw [hl, if_pos hc, jump_plus hd, powers_two_oneAt (hi h hh)]
      have a0 := kick_pairAt (m := m) hd (k * m.latticeConstant) 0
      have a1 := kick_pairAt (m := m) hd (k * m.latticeConstant) 1
      have a2 := kick_pairAt (m := m) hd (k * m.latticeConstant) (-1)
      rw [add_zero] at a0
      rw [← sub_eq_add_neg] at a2
      unfold returnAmp
      rw [← a1, ← a2, ← a0, show pairWeight (k * m.latticeConstant) h = pairAt (k * m.latticeConstant) 0 h from
        (funext (pairAt_zero _ h)).symm, ← a0]
      have ht : exp (-(I * (k * m.latticeConstant * electronSite h 0))) = turn (k * m.latticeConstant) h := by
        unfold turn; push_cast; rfl
      rw [ht]
      push_cast
      ring

/-! ### built-in couplings -/

theorem return_termsOf {ct : String} (hk : Known ct) (g f x t : ℝ) (i : ℕ) :
    ((termsOf ct g i f).map (fun h => ((termsOf ct g i f).map (pairAt x 0 h)).sum)).sum = (spread ct x * g ^ 2 : ℝ) ∧
    t * (exp (I * x) * ((termsOf ct g i f).map (fun h => ((termsOf ct g i f).map (pairAt x 1 h)).sum)).sum +
      exp (-(I * x)) * ((termsOf ct g i f).map (fun h => ((termsOf ct g i f).map (pairAt x (-1) h)).sum)).sum) =
      (drift ct t x * g ^ 2 : ℝ) := by
  have hE : exp (I * x) * exp (-(I * x)) = 1 := by rw [← Complex.exp_add]; simp
  refine ⟨?_, ?_⟩
  · rw [← pairs_termsOf hk g f x i, show pairAt x 0 = pairWeight x from funext (fun h => funext (pairAt_zero x h))]
  · have hC : (Real.cos x : ℂ) = (exp (I * x) + exp (-(I * x))) / 2 := by
      rw [Complex.ofReal_cos, Complex.cos, mul_comm I, neg_mul]
    rcases hk with rfl | rfl | rfl | rfl
    · simp [termsOf, termShapes, drift, pairAt, Absorbs, bosonSite, electronSite, turn, Num.int]
    · simp [termsOf, termShapes, drift, pairAt, Absorbs, bosonSite, electronSite, turn, Num.int]
    · simp [termsOf, termShapes, drift, pairAt, Absorbs, bosonSite, electronSite, turn, Num.int]
      rw [← Complex.ofReal_cos, hC]
      linear_combination (t * (g : ℂ) ^ 2 * (exp (I * x) + exp (-(I * x)))) * hE
    · simp [termsOf, termShapes, drift, pairAt, Absorbs, bosonSite, electronSite, turn, Num.int]
      right
      ring

theorem pairAt_index {x : ℝ} {s : ℤ} {h h' : SingleTerm ℝ} (hne : h.phononIndex ≠ h'.phononIndex) : pairAt x s h h' = 0 :=
  if_neg (fun q => hne q.2.2.1.symm)

/-- pairs of terms of different modes do not count -/
theorem double_sum {W : SingleTerm ℝ → SingleTerm ℝ → ℂ} (hW : ∀ h h', h.phononIndex ≠ h'.phononIndex → W h h' = 0) :
    ∀ (ds : List (Part ℝ)) (i : ℕ), ((partTerms ds i).map (fun h => ((partTerms ds i).map (W h)).sum)).sum =
      ((ds.zipIdx i).map (fun q => ((termsOf q.1.ctype q.1.g q.2 q.1.freq).map (fun h =>
        ((termsOf q.1.ctype q.1.g q.2 q.1.freq).map (W h)).sum)).sum)).sum
  | [], _ => by simp [partTerms]
  | d :: ds, i => by
    have ih := double_sum hW ds (i + 1)
    rw [partTerms_cons, List.map_append, List.sum_append, List.zipIdx_cons, List.map_cons, List.sum_cons, ← ih]
    congr 1
    · congr 1
      apply List.map_congr_left
      intro h hh
      rw [List.map_append, List.sum_append]
      conv_rhs => rw [← add_zero (List.sum _)]
      congr 1
      refine List.sum_eq_zero (fun y hy => ?_)
      obtain ⟨h', hh', rfl⟩ := List.mem_map.1 hy
      have a1 := termsOf_index hh
      have a2 := partTerms_index ds (i + 1) hh'
      exact hW _ _ (by omega)
    · congr 1
      apply List.map_congr_left
      intro h hh
      rw [List.map_append, List.sum_append]
      conv_rhs => rw [← zero_add (List.sum _)]
      congr 1
      refine List.sum_eq_zero (fun y hy => ?_)
      obtain ⟨h', hh', rfl⟩ := List.mem_map.1 hy
      have a1 := termsOf_index hh'
      have a2 := partTerms_index ds (i + 1) hh
      exact hW _ _ (by omega)

theorem lin_sum {α : Type} (l : List α) (a b c d : ℂ) (f g h : α → ℂ) :
    a * (l.map f).sum - b * (c * (l.map g).sum + d * (l.map h).sum) =
      (l.map (fun x => a * f x - b * (c * g x + d * h x))).sum := by
  induction l with
  | nil => simp
  | cons x l ih => simp only [List.map_cons, List.sum_cons] at ih ⊢; rw [← ih]; ring

variable {hopping lattice T : ℝ} {cap : Option Int} {ds : List (Part ℝ)}

theorem return_blueprint (hk : ∀ d ∈ ds, Known d.ctype) :
    ((blueprint hopping lattice T cap ds).ham.terms.map (returnAmp (blueprint hopping lattice T cap ds) k
      (blueprint hopping lattice T cap ds).ham.terms)).sum =
      ((ds.map (fun d => (spread d.ctype (k * lattice) * d.freq - drift d.ctype hopping (k * lattice)) * d.g ^ 2)).sum : ℝ) := by
  set m := blueprint hopping lattice T cap ds with hm
  have e0 : m.ham.terms = partTerms ds 0 := rfl
  set W : SingleTerm ℝ → SingleTerm ℝ → ℂ := fun h h' =>
    m.ham.freqs.getD h.phononIndex 0 * pairAt (k * lattice) 0 h h' -
      hopping * (exp (I * (k * lattice)) * pairAt (k * lattice) 1 h h' +
        exp (-(I * (k * lattice))) * pairAt (k * lattice) (-1) h h') with hWdef
  have e1 : ∀ (l : List (SingleTerm ℝ)) h, returnAmp m k l h = (l.map (W h)).sum := fun l h =>
    lin_sum l _ _ _ _ _ _ _
  rw [show returnAmp m k m.ham.terms = fun h => (m.ham.terms.map (W h)).sum from funext (e1 _), e0, double_sum]
  · rw [zip_sum (g := fun d => (((spread d.ctype (k * lattice) * d.freq - drift d.ctype hopping (k * lattice)) * d.g ^ 2 : ℝ) : ℂ))]
    · have : ∀ (l : List (Part ℝ)) (F : Part ℝ → ℝ), (l.map (fun d => (F d : ℂ))).sum = ((l.map F).sum : ℝ) := by
        intro l F
        induction l with
        | nil => simp
        | cons d l ih => simp [ih]
      exact this ds _
    · intro t d hd
      rw [zero_add]
      have hf : m.ham.freqs.getD t 0 = d.freq := by
        show (ds.map (·.freq)).getD t 0 = d.freq
        rw [List.getD_eq_getElem?_getD, List.getElem?_map, hd]; rfl
      obtain ⟨r1, r2⟩ := return_termsOf (hk d (List.mem_of_getElem? hd)) d.g d.freq (k * lattice) hopping t
      set l := termsOf d.ctype d.g t d.freq with hl
      show (l.map (fun h => (l.map (W h)).sum)).sum = _
      have e2 : l.map (fun h => (l.map (W h)).sum) = l.map (fun h => (d.freq : ℂ) * (l.map (pairAt (k * lattice) 0 h)).sum -
          hopping * (exp (I * (k * lattice)) * (l.map (pairAt (k * lattice) 1 h)).sum +
            exp (-(I * (k * lattice))) * (l.map (pairAt (k * lattice) (-1) h)).sum)) := by
        apply List.map_congr_left
        intro h hh
        rw [lin_sum]
        congr 1
        apply List.map_congr_left
        intro h' _
        rw [hWdef]
        simp only
        rw [termsOf_index hh, hf]
      rw [e2, ← lin_sum, r1]
      push_cast at r2 ⊢
      rw [r2]
      ring
  · intro h h' hne
    rw [hWdef]
    simp only [pairAt_index hne]
    ring

end GGCE
