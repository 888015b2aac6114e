import Verif.Proofs.Displaced
import Verif.Proofs.Untruncated
import Verif.Proofs.ModelAdd

/-! The Hamiltonian without hopping and with Holstein couplings only is a set of displaced oscillators. -/

set_option linter.unusedSectionVars false

namespace GGCE
open Spec Complex

variable {m : Model ℝ} {k : ℝ} {n : Occ} {L : List (ℝ × ℝ)} {z : ℂ}

/-- frequency of oscillator `t` -/
noncomputable def freqAt (L : List (ℝ × ℝ)) (t : ℕ) : ℝ := (L.getD t (0, 0)).1
/-- strength of oscillator `t` -/
noncomputable def strAt (L : List (ℝ × ℝ)) (t : ℕ) : ℝ := (L.getD t (0, 0)).2

theorem getD_get {α : Type} (l : List α) (d : α) {t : ℕ} (ht : t < l.length) : l.getD t d = l[t] := by
  rw [List.getD_eq_getElem?_getD, List.getElem?_eq_getElem ht]; rfl

/-- Holstein couplings to the oscillators `L`, given by frequency and strength -/
structure Holsteins (m : Model ℝ) (L : List (ℝ × ℝ)) : Prop where
  types : m.nTypes = L.length
  freqs : m.ham.freqs = L.map Prod.fst
  terms : m.ham.terms = (List.range L.length).flatMap (fun t => termsOf "Holstein" (strAt L t) t (freqAt L t))

/-- the two terms of a Holstein coupling -/
def holsteinTerm (d : Dag) (g : ℝ) (t : ℕ) (w : ℝ) : SingleTerm ℝ := ⟨"Holstein", .int 0, .int 0, d, -g, t, w⟩

theorem termsOf_holstein (g : ℝ) (t : ℕ) (w : ℝ) :
    termsOf "Holstein" g t w = [holsteinTerm .plus g t w, holsteinTerm .minus g t w] := by
  simp [termsOf, termShapes, holsteinTerm]

theorem sum_flatMap_range {α : Type} (F : α → ℂ) (T : ℕ → List α) (K : ℕ) :
    (((List.range K).flatMap T).map F).sum = ∑ t ∈ Finset.range K, ((T t).map F).sum := by
  induction K with
  | zero => simp
  | succ K ih => rw [List.range_succ, List.flatMap_append, List.map_append, List.sum_append, ih, Finset.sum_range_succ]; simp

theorem jump_holstein (d : Dag) (g : ℝ) (t : ℕ) (w : ℝ) : jump (holsteinTerm d g t w) n = n.act d t 0 := by
  unfold jump bosonSite electronSite holsteinTerm Num.int
  simp

/-- phonons on the site of the electron only -/
def Central (m : Model ℝ) (n : Occ) : Prop := Conceivable m n ∧ ∀ t x, x ≠ 0 → n t x = 0

/-- the numbers of phonons on the site of the electron -/
def quanta (n : Occ) : ℕ → ℕ := fun t => (n t 0).toNat

theorem central_total (h : Central m n) (t : ℕ) : ∑ᶠ x, n t x = (quanta n t : ℤ) := by
  rw [finsum_eq_single _ 0 (fun x hx => h.2 t x hx)]
  unfold quanta
  rw [Int.toNat_of_nonneg (h.1.nonneg t 0)]

theorem conceivable_act (h : Conceivable m n) {t : ℕ} (ht : t < m.nTypes) (d : Dag) (x : ℤ) (hpos : 0 ≤ n t x + Dag.delta d) :
    Conceivable m (n.act d t x) where
  nonneg t' y := by
    show 0 ≤ n t' y + if t' = t ∧ y = x then Dag.delta d else 0
    split
    · rename_i e; rw [e.1, e.2]; exact hpos
    · rw [add_zero]; exact h.nonneg _ _
  types t' y hne := by
    by_cases e : t' = t
    · rw [e]; exact ht
    · refine h.types t' y (fun h0 => hne ?_)
      show n t' y + (if t' = t ∧ y = x then Dag.delta d else 0) = 0
      rw [if_neg (fun q => e q.1), add_zero, h0]
  finite t' := by
    refine ((h.finite t').union (Set.finite_singleton x)).subset (fun y hy => ?_)
    by_cases e : y = x
    · exact Or.inr e
    · refine Or.inl (fun h0 => hy ?_)
      show n t' y + (if t' = t ∧ y = x then Dag.delta d else 0) = 0
      rw [if_neg (fun q => e q.2), add_zero]; exact h0

theorem act_away {d : Dag} {t t' : ℕ} {x : ℤ} (hx : x ≠ 0) : n.act d t 0 t' x = n t' x := by
  show n t' x + (if t' = t ∧ x = 0 then Dag.delta d else 0) = n t' x
  rw [if_neg (fun q => hx q.2), add_zero]

theorem quanta_up (h : Conceivable m n) (t : ℕ) : quanta (n.act .plus t 0) = upAt (quanta n) t := by
  funext t'
  unfold quanta upAt
  show (n t' 0 + if t' = t ∧ (0 : ℤ) = 0 then (Dag.delta .plus) else 0).toNat = _
  have := h.nonneg t 0
  by_cases e : t' = t
  · subst e; rw [Function.update_self]; simp [Dag.delta]; omega
  · rw [Function.update_of_ne e]; simp [e]

theorem quanta_down (t : ℕ) : quanta (n.act .minus t 0) = downAt (quanta n) t := by
  funext t'
  unfold quanta downAt
  show (n t' 0 + if t' = t ∧ (0 : ℤ) = 0 then (Dag.delta .minus) else 0).toNat = _
  by_cases e : t' = t
  · subst e; rw [Function.update_self]; simp [Dag.delta]; omega
  · rw [Function.update_of_ne e]; simp [e]

open Classical in
/-- the solution -/
noncomputable def atomicAmp (m : Model ℝ) (L : List (ℝ × ℝ)) (z : ℂ) (n : Occ) : ℂ :=
  if Central m n then green1 L.length (freqAt L) (fun t => -strAt L t) z (quanta n) else 0

open Classical in
theorem frameAll_atomic (hm : Holsteins m L) (h0 : m.ham.hopping = 0) (f : Occ → ℂ) :
    frameAll m k f n = occEnergy m n * f n + ∑ t ∈ Finset.range L.length,
      (-(strAt L t : ℂ) * (Real.sqrt (n t 0 + 1) : ℂ) * (if Conceivable m (n.act .plus t 0) then f (n.act .plus t 0) else 0) +
       -(strAt L t : ℂ) * (Real.sqrt (n t 0) : ℂ) * (if Conceivable m (n.act .minus t 0) then f (n.act .minus t 0) else 0)) := by
  unfold frameAll
  rw [h0, hm.terms, sum_flatMap_range]
  simp only [termsOf_holstein, List.map_cons, List.map_nil, List.sum_cons, List.sum_nil, add_zero, jump_holstein]
  rw [Complex.ofReal_zero, zero_mul, sub_zero]
  congr 1
  refine Finset.sum_congr rfl (fun t _ => ?_)
  have e1 : ∀ d, electronSite (holsteinTerm d (strAt L t) t (freqAt L t)) 0 = 0 := fun d => by
    unfold electronSite holsteinTerm Num.int; simp
  have e2 : ∀ d, bosonSite (holsteinTerm d (strAt L t) t (freqAt L t)) 0 = 0 := fun d => by
    unfold bosonSite holsteinTerm Num.int; simp
  have e3 : ladder (holsteinTerm .plus (strAt L t) t (freqAt L t)) n = Real.sqrt (n t 0 + 1) := by
    unfold ladder; rw [e2]; rfl
  have e4 : ladder (holsteinTerm .minus (strAt L t) t (freqAt L t)) n = Real.sqrt (n t 0) := by
    unfold ladder; rw [e2]; rfl
  rw [e1, e1, e3, e4]
  show ((-strAt L t : ℝ) : ℂ) * _ * _ * _ + ((-strAt L t : ℝ) : ℂ) * _ * _ * _ = _
  simp

open Classical in
theorem atomic_motion (hm : Holsteins m L) (h0 : m.ham.hopping = 0) (hw : ∀ p ∈ L, p.1 ≠ 0) (hz : 0 < z.im)
    (hn : Conceivable m n) : z * atomicAmp m L z n - frameAll m k (atomicAmp m L z) n = if n = 0 then 1 else 0 := by
  rw [frameAll_atomic hm h0]
  have hw' : ∀ t < L.length, freqAt L t ≠ 0 := fun t ht => by
    unfold freqAt
    rw [getD_get _ _ ht]
    exact hw _ (List.getElem_mem ht)
  by_cases hc : ∀ t x, x ≠ 0 → n t x = 0
  · have hcen : Central m n := ⟨hn, hc⟩
    have hG : atomicAmp m L z n = green1 L.length (freqAt L) (fun t => -strAt L t) z (quanta n) := if_pos hcen
    have key := green1_motion (c := fun t => -strAt L t) hw' hz (quanta n)
    have hzero : (n = 0) ↔ ∀ t < L.length, quanta n t = 0 := by
      constructor
      · rintro rfl t _; rfl
      · intro h
        funext t x
        by_cases hx : x = 0
        · subst hx
          by_cases ht : t < L.length
          · have h1 := h t ht
            have h2 := hn.nonneg t 0
            unfold quanta at h1
            show n t 0 = 0
            omega
          · by_contra hne
            exact ht (hm.types ▸ hn.types t 0 hne)
        · exact hc t x hx
    have hen : (occEnergy m n : ℂ) = ∑ t ∈ Finset.range L.length, (freqAt L t : ℂ) * quanta n t := by
      unfold occEnergy
      rw [hm.types]
      push_cast
      refine Finset.sum_congr rfl (fun t ht => ?_)
      rw [central_total hcen, hm.freqs]
      have ht' := Finset.mem_range.1 ht
      unfold freqAt
      rw [getD_get _ _ (by simpa using ht'), getD_get _ _ ht', List.getElem_map]
      push_cast
      rfl
    rw [hen, hG]
    rw [if_congr hzero rfl rfl, ← key]
    congr 1
    rw [Finset.sum_mul, ← Finset.sum_add_distrib]
    refine Finset.sum_congr rfl (fun t ht => ?_)
    have ht' : t < m.nTypes := hm.types ▸ Finset.mem_range.1 ht
    have hq : ((quanta n t : ℕ) : ℝ) = ((n t 0 : ℤ) : ℝ) := by
      have := Int.toNat_of_nonneg (hn.nonneg t 0)
      unfold quanta
      exact_mod_cast this
    have c1 : Conceivable m (n.act .plus t 0) := conceivable_act hn ht' _ _ (by
      have := hn.nonneg t 0; simp [Dag.delta]; omega)
    have g1 : atomicAmp m L z (n.act .plus t 0) =
        green1 L.length (freqAt L) (fun t => -strAt L t) z (upAt (quanta n) t) := by
      unfold atomicAmp
      rw [if_pos ⟨c1, fun t' x hx => by rw [act_away hx]; exact hc t' x hx⟩, quanta_up hn]
    rw [if_pos c1, g1]
    by_cases hp : n t 0 = 0
    · rw [hq, hp]
      simp only [Int.cast_zero, Real.sqrt_zero, Complex.ofReal_zero]
      push_cast
      ring
    · have c2 : Conceivable m (n.act .minus t 0) := conceivable_act hn ht' _ _ (by
        have := hn.nonneg t 0; simp [Dag.delta]; omega)
      have g2 : atomicAmp m L z (n.act .minus t 0) =
          green1 L.length (freqAt L) (fun t => -strAt L t) z (downAt (quanta n) t) := by
        unfold atomicAmp
        rw [if_pos ⟨c2, fun t' x hx => by rw [act_away hx]; exact hc t' x hx⟩, quanta_down]
      rw [if_pos c2, g2, hq]
      push_cast
      ring
  · have hno : ∀ d t, atomicAmp m L z (n.act d t 0) = 0 := fun d t => if_neg (fun h => hc (fun t' x hx => by
      have := h.2 t' x hx
      rwa [act_away hx] at this))
    have hn0 : atomicAmp m L z n = 0 := if_neg (fun h => hc h.2)
    have hne : n ≠ 0 := by rintro rfl; exact hc (fun _ _ _ => rfl)
    rw [hn0, if_neg hne]
    simp [hno]

/-! ### it is a state -/

/-- the configurations with phonons on the site of the electron only -/
def centralOf {K : ℕ} (j : Fin K → ℕ) : Occ := fun t x => if x = 0 then (extend j t : ℤ) else 0

theorem centralOf_injective {K : ℕ} : Function.Injective (centralOf (K := K)) := by
  intro i j h
  funext t
  have := congrFun (congrFun h t) 0
  simp only [centralOf, if_true] at this
  unfold extend at this
  rw [dif_pos t.2, dif_pos t.2] at this
  exact_mod_cast this

theorem central_range (hm : Holsteins m L) (h : Central m n) : n ∈ Set.range (centralOf (K := L.length)) := by
  refine ⟨fun t => quanta n t, ?_⟩
  funext t x
  unfold centralOf
  by_cases hx : x = 0
  · subst hx
    rw [if_pos rfl]
    unfold extend
    by_cases ht : t < L.length
    · rw [dif_pos ht]
      exact Int.toNat_of_nonneg (h.1.nonneg t 0)
    · rw [dif_neg ht]
      by_contra hne
      exact ht (hm.types ▸ h.1.types t 0 (fun q => hne (by rw [q]; rfl)))
  · rw [if_neg hx, h.2 t x hx]

theorem quanta_centralOf {K : ℕ} (j : Fin K → ℕ) : quanta (centralOf j) = extend j := by
  funext t; unfold quanta centralOf; simp

theorem atomic_summable (hm : Holsteins m L) (hz : 0 < z.im) :
    Summable (fun n => (1 + (phononCount m n : ℝ) ^ 2) * ‖atomicAmp m L z n‖ ^ 2) := by
  rw [← centralOf_injective (K := L.length).summable_iff (fun n hn => by
    have : atomicAmp m L z n = 0 := if_neg (fun h => hn (central_range hm h))
    rw [this]; simp)]
  have h := (summable_bound L.length (freqAt L) (fun t => -strAt L t)).mul_left (1 / z.im ^ 2)
  refine h.of_nonneg_of_le (fun j => by simp only [Function.comp]; positivity) (fun j => ?_)
  simp only [Function.comp]
  by_cases hc : Central m (centralOf j)
  · have h1 : phononCount m (centralOf j) = ∑ t ∈ Finset.range L.length, (extend j t : ℤ) := by
      unfold phononCount
      rw [hm.types]
      refine Finset.sum_congr rfl (fun t _ => ?_)
      rw [central_total hc, quanta_centralOf]
    have h2 : ‖atomicAmp m L z (centralOf j)‖ ≤ ampBound L.length (freqAt L) (fun t => -strAt L t) (extend j) / z.im := by
      unfold atomicAmp
      rw [if_pos hc, quanta_centralOf]
      exact norm_green1_le hz _
    have h3 := pow_le_pow_left₀ (norm_nonneg _) h2 2
    rw [h1]
    push_cast
    refine (mul_le_mul_of_nonneg_left h3 (by positivity)).trans (le_of_eq ?_)
    rw [div_pow]
    ring
  · have : atomicAmp m L z (centralOf j) = 0 := if_neg hc
    rw [this]
    have : 0 ≤ ampBound L.length (freqAt L) (fun t => -strAt L t) (extend j) := ampBound_nonneg _
    simp only [norm_zero, ne_eq, OfNat.ofNat_ne_zero, not_false_eq_true, zero_pow, mul_zero]
    positivity

/-- the Green's function without limits -/
theorem atomic_exact (hm : Holsteins m L) (h0 : m.ham.hopping = 0) (hw : ∀ p ∈ L, p.1 ≠ 0) {w eta : ℝ}
    (heta : 0 < eta) : ∃ u : States, Untruncated m k w eta u ∧
      u 0 = green1 L.length (freqAt L) (fun t => -strAt L t) (energyAt w eta) (fun _ => 0) := by
  have hz : 0 < (energyAt w eta).im := by
    have : (energyAt w eta).im = eta := by simp [energyAt]
    rw [this]; exact heta
  have hs := atomic_summable (m := m) hm hz
  refine ⟨⟨atomicAmp m L (energyAt w eta), memL2_iff.2 (hs.of_nonneg_of_le (fun n => by positivity) (fun n => ?_))⟩, ?_, ?_⟩
  · have := sq_nonneg (phononCount m n : ℝ)
    have := sq_nonneg ‖atomicAmp m L (energyAt w eta) n‖
    nlinarith
  · refine ⟨fun n hn => if_neg (fun h => hn h.1), hs.of_nonneg_of_le (fun n => by positivity) (fun n => ?_),
      fun n hn => atomic_motion hm h0 hw hz hn⟩
    have := sq_nonneg ‖atomicAmp m L (energyAt w eta) n‖
    show (phononCount m n : ℝ) ^ 2 * ‖atomicAmp m L (energyAt w eta) n‖ ^ 2 ≤ _
    nlinarith
  · show atomicAmp m L (energyAt w eta) 0 = _
    unfold atomicAmp
    rw [if_pos ⟨conceivable_zero, fun _ _ _ => rfl⟩]
    rfl

end GGCE
