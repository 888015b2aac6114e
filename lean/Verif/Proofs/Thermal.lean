import Verif.Proofs.ThermalWords
import Verif.Proofs.Atomic
import Verif.Proofs.FrameResolvent

/-!
The powers of a Hamiltonian as sums of products of ladder operators, on a background of thermal phonons, and for the
Hamiltonian with doubled modes on the vacuum.
-/

set_option linter.unusedSectionVars false

namespace GGCE
open Spec Complex MeasureTheory

variable {m m' : Model ℝ} {k : ℝ} {n : Occ}

/-- the energy a product adds to the phonons -/
noncomputable def charge (m : Model ℝ) : Word → ℝ
  | [] => 0
  | (d, t, _) :: w => m.ham.freqs.getD t 0 * (Dag.delta d : ℝ) + charge m w

/-- the products in `⟨k| (H - E)^j |e⟩` -/
noncomputable def expand (m : Model ℝ) (k : ℝ) : ℕ → ℤ → List (ℂ × Word)
  | 0, e => [(exp (-(I * (k * m.latticeConstant * e))), [])]
  | j + 1, e =>
    (expand m k j e).map (fun p => (-(charge m p.2 : ℂ) * p.1, p.2)) ++
    (expand m k j (e - 1)).map (fun p => (-(m.ham.hopping : ℂ) * p.1, p.2)) ++
    (expand m k j (e + 1)).map (fun p => (-(m.ham.hopping : ℂ) * p.1, p.2)) ++
    m.ham.terms.flatMap (fun h : SingleTerm ℝ => (expand m k j (electronSite h e)).map (fun p =>
      ((h.coupling : ℂ) * p.1, (h.dag, h.phononIndex, bosonSite h e) :: p.2)))

/-- the value of a sum of products, given the value of every product -/
noncomputable def wordSum (φ : Word → ℂ) (l : List (ℂ × Word)) : ℂ := (l.map (fun p => p.1 * φ p.2)).sum

theorem wordSum_append (φ : Word → ℂ) (l l' : List (ℂ × Word)) : wordSum φ (l ++ l') = wordSum φ l + wordSum φ l' := by
  unfold wordSum; rw [List.map_append, List.sum_append]

theorem wordSum_map (φ ψ : Word → ℂ) (c : ℂ) (f : ℂ × Word → ℂ × Word) (l : List (ℂ × Word))
    (h : ∀ p ∈ l, (f p).1 * φ (f p).2 = c * (p.1 * ψ p.2)) : wordSum φ (l.map f) = c * wordSum ψ l := by
  unfold wordSum
  rw [List.map_map, ← List.sum_map_mul_left]
  congr 1
  exact List.map_congr_left h

theorem wordSum_flatMap {β : Type} (φ : Word → ℂ) (L : List β) (f : β → List (ℂ × Word)) :
    wordSum φ (L.flatMap f) = (L.map (fun b => wordSum φ (f b))).sum := by
  induction L with
  | nil => simp [wordSum]
  | cons b L ih => rw [List.flatMap_cons, wordSum_append, ih, List.map_cons, List.sum_cons]

theorem wordSum_congr {φ ψ : Word → ℂ} {l : List (ℂ × Word)} (h : ∀ p ∈ l, φ p.2 = ψ p.2) : wordSum φ l = wordSum ψ l := by
  unfold wordSum
  congr 1
  exact List.map_congr_left (fun p hp => by rw [h p hp])

/-- the types occurring in the products are those of the Hamiltonian -/
theorem expand_types (hi : ∀ h ∈ m.ham.terms, h.phononIndex < m.nTypes) (j : ℕ) (e : ℤ) :
    ∀ p ∈ expand m k j e, ∀ l ∈ p.2, l.2.1 < m.nTypes := by
  induction j generalizing e with
  | zero => intro p hp; simp [expand] at hp; simp [hp]
  | succ j ih =>
    intro p hp
    simp only [expand, List.mem_append, List.mem_map, List.mem_flatMap] at hp
    rcases hp with ((⟨q, hq, rfl⟩ | ⟨q, hq, rfl⟩) | ⟨q, hq, rfl⟩) | ⟨h, hh, q, hq, rfl⟩
    · exact ih e q hq
    · exact ih _ q hq
    · exact ih _ q hq
    · intro l hl
      rcases List.mem_cons.1 hl with rfl | hl
      · exact hi h hh
      · exact ih _ q hq l hl

/-! ### on a background -/

theorem support_landing (w : Word) (n : Occ) (t : ℕ) : (Function.support (fun x => n t x - landing w n t x)).Finite := by
  refine (Set.Finite.image (fun l : Letter => l.2.2) (List.finite_toSet w)).subset (fun x hx => ?_)
  rw [Function.mem_support, landing_apply] at hx
  by_contra hc
  apply hx
  rw [ops_nil (i := (t, x)) (fun l hl he => hc ⟨l, hl, congrArg Prod.snd he⟩)]
  simp [net]

theorem relEnergy_landing (w : Word) (hw : ∀ l ∈ w, l.2.1 < m.nTypes) (n : Occ) :
    relEnergy m (landing w n) n = -charge m w := by
  induction w generalizing n with
  | nil => simp [relEnergy, landing, charge]
  | cons l w ih =>
    obtain ⟨d, t, x⟩ := l
    have ht : t < m.nTypes := hw _ List.mem_cons_self
    have h := ih (fun l hl => hw l (List.mem_cons_of_mem _ hl)) (n.act d t x)
    have key : ∀ s, ∑ᶠ y, (n s y - landing w (n.act d t x) s y) =
        ∑ᶠ y, ((n.act d t x) s y - landing w (n.act d t x) s y) - if s = t then Dag.delta d else 0 := by
      intro s
      have hf := support_landing w (n.act d t x) s
      have e : ∀ y, n s y - landing w (n.act d t x) s y =
          ((n.act d t x) s y - landing w (n.act d t x) s y) + if s = t ∧ y = x then -Dag.delta d else 0 := by
        intro y
        by_cases hc : s = t ∧ y = x
        · simp [Occ.act, hc]; ring
        · simp [Occ.act, hc]
      simp only [e]
      rw [finsum_add_distrib hf ((Set.finite_singleton x).subset (fun y hy => by
        by_contra hc
        exact hy (if_neg (fun q => hc q.2)))), sub_eq_add_neg]
      congr 1
      by_cases hs : s = t
      · rw [if_pos hs, finsum_eq_single _ x (fun y hy => if_neg (fun q => hy q.2)), if_pos ⟨hs, rfl⟩]
      · simp [hs]
    unfold relEnergy at h ⊢
    simp only [landing, key, charge]
    push_cast
    simp only [mul_sub, Finset.sum_sub_distrib]
    rw [h]
    have : ∑ s ∈ Finset.range m.nTypes, m.ham.freqs.getD s 0 * ((if s = t then (Dag.delta d : ℝ) else 0)) =
        m.ham.freqs.getD t 0 * (Dag.delta d : ℝ) := by
      rw [Finset.sum_eq_single t (fun s _ hs => by rw [if_neg hs, mul_zero]) (fun hc => absurd (Finset.mem_range.2 ht) hc),
        if_pos rfl]
    rw [this]
    ring

open Classical in
/-- the value of a product between `n` and `ν` -/
noncomputable def between (ν n : Occ) (w : Word) : ℂ := ((if landing w n = ν then weight w n else 0 : ℝ) : ℂ)

theorem between_cons (ν n : Occ) (d : Dag) (t : ℕ) (x : ℤ) (w : Word) :
    between ν n ((d, t, x) :: w) = (climb d (n t x) : ℂ) * between ν (n.act d t x) w := by
  unfold between
  by_cases h : landing w (n.act d t x) = ν
  · have h' : landing ((d, t, x) :: w) n = ν := h
    rw [if_pos h, if_pos h', weight]; push_cast; ring
  · have h' : ¬landing ((d, t, x) :: w) n = ν := h
    rw [if_neg h, if_neg h']; simp

theorem background_words (hi : ∀ h ∈ m.ham.terms, h.phononIndex < m.nTypes) (ν : Occ) (j : ℕ) (n : Occ) (e : ℤ) :
    onBackground m k ν j n e = wordSum (between ν n) (expand m k j e) := by
  induction j generalizing n e with
  | zero =>
    simp only [onBackground, expand, wordSum, List.map_cons, List.map_nil, List.sum_cons, List.sum_nil, add_zero, between,
      landing, weight]
    by_cases h : n = ν <;> simp [h]
  | succ j ih =>
    simp only [onBackground, expand]
    rw [wordSum_append, wordSum_append, wordSum_append, wordSum_flatMap]
    have e1 : wordSum (between ν n) ((expand m k j e).map (fun p => (-(charge m p.2 : ℂ) * p.1, p.2))) =
        relEnergy m ν n * wordSum (between ν n) (expand m k j e) := by
      refine wordSum_map _ _ _ _ _ (fun p hp => ?_)
      simp only [between]
      by_cases h : landing p.2 n = ν
      · have := relEnergy_landing p.2 (expand_types hi j e p hp) n
        rw [h] at this
        rw [this]
        push_cast
        ring
      · rw [if_neg h]; simp
    rw [e1, ← ih, wordSum_map (between ν n) (between ν n) (-(m.ham.hopping : ℂ)) _ _ (fun p _ => by ring), ← ih,
      wordSum_map (between ν n) (between ν n) (-(m.ham.hopping : ℂ)) _ _ (fun p _ => by ring), ← ih]
    have e2 : ∀ h ∈ m.ham.terms, (h.coupling : ℂ) * (climb h.dag (n h.phononIndex (bosonSite h e)) : ℂ) *
        onBackground m k ν j (n.act h.dag h.phononIndex (bosonSite h e)) (electronSite h e) =
        wordSum (between ν n) ((expand m k j (electronSite h e)).map (fun p =>
          ((h.coupling : ℂ) * p.1, (h.dag, h.phononIndex, bosonSite h e) :: p.2))) := by
      intro h _
      rw [ih, wordSum_map (between ν n) (between ν (n.act h.dag h.phononIndex (bosonSite h e)))
        ((h.coupling : ℂ) * (climb h.dag (n h.phononIndex (bosonSite h e)) : ℂ))]
      intro p _
      simp only [between_cons]
      ring
    rw [List.map_congr_left e2]
    ring

/-- the thermal moments are sums of vacuum averages for doubled modes -/
theorem thermalMoment_words (hi : ∀ h ∈ m.ham.terms, h.phononIndex < m.nTypes) {T : ℝ} (hT : 0 < T) (C S : ℕ → ℝ)
    (hpos : ∀ t < m.nTypes, 0 < m.ham.freqs.getD t 0)
    (hC : ∀ t < m.nTypes, C t ^ 2 = 1 / (1 - ratio m T t)) (hS : ∀ t < m.nTypes, S t ^ 2 = ratio m T t / (1 - ratio m T t))
    (j : ℕ) :
    Integrable (fun ν : Sample => onBackground m k ν.occ j ν.occ 0) (gibbs m T) ∧
      thermalMoment m T k j = wordSum (fun w => (doubled C S w 0 : ℝ)) (expand m k j 0) := by
  unfold thermalMoment
  simp only [background_words hi]
  have hty := expand_types (k := k) hi j 0
  revert hty
  generalize expand m k j 0 = l
  intro hty
  induction l with
  | nil => simp [wordSum]
  | cons p l ih =>
    obtain ⟨i1, i2⟩ := ih (fun q hq => hty q (List.mem_cons_of_mem _ hq))
    have hw := hty p List.mem_cons_self
    obtain ⟨g1, g2⟩ := gibbs_word m hT C S p.2 (fun x hx => ⟨hpos _ (hw x hx), hC _ (hw x hx), hS _ (hw x hx)⟩)
    simp only [wordSum, List.map_cons, List.sum_cons] at i1 i2 ⊢
    have g1' := g1.const_mul p.1
    refine ⟨g1'.add i1, ?_⟩
    rw [← i2, ← g2, ← integral_const_mul, ← integral_add g1' i1]
    rfl

/-! ### doubled modes -/

/-- `m'` has a second mode, of opposite frequency, for each mode of `m`, and the couplings of the Bogoliubov
transformation `b = C B + S B'†` -/
structure Doubles (m m' : Model ℝ) (C S : ℕ → ℝ) : Prop where
  hopping : m'.ham.hopping = m.ham.hopping
  lattice : m'.latticeConstant = m.latticeConstant
  types : m'.nTypes = 2 * m.nTypes
  freqs : ∀ t < m.nTypes, m'.ham.freqs.getD (2 * t) 0 = m.ham.freqs.getD t 0 ∧
    m'.ham.freqs.getD (2 * t + 1) 0 = -m.ham.freqs.getD t 0
  index : ∀ h ∈ m.ham.terms, h.phononIndex < m.nTypes
  index' : ∀ h ∈ m'.ham.terms, h.phononIndex < m'.nTypes
  terms : ∀ X : Num → Num → Dag → ℕ → ℂ,
    (m'.ham.terms.map (fun h : SingleTerm ℝ => (h.coupling : ℂ) * X h.psi h.phi h.dag h.phononIndex)).sum =
      (m.ham.terms.map (fun h : SingleTerm ℝ => (h.coupling : ℂ) * (C h.phononIndex * X h.psi h.phi h.dag (2 * h.phononIndex) +
        S h.phononIndex * X h.psi h.phi h.dag.flip (2 * h.phononIndex + 1)))).sum

theorem occEnergy_act {t : ℕ} (ht : t < m.nTypes) (hf : ∀ s, (Function.support (n s)).Finite) (d : Dag) (x : ℤ) :
    occEnergy m (n.act d t x) = occEnergy m n + m.ham.freqs.getD t 0 * (Dag.delta d : ℝ) := by
  unfold occEnergy
  simp only [finsum_act (hf _)]
  push_cast
  simp only [mul_add, Finset.sum_add_distrib]
  congr 1
  rw [Finset.sum_eq_single t (fun s _ hs => by rw [if_neg hs]; simp) (fun hc => absurd (Finset.mem_range.2 ht) hc), if_pos rfl]

theorem finite_act (hf : ∀ s, (Function.support (n s)).Finite) (d : Dag) (t : ℕ) (x : ℤ) (s : ℕ) :
    (Function.support ((n.act d t x) s)).Finite := by
  refine ((hf s).union (Set.finite_singleton x)).subset (fun y hy => ?_)
  by_cases e : y = x
  · exact Or.inr e
  · refine Or.inl (fun h0 => hy ?_)
    show n s y + (if s = t ∧ y = x then Dag.delta d else 0) = 0
    rw [if_neg (fun q => e q.2), add_zero]; exact h0

variable {C S : ℕ → ℝ}

theorem doubled_energy (hD : Doubles m m' C S) (w : Word) (hw : ∀ l ∈ w, l.2.1 < m.nTypes) (n : Occ)
    (hf : ∀ s, (Function.support (n s)).Finite) (h : doubled C S w n ≠ 0) : occEnergy m' n = -charge m w := by
  induction w generalizing n with
  | nil =>
    simp only [doubled] at h
    split at h
    · rename_i h0; rw [h0]; unfold occEnergy; simp [charge]
    · exact absurd rfl h
  | cons l w ih =>
    obtain ⟨d, t, x⟩ := l
    have ht : t < m.nTypes := hw _ List.mem_cons_self
    have ih' := fun n => ih (fun l hl => hw l (List.mem_cons_of_mem _ hl)) n
    rw [charge]
    by_cases h1 : doubled C S w (n.act d (2 * t) x) = 0
    · have h2 : doubled C S w (n.act d.flip (2 * t + 1) x) ≠ 0 := by
        intro h2
        apply h
        rw [doubled, h1, h2]; ring
      have := ih' _ (finite_act hf _ _ _) h2
      rw [occEnergy_act (by rw [hD.types]; omega) hf, (hD.freqs t ht).2] at this
      have hd : (Dag.delta d.flip : ℝ) = -(Dag.delta d : ℝ) := by cases d <;> simp [Dag.flip, Dag.delta]
      rw [hd] at this
      linarith
    · have := ih' _ (finite_act hf _ _ _) h1
      rw [occEnergy_act (by rw [hD.types]; omega) hf, (hD.freqs t ht).1] at this
      linarith

theorem climb_conceivable (hn : Conceivable m n) {t : ℕ} (ht : t < m.nTypes) (d : Dag) (x : ℤ) (hr : climb d (n t x) ≠ 0) :
    Conceivable m (n.act d t x) := by
  refine conceivable_act hn ht d x ?_
  have h0 := hn.nonneg t x
  cases d with
  | plus => simp only [Dag.delta]; omega
  | minus =>
    simp only [Dag.delta]
    by_contra hc
    have : n t x = 0 := by omega
    rw [this] at hr
    simp [climb] at hr

theorem ladder_climb (h : SingleTerm ℝ) (n : Occ) : ladder h n = climb h.dag (n h.phononIndex (bosonSite h 0)) := by
  unfold ladder climb
  cases h.dag <;> rfl

open Classical in
/-- what a ladder operator at `x`, with the electron moving to `e`, contributes -/
noncomputable def follow (m m' : Model ℝ) (k : ℝ) (j : ℕ) (n : Occ) (x e : ℤ) (d : Dag) (t : ℕ) : ℂ :=
  (climb d (n t x) : ℂ) * if Conceivable m' (n.act d t x) then
    exp (-(I * (k * m.latticeConstant * e))) * powers m' k j ((n.act d t x).shift (-e)) else 0

open Classical in
theorem doubled_words (hD : Doubles m m' C S) (j : ℕ) (n : Occ) (hn : Conceivable m' n) (e : ℤ) :
    exp (-(I * (k * m.latticeConstant * e))) * powers m' k j (n.shift (-e)) =
      wordSum (fun w => (doubled C S w n : ℝ)) (expand m k j e) := by
  induction j generalizing n e with
  | zero =>
    simp only [powers, expand, wordSum, List.map_cons, List.map_nil, List.sum_cons, List.sum_nil, add_zero, doubled]
    have : n.shift (-e) = 0 ↔ n = 0 := by
      constructor
      · intro h
        have := congrArg (fun n : Occ => n.shift e) h
        simpa using this
      · rintro rfl; rfl
    by_cases h : n = 0 <;> simp [h, this]
  | succ j ih =>
    simp only [powers, expand]
    rw [if_pos (hn.shift (-e)), wordSum_append, wordSum_append, wordSum_append, wordSum_flatMap]
    have e1 : wordSum (fun w => ((doubled C S w n : ℝ) : ℂ)) ((expand m k j e).map (fun p => (-(charge m p.2 : ℂ) * p.1, p.2))) =
        occEnergy m' n * wordSum (fun w => ((doubled C S w n : ℝ) : ℂ)) (expand m k j e) := by
      refine wordSum_map _ _ _ _ _ (fun p hp => ?_)
      by_cases h : doubled C S p.2 n = 0
      · simp only [h]; simp
      · rw [doubled_energy hD p.2 (expand_types hD.index j e p hp) n hn.finite h]
        push_cast
        ring
    rw [e1, ← ih n hn, wordSum_map _ (fun w => ((doubled C S w n : ℝ) : ℂ)) (-(m.ham.hopping : ℂ)) _ _ (fun p _ => by ring),
      ← ih n hn, wordSum_map _ (fun w => ((doubled C S w n : ℝ) : ℂ)) (-(m.ham.hopping : ℂ)) _ _ (fun p _ => by ring), ← ih n hn]
    have e2 : (m.ham.terms.map (fun h : SingleTerm ℝ => wordSum (fun w => ((doubled C S w n : ℝ) : ℂ))
        ((expand m k j (electronSite h e)).map (fun p =>
          ((h.coupling : ℂ) * p.1, (h.dag, h.phononIndex, bosonSite h e) :: p.2))))).sum =
        (m'.ham.terms.map (fun h : SingleTerm ℝ => (h.coupling : ℂ) * follow m m' k j n (bosonSite h e) (electronSite h e) h.dag h.phononIndex)).sum := by
      have key := hD.terms (fun psi phi => follow m m' k j n ((2 * e - psi.tw + phi.tw) / 2) (e - psi.tw / 2))
      refine Eq.trans ?_ key.symm
      congr 1
      refine List.map_congr_left (fun h hh => ?_)
      have ht := hD.index h hh
      have hX : ∀ (d : Dag) (t : ℕ), t < m'.nTypes →
          follow m m' k j n (bosonSite h e) (electronSite h e) d t =
          (climb d (n t (bosonSite h e)) : ℂ) *
            wordSum (fun w => ((doubled C S w (n.act d t (bosonSite h e)) : ℝ) : ℂ)) (expand m k j (electronSite h e)) := by
        intro d t ht'
        unfold follow
        by_cases hr : climb d (n t (bosonSite h e)) = 0
        · simp [hr]
        · have hc := climb_conceivable hn ht' d _ hr
          rw [if_pos hc, ih _ hc]
      have h1 := hX h.dag (2 * h.phononIndex) (by rw [hD.types]; omega)
      have h2 := hX h.dag.flip (2 * h.phononIndex + 1) (by rw [hD.types]; omega)
      show _ = (h.coupling : ℂ) * (C h.phononIndex * follow m m' k j n (bosonSite h e) (electronSite h e) h.dag (2 * h.phononIndex) +
        S h.phononIndex * follow m m' k j n (bosonSite h e) (electronSite h e) h.dag.flip (2 * h.phononIndex + 1))
      rw [h1, h2]
      unfold wordSum
      rw [List.map_map, ← List.sum_map_mul_left, ← List.sum_map_mul_left, ← List.sum_map_mul_left, ← List.sum_map_mul_left,
        ← List.sum_map_add, ← List.sum_map_mul_left]
      congr 1
      refine List.map_congr_left (fun p _ => ?_)
      simp only [Function.comp_def, doubled]
      push_cast
      ring
    rw [e2]
    unfold frameAll
    rw [energy_shift, hD.hopping, hD.lattice, shift_shift, shift_shift]
    have p1 : exp (-(I * (k * m.latticeConstant * e))) * exp (I * (k * m.latticeConstant)) =
        exp (-(I * (k * m.latticeConstant * ((e - 1 : ℤ) : ℂ)))) := by
      rw [← Complex.exp_add]; congr 1; push_cast; ring
    have p2 : exp (-(I * (k * m.latticeConstant * e))) * exp (-(I * (k * m.latticeConstant))) =
        exp (-(I * (k * m.latticeConstant * ((e + 1 : ℤ) : ℂ)))) := by
      rw [← Complex.exp_add]; congr 1; push_cast; ring
    rw [← p1, ← p2, show -(e - 1) = -e + 1 by ring, show -(e + 1) = -e + -1 by ring]
    have e3 : exp (-(I * (k * m.latticeConstant * e))) *
        (m'.ham.terms.map (fun h : SingleTerm ℝ => (h.coupling : ℂ) * (ladder h (n.shift (-e)) : ℂ) *
          exp (-(I * (k * m.latticeConstant * electronSite h 0))) *
          if Conceivable m' (jump h (n.shift (-e))) then powers m' k j (jump h (n.shift (-e))) else 0)).sum =
        (m'.ham.terms.map (fun h : SingleTerm ℝ => (h.coupling : ℂ) * follow m m' k j n (bosonSite h e) (electronSite h e) h.dag h.phononIndex)).sum := by
      rw [← List.sum_map_mul_left]
      congr 1
      refine List.map_congr_left (fun h _ => ?_)
      have hc : Conceivable m' (jump h (n.shift (-e))) ↔ Conceivable m' (n.act h.dag h.phononIndex (bosonSite h e)) := by
        rw [← jump_shift, conceivable_shift]
      have hr : ladder h (n.shift (-e)) = climb h.dag (n h.phononIndex (bosonSite h e)) := by
        rw [ladder_climb, boson_shift h e]
        show climb h.dag (n h.phononIndex (bosonSite h 0 - -e)) = _
        rw [sub_neg_eq_add]
      have hp : exp (-(I * (k * m.latticeConstant * e))) * exp (-(I * (k * m.latticeConstant * electronSite h 0))) =
          exp (-(I * (k * m.latticeConstant * electronSite h e))) := by
        rw [← Complex.exp_add, electron_shift h e]; congr 1; push_cast; ring
      unfold follow
      rw [hr, ← jump_shift, conceivable_shift, ← hp]
      split
      · ring
      · ring
    rw [mul_add, e3]
    ring

/-- the moments of the doubled Hamiltonian are the thermal moments of the original one -/
theorem moment_thermal (hD : Doubles m m' C S) {T : ℝ} (hT : 0 < T) (hpos : ∀ t < m.nTypes, 0 < m.ham.freqs.getD t 0)
    (hC : ∀ t < m.nTypes, C t ^ 2 = 1 / (1 - ratio m T t)) (hS : ∀ t < m.nTypes, S t ^ 2 = ratio m T t / (1 - ratio m T t))
    (j : ℕ) :
    Integrable (fun ν : Sample => onBackground m k ν.occ j ν.occ 0) (gibbs m T) ∧ moment m' k j = thermalMoment m T k j := by
  obtain ⟨h1, h2⟩ := thermalMoment_words (k := k) hD.index hT C S hpos hC hS j
  refine ⟨h1, ?_⟩
  have := doubled_words (k := k) hD j 0 conceivable_zero 0
  rw [h2, ← this]
  simp [moment]

end GGCE
