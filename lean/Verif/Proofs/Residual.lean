import Verif.Proofs.FieldSystem
import Verif.Proofs.FrameResolvent
import Verif.Proofs.Stability
import Verif.Spec.Residual
import Mathlib.Data.Nat.Choose.Multinomial

/-! What a residual in the code's equations does to the Green's function. -/

set_option linter.unusedSectionVars false

namespace GGCE
open Spec Arr Complex ComplexConjugate

variable {m : Model ℝ} {ae : ℤ} {L : Layout ℝ} {c : ℤ} {p : Point ℝ} {U : PyStr → ℂ} {ψ ψ' : Arr → ℤ → ℂ}
  {Ψ Ψ' : Occ → ℤ → ℂ}

/-- amplitudes on the chain from amplitudes of clouds -/
theorem exists_same (hm : Shaped m ae) (hpl : ∀ d, ψ (vac m) d = ph m p d * ψ (vac m) 0) :
    ∃ Ψ, Same m ae c p ψ Ψ ∧
      ∀ n e s, Ψ (n.shift s) (e + s) = exp (-(I * (p.k * m.latticeConstant * s))) * Ψ n e := by
  classical
  let Ψ : Occ → ℤ → ℂ := fun n e =>
    if h : ∃ q : Arr × ℤ, Node m ae q.1 ∧ n = placed q.1 q.2 then
      amplitude m p c ψ h.choose.1 h.choose.2 e else 0
  have hvac : ∀ s e, amplitude m p c ψ (vac m) s e = ph m p (-(2 * e)) * ψ (vac m) 0 := by
    intro s e
    unfold amplitude
    rw [sgn_vac, hpl, ← mul_assoc, one_mul, ← ph_add]
    congr 2; ring
  have hin : ∀ a, Node m ae a → ∀ s e, Ψ (placed a s) e = amplitude m p c ψ a s e := by
    intro a ha s e
    have hex : ∃ q : Arr × ℤ, Node m ae q.1 ∧ placed a s = placed q.1 q.2 := ⟨(a, s), ha, rfl⟩
    show (if h : _ then _ else _) = _
    rw [dif_pos hex]
    obtain ⟨k1, k2⟩ := hex.choose_spec
    generalize hex.choose = q at k1 k2
    rcases ha with rfl | ha
    · rcases k1 with k1 | k1
      · rw [k1, hvac, hvac]
      · rw [placed_vac] at k2
        exact absurd k2.symm (placed_ne_zero k1)
    · rcases k1 with k1 | k1
      · rw [k1, placed_vac] at k2
        exact absurd k2 (placed_ne_zero ha)
      · obtain ⟨e1, e2⟩ := placed_inj ha k1 k2
        rw [← e1, ← e2]
  have hout : ∀ n, ¬ Allowed m ae n → ∀ e, Ψ n e = 0 := by
    intro n hn e
    show (if h : _ then _ else _) = _
    rw [dif_neg]
    rintro ⟨q, k1, rfl⟩
    exact hn (allowed_placed hm k1)
  refine ⟨Ψ, ⟨hin, hout, hpl⟩, ?_⟩
  intro n e s
  by_cases hn : Allowed m ae n
  · obtain ⟨a, s0, ha, rfl⟩ := exists_placed hm hn
    rw [placed_shift, hin a ha, hin a ha, ph_exp]
    unfold amplitude
    rw [show s0 + s - (e + s) = s0 - e by ring,
      show -(2 * (s0 + s) + c) = -(2 * s) + -(2 * s0 + c) by ring, ph_add]
    ring
  · rw [hout n hn, mul_zero]
    exact hout _ (fun h => hn (allowed_shift.1 h)) _

/-- the equation of motion of a placed cloud, with the neighbouring clouds from another field -/
theorem Same.mixed_cloud (hsame : Same m ae c p ψ Ψ) (hsame' : Same m ae c p ψ' Ψ') (hm : Shaped m ae)
    (hL : L.Ok m ae) (hsh : Props.ShiftsOk m c) {a : Arr} (ha : InTruncation m ae a) (s e : ℤ)
    (h : (p.w + I * p.eta - energy m a) * ψ a (c + 2 * (s - e)) +
      m.ham.hopping * (ψ a (c + 2 * (s - e - 1)) + ψ a (c + 2 * (s - e + 1))) =
    -(m.ham.terms.map (fun h => ∑ q ∈ links m ae a h,
      if c + 2 * (s - e) = h.phi.tw - h.psi.tw - 2 * q.1 then
        (h.coupling : ℂ) * (factor h a q.1 : ℂ) * ph m p (-(2 * q.2.2)) *
          ψ' q.2.1 (h.phi.tw - 2 * q.1 + 2 * q.2.2) else 0)).sum) :
    (p.w + I * p.eta - occEnergy m (placed a s)) * Ψ (placed a s) e +
      m.ham.hopping * (Ψ (placed a s) (e - 1) + Ψ (placed a s) (e + 1)) =
      (m.ham.terms.map (fun h : SingleTerm ℝ => (h.coupling : ℂ) *
        (occFactor h.dag (placed a s) h.phononIndex (bosonSite h e) : ℂ) *
        Ψ' ((placed a s).act h.dag h.phononIndex (bosonSite h e)) (electronSite h e))).sum := by
  rw [energy_placed (Or.inr ha), hsame.inside a (Or.inr ha), hsame.inside a (Or.inr ha),
    hsame.inside a (Or.inr ha),
    List.map_congr_left (fun h hh => hsame'.term_cloud hm hL hsh ha hh s e), sum_neg_mul]
  unfold amplitude
  rw [show s - (e - 1) = s - e + 1 by ring, show s - (e + 1) = s - e - 1 by ring]
  linear_combination (sgn a * ph m p (-(2 * s + c))) * h

/-- the equation of motion of the bare electron, with the clouds from another field -/
theorem Same.mixed_vac (hsame : Same m ae c p ψ Ψ) (hsame' : Same m ae c p ψ' Ψ') (hm : Shaped m ae)
    (hL : L.Ok m ae) (hsh : Props.ShiftsOk m c) (e : ℤ)
    (h : (p.w + I * p.eta + 2 * m.ham.hopping * Real.cos (p.k * m.latticeConstant)) * ψ (vac m) 0 +
      (m.ham.terms.map (fun h => ∑ q ∈ links m ae (vac m) h,
        (h.coupling : ℂ) * ph m p (h.psi.tw - h.phi.tw) * ψ' q.2.1 h.phi.tw)).sum = 0) :
    (p.w + I * p.eta - occEnergy m 0) * Ψ 0 e + m.ham.hopping * (Ψ 0 (e - 1) + Ψ 0 (e + 1)) =
      (m.ham.terms.map (fun h : SingleTerm ℝ => (h.coupling : ℂ) *
        (occFactor h.dag 0 h.phononIndex (bosonSite h e) : ℂ) *
        Ψ' (Occ.act 0 h.dag h.phononIndex (bosonSite h e)) (electronSite h e))).sum := by
  have hE : occEnergy m 0 = 0 := by
    unfold occEnergy
    apply Finset.sum_eq_zero
    intro t _
    simp
  rw [hE, hsame.zero, hsame.zero, hsame.zero,
    List.map_congr_left (fun h hh => hsame'.term_vac hm hL hsh hh e), sum_neg_mul]
  have h1 : ph m p (-(2 * (e - 1))) = ph m p (-(2 * e)) * ph m p 2 := by rw [← ph_add]; congr 1; ring
  have h2 : ph m p (-(2 * (e + 1))) = ph m p (-(2 * e)) * ph m p (-2) := by rw [← ph_add]; congr 1; ring
  have h3 : ph m p 2 + ph m p (-2) = 2 * Real.cos (p.k * m.latticeConstant) := by
    rw [Complex.ofReal_cos, Complex.cos]
    show Complex.exp _ + Complex.exp _ = _
    rw [mul_div_cancel₀ _ (two_ne_zero)]
    congr 2
    · push_cast; ring
    · push_cast; ring
  rw [h1, h2]
  simp only [Complex.ofReal_zero, sub_zero]
  linear_combination ph m p (-(2 * e)) * h + (ph m p (-(2 * e)) * m.ham.hopping * ψ (vac m) 0) * h3

/-- the state in the frame of the electron -/
noncomputable def framed (Ψ : Occ → ℤ → ℂ) (n : Occ) : ℂ := ((Real.sqrt (occFact n) : ℝ) : ℂ)⁻¹ * Ψ n 0

/-- the interaction as an operator -/
noncomputable def intOp (m : Model ℝ) (ae : ℤ) (k : ℝ) : L2 Occ →L[ℂ] L2 Occ :=
  (m.ham.terms.map (fun h => wcomp (wT m ae k h) (jumpE h))).sum

theorem intOp_apply (hm : ListsOk m) {k : ℝ} (f : L2 Occ) (n : Occ) :
    intOp m ae k f n = (m.ham.terms.map (fun h => wT m ae k h n * f (jump h n))).sum := by
  unfold intOp
  rw [coe_list_sum]
  simp only [wcomp_apply (wT_bound hm _)]
  rfl

theorem intOp_norm (hm : ListsOk m) (hi : ∀ h ∈ m.ham.terms, h.phononIndex < m.nTypes) {k : ℝ} :
    ‖intOp m ae k‖ ≤ interaction m := by
  unfold intOp interaction
  have : ∀ l : List (SingleTerm ℝ), (∀ h ∈ l, h.phononIndex < m.nTypes) →
      ‖(l.map (fun h => wcomp (wT m ae k h) (jumpE h))).sum‖ ≤
      (l.map (fun h => |h.coupling| * √(maxNumber m h.phononIndex))).sum := by
    intro l hl
    induction l with
    | nil => simp
    | cons h l ih =>
      simp only [List.map_cons, List.sum_cons]
      refine (norm_add_le _ _).trans (add_le_add ?_ (ih (fun x hx => hl x (List.mem_cons_of_mem _ hx))))
      refine wcomp_norm (by positivity) (fun n => ?_) _
      unfold wT
      split
      · rename_i hn
        have := norm_phase' (k * m.latticeConstant * electronSite h 0)
        push_cast at this
        rw [norm_mul, norm_mul, this, mul_one, Complex.norm_real, Complex.norm_real, Real.norm_eq_abs,
          Real.norm_eq_abs, abs_of_nonneg (ladder_nonneg h n)]
        exact mul_le_mul_of_nonneg_left (ladder_le_max hm (hl h (by simp)) hn.1 hn.2) (abs_nonneg _)
      · rw [norm_zero]; positivity
  exact this _ hi

theorem interaction_nonneg (m : Model ℝ) : 0 ≤ interaction m := by
  unfold interaction
  refine List.sum_nonneg (fun x hx => ?_)
  obtain ⟨h, -, rfl⟩ := List.mem_map.1 hx
  positivity

/-- bloch's theorem in the frame -/
def Bloch (m : Model ℝ) (p : Point ℝ) (Ψ : Occ → ℤ → ℂ) : Prop :=
  ∀ n e s, Ψ (n.shift s) (e + s) = exp (-(I * (p.k * m.latticeConstant * s))) * Ψ n e

open Classical in
/-- from the chain to the frame -/
theorem framed_motion (hm : ListsOk m) (hB : Bloch m p Ψ) (hB' : Bloch m p Ψ') {u r : L2 Occ}
    (hu : ∀ n, u n = framed Ψ n) (hr : ∀ n, r n = framed Ψ' n)
    (hout : ∀ n, ¬ Allowed m ae n → ∀ e, Ψ n e = 0) (hout' : ∀ n, ¬ Allowed m ae n → ∀ e, Ψ' n e = 0)
    (hmot : ∀ n, Allowed m ae n → (p.w + I * p.eta - occEnergy m n) * Ψ n 0 +
      m.ham.hopping * (Ψ n (0 - 1) + Ψ n (0 + 1)) =
      (m.ham.terms.map (fun h : SingleTerm ℝ => (h.coupling : ℂ) *
        (occFactor h.dag n h.phononIndex (bosonSite h 0) : ℂ) *
        (Ψ + Ψ') (n.act h.dag h.phononIndex (bosonSite h 0)) (electronSite h 0))).sum) :
    (p.w + I * p.eta : ℂ) • u - hamOp m ae p.k u = intOp m ae p.k r := by
  ext n
  show (p.w + I * p.eta : ℂ) * u n - hamOp m ae p.k u n = intOp m ae p.k r n
  rw [hamOp_apply hm, intOp_apply hm]
  by_cases hn : Allowed m ae n
  · have hs0 : ((Real.sqrt (occFact n) : ℝ) : ℂ) ≠ 0 := by
      exact_mod_cast (Real.sqrt_pos.2 (by exact_mod_cast occFact_pos n)).ne'
    have h1 := hmot n hn
    have e1 : Ψ n (0 - 1) = exp (I * (p.k * m.latticeConstant)) * Ψ (n.shift 1) 0 := by
      have := hB (n.shift 1) 0 (-1)
      rw [shift_shift] at this
      simp only [add_neg_cancel, shift_zero] at this
      rw [show (0 : ℤ) - 1 = 0 + -1 by ring, this]
      congr 2; push_cast; ring
    have e2 : Ψ n (0 + 1) = exp (-(I * (p.k * m.latticeConstant))) * Ψ (n.shift (-1)) 0 := by
      have := hB (n.shift (-1)) 0 1
      rw [shift_shift] at this
      simp only [neg_add_cancel, shift_zero] at this
      rw [this]
      congr 2; push_cast; ring
    have e3 : ∀ h : SingleTerm ℝ, ∀ X : Occ → ℤ → ℂ, Bloch m p X → (∀ n, ¬ Allowed m ae n → ∀ e, X n e = 0) →
        ((Real.sqrt (occFact n) : ℝ) : ℂ)⁻¹ * ((h.coupling : ℂ) *
        (occFactor h.dag n h.phononIndex (bosonSite h 0) : ℂ) *
        X (n.act h.dag h.phononIndex (bosonSite h 0)) (electronSite h 0)) =
        (h.coupling : ℂ) * (ladder h n : ℂ) * exp (-(I * (p.k * m.latticeConstant * electronSite h 0))) *
          (if Allowed m ae (jump h n) then framed X (jump h n) else 0) := by
      intro h X hX hXo
      by_cases hj : Allowed m ae (jump h n)
      · rw [if_pos hj]
        have hja : Allowed m ae (n.act h.dag h.phononIndex (bosonSite h 0)) := allowed_jump.1 hj
        have hf := factor_fact hn h.dag h.phononIndex (bosonSite h 0) hja
        rw [← ladder_eq] at hf
        have hb := hX (jump h n) 0 (electronSite h 0)
        have hjs : (jump h n).shift (electronSite h 0) = n.act h.dag h.phononIndex (bosonSite h 0) := by
          unfold jump; simp
        rw [hjs, zero_add] at hb
        rw [hb]
        unfold framed
        have ho : occFact (jump h n) = occFact (n.act h.dag h.phononIndex (bosonSite h 0)) := by
          unfold jump; rw [occFact_shift]
        rw [ho]
        have hs1 : ((Real.sqrt (occFact (n.act h.dag h.phononIndex (bosonSite h 0))) : ℝ) : ℂ) ≠ 0 := by
          exact_mod_cast (Real.sqrt_pos.2 (by exact_mod_cast occFact_pos _)).ne'
        have hf' : ((occFactor h.dag n h.phononIndex (bosonSite h 0) : ℂ)) *
            ((Real.sqrt (occFact (n.act h.dag h.phononIndex (bosonSite h 0))) : ℝ) : ℂ) =
            (ladder h n : ℂ) * ((Real.sqrt (occFact n) : ℝ) : ℂ) := by exact_mod_cast hf
        set s0 := ((Real.sqrt (occFact n) : ℝ) : ℂ)
        set s1 := ((Real.sqrt (occFact (n.act h.dag h.phononIndex (bosonSite h 0))) : ℝ) : ℂ)
        set E := exp (-(I * (p.k * m.latticeConstant * electronSite h 0)))
        field_simp
        linear_combination (h.coupling : ℂ) * E * X (jump h n) 0 * hf'
      · rw [if_neg hj, hXo _ (fun q => hj (allowed_jump.2 q))]
        ring
    have hB2 : Bloch m p (Ψ + Ψ') := by
      intro n e s
      show Ψ _ _ + Ψ' _ _ = _ * (Ψ _ _ + Ψ' _ _)
      rw [hB, hB']; ring
    have hout2 : ∀ n, ¬ Allowed m ae n → ∀ e, (Ψ + Ψ') n e = 0 := by
      intro n hn e
      show Ψ n e + Ψ' n e = 0
      rw [hout n hn, hout' n hn, add_zero]
    have h2 := congrArg (fun x => ((Real.sqrt (occFact n) : ℝ) : ℂ)⁻¹ * x) h1
    beta_reduce at h2
    rw [← List.sum_map_mul_left, List.map_congr_left (fun h _ => e3 h _ hB2 hout2), e1, e2] at h2
    unfold frame
    rw [if_pos hn]
    have hadd : ∀ h : SingleTerm ℝ, (h.coupling : ℂ) * (ladder h n : ℂ) *
        exp (-(I * (p.k * m.latticeConstant * electronSite h 0))) *
          (if Allowed m ae (jump h n) then framed (Ψ + Ψ') (jump h n) else 0) =
        ((h.coupling : ℂ) * (ladder h n : ℂ) * exp (-(I * (p.k * m.latticeConstant * electronSite h 0))) *
          (if Allowed m ae (jump h n) then u (jump h n) else 0)) + wT m ae p.k h n * r (jump h n) := by
      intro h
      unfold wT
      by_cases hj : Allowed m ae (jump h n)
      · rw [if_pos hj, if_pos hj, if_pos ⟨hn, hj⟩, hu, hr]
        unfold framed
        show _ * (_ * (Ψ _ _ + Ψ' _ _)) = _
        ring
      · rw [if_neg hj, if_neg hj, if_neg (fun q => hj q.2)]; ring
    rw [List.map_congr_left (fun h _ => hadd h), List.sum_map_add] at h2
    have f1 : u (n.shift 1) = ((Real.sqrt (occFact n) : ℝ) : ℂ)⁻¹ * Ψ (n.shift 1) 0 := by
      rw [hu]; unfold framed; rw [occFact_shift]
    have f2 : u (n.shift (-1)) = ((Real.sqrt (occFact n) : ℝ) : ℂ)⁻¹ * Ψ (n.shift (-1)) 0 := by
      rw [hu]; unfold framed; rw [occFact_shift]
    have f0 : u n = ((Real.sqrt (occFact n) : ℝ) : ℂ)⁻¹ * Ψ n 0 := hu n
    rw [f0, f1, f2]
    linear_combination h2
  · unfold frame
    rw [if_neg hn, hu]
    unfold framed
    rw [hout n hn, List.sum_eq_zero]
    · ring
    · intro x hx
      obtain ⟨h, -, rfl⟩ := List.mem_map.1 hx
      unfold wT
      rw [if_neg (fun q => hn q.1), zero_mul]

/-! ### sums over the occupations -/

open Classical in
/-- a sum over the occupations is a sum over the clouds and their places -/
theorem occ_hasSum (hm : Shaped m ae) {A : Finset Arr} (hA : ∀ a, a ∈ A ↔ InTruncation m ae a) {F : Occ → ℝ}
    (hout : ∀ n, ¬ Allowed m ae n → F n = 0) (hs : ∀ a ∈ A, Summable (fun s : ℤ => F (placed a s))) :
    HasSum F (F 0 + ∑ a ∈ A, ∑' s : ℤ, F (placed a s)) := by
  let X : Arr → Occ → ℝ := fun a n => if ∃ s, n = placed a s then F n else 0
  have h1 : ∀ a ∈ A, HasSum (X a) (∑' s : ℤ, F (placed a s)) := by
    intro a ha
    have hi : Function.Injective (fun s : ℤ => placed a s) := fun s s' h => (placed_inj ((hA a).1 ha) ((hA a).1 ha) h).2
    rw [← hi.hasSum_iff]
    · have : X a ∘ (fun s : ℤ => placed a s) = fun s => F (placed a s) := by
        funext s
        exact if_pos ⟨s, rfl⟩
      rw [this]
      exact (hs a ha).hasSum
    · intro n hn
      exact if_neg (fun ⟨s, e⟩ => hn ⟨s, e.symm⟩)
  have h2 := (hasSum_ite_eq (0 : Occ) (F 0)).add (hasSum_sum h1)
  convert h2 using 1
  funext n
  symm
  by_cases hn : Allowed m ae n
  · obtain ⟨a, s, ha, rfl⟩ := exists_placed hm hn
    rcases ha with rfl | ha
    · rw [placed_vac, if_pos rfl, Finset.sum_eq_zero, add_zero]
      intro a ha
      exact if_neg (fun ⟨s, e⟩ => placed_ne_zero ((hA a).1 ha) e.symm)
    · rw [if_neg (placed_ne_zero ha), zero_add, Finset.sum_eq_single a]
      · exact if_pos ⟨s, rfl⟩
      · intro b hb hne
        exact if_neg (fun ⟨s', e⟩ => hne (placed_inj ha ((hA b).1 hb) e).1.symm)
      · intro h
        exact absurd ((hA a).2 ha) h
  · have hz : n ≠ 0 := fun e => hn (e ▸ allowed_zero hm)
    rw [if_neg hz, zero_add, hout n hn]
    refine Finset.sum_eq_zero (fun a _ => ?_)
    show (if _ then F n else 0) = 0
    rw [hout n hn, ite_self]

/-- values at finitely many distinct places -/
theorem list_places {c : ℤ} (l : List (ℤ × ℂ)) (hn : (l.map Prod.fst).Nodup) (hp : ∀ q ∈ l, q.1 % 2 = c) :
    HasSum (fun s : ℤ => ‖(l.map (fun q => if q.1 = c + 2 * s then q.2 else 0)).sum‖ ^ 2)
      (l.map (fun q => ‖q.2‖ ^ 2)).sum := by
  induction l with
  | nil => simp
  | cons q l ih =>
    rw [List.map_cons, List.nodup_cons] at hn
    have h1 := ih hn.2 (fun x hx => hp x (List.mem_cons_of_mem _ hx))
    have hq := hp q (by simp)
    have h2 := (hasSum_ite_eq ((q.1 - c) / 2) (‖q.2‖ ^ 2)).add h1
    rw [List.map_cons, List.sum_cons]
    convert h2 using 1
    funext s
    symm
    rw [List.map_cons, List.sum_cons]
    by_cases hs : s = (q.1 - c) / 2
    · have e : q.1 = c + 2 * s := by omega
      rw [if_pos hs, if_pos e]
      have : (l.map (fun q => if q.1 = c + 2 * s then q.2 else 0)).sum = 0 := by
        refine List.sum_eq_zero (fun x hx => ?_)
        obtain ⟨r, hr, rfl⟩ := List.mem_map.1 hx
        rw [if_neg]
        intro e'
        exact hn.1 (List.mem_map.2 ⟨r, hr, by rw [e', e]⟩)
      rw [this, norm_zero, add_zero]
      simp
    · have e : ¬ q.1 = c + 2 * s := by omega
      rw [if_neg hs, if_neg e, zero_add, zero_add]

theorem sum_toFinset_le {α : Type} [DecidableEq α] (l : List α) {f : α → ℝ} (hf : ∀ a, 0 ≤ f a) :
    ∑ a ∈ l.toFinset, f a ≤ (l.map f).sum := by
  induction l with
  | nil => simp
  | cons a l ih =>
    rw [List.toFinset_cons, List.map_cons, List.sum_cons]
    by_cases h : a ∈ l.toFinset
    · rw [Finset.insert_eq_of_mem h]
      have := hf a
      linarith
    · rw [Finset.sum_insert h]
      linarith

theorem occFact_le (hm : ListsOk m) {n : Occ} (hn : Allowed m ae n) : occFact n ≤ factorials m := by
  classical
  obtain ⟨W, hW⟩ : ∃ W : Finset ℤ, ∀ t x, n t x ≠ 0 → x ∈ W := by
    refine ⟨(Finset.range m.nTypes).biUnion (fun t => (hn.finite t).toFinset), fun t x h => ?_⟩
    rw [Finset.mem_biUnion]
    exact ⟨t, Finset.mem_range.2 (hn.types t x h), (hn.finite t).mem_toFinset.2 h⟩
  have h1 : occFact n = ∏ t ∈ Finset.range m.nTypes, ∏ x ∈ W, (n t x).toNat.factorial := by
    unfold occFact
    rw [finprod_eq_prod_of_mulSupport_subset (s := Finset.range m.nTypes ×ˢ W), Finset.prod_product]
    intro q hq
    have hne : n q.1 q.2 ≠ 0 := by
      intro e
      apply hq
      show (n q.1 q.2).toNat.factorial = 1
      rw [e]; rfl
    rw [Finset.mem_coe, Finset.mem_product]
    exact ⟨Finset.mem_range.2 (hn.types _ _ hne), hW _ _ hne⟩
  rw [h1]
  unfold factorials
  refine Finset.prod_le_prod' (fun t ht => ?_)
  refine (Nat.le_of_dvd (Nat.factorial_pos _) (Nat.prod_factorial_dvd_factorial_sum W _)).trans
    (Nat.factorial_le ?_)
  have hl : t < m.number.length := by rw [hm.num]; exact Finset.mem_range.1 ht
  have h2 := hn.number t _ (List.getElem?_eq_getElem hl)
  rw [List.getD_eq_getElem?_getD, List.getElem?_eq_getElem hl, Option.getD_some]
  rw [finsum_eq_sum_of_support_subset (s := W) _ (fun x hx => hW t x hx)] at h2
  have h3 : ((∑ x ∈ W, (n t x).toNat : ℕ) : ℤ) = ∑ x ∈ W, n t x := by
    push_cast
    exact Finset.sum_congr rfl (fun x _ => Int.toNat_of_nonneg (hn.nonneg t x))
  omega

/-! ### the bound -/

/-- the code's equation of a cloud -/
theorem Setting.full_sum (S : Setting m ae L c p) {a : Arr} (ha : InTruncation m ae a) {δ : Num}
    (hδ : δ ∈ L.deltas a) :
    δ.tw = c + 2 * ((δ.tw - c) / 2) ∧
    ((full (L.eqn a) δ).terms.map (fun t => coefV realPhys m p t * U t.id)).sum =
      -emitted m L p c U a ((δ.tw - c) / 2) := by
  have hv : a ≠ vac m := fun e => total_ne_zero ha (e ▸ vac_total m)
  have hpar : δ.tw % 2 = c := by
    obtain ⟨b, hb, t, ht, k1, k2⟩ := S.hL.deltas_sub _ (Or.inr ha) δ hδ
    have hpar := S.fArg_parity hb ht (k1 ▸ ha)
    rwa [k2] at hpar
  refine ⟨by omega, ?_⟩
  unfold emitted
  rw [neg_neg, show (full (L.eqn a) δ).terms = (L.eqn a).terms.map (incr δ) from rfl, List.map_map]
  congr 1
  apply List.map_congr_left
  intro t ht
  obtain ⟨h, hh, γ, hf⟩ := S.from_mem (Or.inr ha) ht
  have hpg := S.gtw_parity ha ht
  rcases hf with ⟨-, hp⟩ | ⟨e, -⟩
  · simp only [Function.comp, incr_id]
    rw [coefV_produced hp δ]
    congr 2
    rw [show δ.tw + gtw t = 2 * ((δ.tw - c) / 2 + (c + gtw t) / 2) by omega]
    push_cast; ring
  · exact absurd e hv

/-- the code's equation of the Green's function, with another right-hand side -/
theorem Setting.vac_full (S : Setting m ae L c p) {δ : Num} (hδ : δ ∈ L.deltas (vac m)) {r : ℂ}
    (h : U (full (L.eqn (vac m)) δ).id +
      ((full (L.eqn (vac m)) δ).terms.map (fun t => coefV realPhys m p t * U t.id)).sum = r) :
    (p.w + I * p.eta + 2 * m.ham.hopping * Real.cos (p.k * m.latticeConstant)) * (U "{G}[0.0]".toList - r) +
      ((L.eqn (vac m)).terms.map (amp m p U)).sum = 0 := by
  have hn : Node m ae (vac m) := Or.inl rfl
  obtain ⟨-, h4, -⟩ := Props.C25_free_weight p.k p.w m.latticeConstant m.ham.hopping p.eta S.eta
  have hsum : ((full (L.eqn (vac m)) δ).terms.map (fun t => coefV realPhys m p t * U t.id)).sum =
      realPhys.G0 p.k p.w m.latticeConstant p.eta m.ham.hopping *
        ((L.eqn (vac m)).terms.map (amp m p U)).sum := by
    rw [show (full (L.eqn (vac m)) δ).terms = (L.eqn (vac m)).terms.map (incr δ) from rfl, List.map_map,
      ← List.sum_map_mul_left]
    congr 1
    apply List.map_congr_left
    intro t ht
    obtain ⟨h, hh, γ, hf⟩ := S.from_mem hn ht
    rcases hf with ⟨e, -⟩ | ⟨-, -, -, rfl⟩
    · exact absurd (vac_total m) (total_ne_zero e)
    · simp only [Function.comp, incr_id]
      show _ = _ * ((h.coupling : ℂ) * ph m p (h.psi.tw - h.phi.tw) * U (eomOf m h).id)
      have : coefV realPhys m p (incr δ (eomOf m h)) = (h.coupling : ℂ) *
          realPhys.G0 p.k p.w m.latticeConstant p.eta m.ham.hopping * ph m p (h.psi.tw - h.phi.tw) := rfl
      rw [this]; ring
  rw [S.vac_id hδ, hsum] at h
  set G0 := realPhys.G0 p.k p.w m.latticeConstant p.eta m.ham.hopping
  have hG0 : G0 ≠ 0 := G0_ne_zero m p S.eta
  apply mul_left_cancel₀ hG0
  linear_combination h + (U "{G}[0.0]".toList - r) * h4

/-- the residuals of a cloud, by twice the distance -/
noncomputable def residualAt (L : Layout ℝ) (ρ : Equation ℝ → ℂ) (a : Arr) (d : ℤ) : ℂ :=
  (((L.deltas a).map (fun δ => (δ.tw, ρ (full (L.eqn a) δ)))).map (fun q => if q.1 = d then q.2 else 0)).sum

theorem residualAt_delta (hL : L.Ok m ae) (ρ : Equation ℝ → ℂ) {a : Arr} {δ : Num} (hδ : δ ∈ L.deltas a) :
    residualAt L ρ a δ.tw = ρ (full (L.eqn a) δ) := by
  unfold residualAt
  have hn := hL.deltas_nodup a
  generalize L.deltas a = l at hδ hn
  rw [List.map_map]
  induction l with
  | nil => cases hδ
  | cons x l ih =>
    rw [List.map_cons, List.nodup_cons] at hn
    rw [List.map_cons, List.sum_cons]
    rcases List.mem_cons.1 hδ with rfl | hδ'
    · rw [List.sum_eq_zero, add_zero]
      · exact if_pos rfl
      · intro y hy
        obtain ⟨z, hz, rfl⟩ := List.mem_map.1 hy
        exact if_neg (fun e => hn.1 (List.mem_map.2 ⟨z, hz, e⟩))
    · rw [ih hδ' hn.2]
      have : ¬ x.tw = δ.tw := fun e => hn.1 (List.mem_map.2 ⟨δ, hδ', e.symm⟩)
      show (if x.tw = δ.tw then _ else 0) + _ = _
      rw [if_neg this, zero_add]

theorem norm_sgn (a : Arr) : ‖sgn a‖ = 1 := by unfold sgn; split <;> simp

theorem norm_framed_le (Ψ : Occ → ℤ → ℂ) (n : Occ) : ‖framed Ψ n‖ ^ 2 ≤ ‖Ψ n 0‖ ^ 2 := by
  unfold framed
  have h1 : (1 : ℝ) ≤ Real.sqrt (occFact n) := by
    rw [Real.one_le_sqrt]
    exact_mod_cast occFact_pos n
  have h2 : ‖(((Real.sqrt (occFact n) : ℝ) : ℂ))⁻¹‖ ≤ 1 := by
    rw [norm_inv, Complex.norm_real, Real.norm_eq_abs, abs_of_nonneg (by linarith)]
    exact inv_le_one_of_one_le₀ h1
  rw [norm_mul]
  refine pow_le_pow_left₀ (by positivity) ?_ 2
  have := norm_nonneg (Ψ n 0)
  nlinarith

theorem Same.norm_placed (hs : Same m ae c p ψ Ψ) {a : Arr} (ha : InTruncation m ae a) (s : ℤ) :
    ‖Ψ (placed a s) 0‖ = ‖ψ a (c + 2 * s)‖ := by
  rw [hs.inside a (Or.inr ha)]
  unfold amplitude
  rw [norm_mul, norm_mul, norm_sgn, ph_norm, one_mul, one_mul, sub_zero]

/-- An error in the equations: the Green's function changes by at most `1 + V/eta` times the residual. -/
theorem Setting.residual (S : Setting m ae L c p) {b : Built ℝ} (hd : L.Describes m b) (ρ : Equation ℝ → ℂ)
    (hU : ∀ e ∈ allEqs b.eqs, U e.id + (e.terms.map (fun t => coefV realPhys m p t * U t.id)).sum = ρ e) :
    ‖U "{G}[0.0]".toList‖ ≤ sensitivity m p.eta * √((allEqs b.eqs).map (fun e => ‖ρ e‖ ^ 2)).sum ∧
    √((allEqs b.eqs).map (fun e => ‖U e.id‖ ^ 2)).sum ≤ √(factorials m) *
      (sensitivity m p.eta * √((allEqs b.eqs).map (fun e => ‖ρ e‖ ^ 2)).sum) := by
  classical
  have hmS := S.hm.toShaped
  have hmem := S.hL.mem_allEqs S.hm.toListsOk hd
  obtain ⟨δ₀, hδ₀⟩ := List.exists_mem_of_ne_nil _ (S.hL.deltas_ne_nil hmS (Or.inl rfl : Node m ae (vac m)))
  set ρG : ℂ := ρ (full (L.eqn (vac m)) δ₀) with hρG
  set G : ℂ := U "{G}[0.0]".toList with hG
  have hvac := S.vac_full hδ₀ (hU _ ((hmem _).2 ⟨_, Or.inl rfl, δ₀, hδ₀, rfl⟩))
  rw [← hρG, ← hG] at hvac
  let ψ : Arr → ℤ → ℂ := fun a d => if a = vac m then ph m p d * (G - ρG) else emitted m L p c U a ((d - c) / 2)
  let σ : Arr → ℤ → ℂ := fun a d => if a = vac m then ph m p d * ρG else residualAt L ρ a d
  have hnv : ∀ {a}, InTruncation m ae a → a ≠ vac m := fun ha e => total_ne_zero ha (e ▸ vac_total m)
  have hψc : ∀ {a}, InTruncation m ae a → ∀ j, ψ a (c + 2 * j) = emitted m L p c U a j := by
    intro a ha j
    show (if _ then _ else _) = _
    rw [if_neg (hnv ha), show (c + 2 * j - c) / 2 = j by omega]
  have hσc : ∀ {a}, InTruncation m ae a → ∀ d, σ a d = residualAt L ρ a d := by
    intro a ha d
    exact if_neg (hnv ha)
  have hψ0 : ψ (vac m) 0 = G - ρG := by
    show (if _ then _ else _) = _
    rw [if_pos rfl, ph_zero, one_mul]
  have hσ0 : σ (vac m) 0 = ρG := by
    show (if _ then _ else _) = _
    rw [if_pos rfl, ph_zero, one_mul]
  have hψp : ∀ d, ψ (vac m) d = ph m p d * ψ (vac m) 0 := by
    intro d; rw [hψ0]; exact if_pos rfl
  have hσp : ∀ d, σ (vac m) d = ph m p d * σ (vac m) 0 := by
    intro d; rw [hσ0]; exact if_pos rfl
  have hsp : ∀ d, (ψ + σ) (vac m) d = ph m p d * (ψ + σ) (vac m) 0 := by
    intro d
    show ψ _ _ + σ _ _ = _ * (ψ _ _ + σ _ _)
    rw [hψp, hσp]; ring
  have hr : Reads m ae L U (ψ + σ) := by
    intro a ha t ht
    by_cases hv : t.config = vac m
    · rw [if_pos hv, S.term_vac (U := U) ha ht hv]
      show G = ψ _ _ + σ _ _
      rw [hψ0, hσ0]; ring
    · rw [if_neg hv]
      have hc := (S.hL.term_node hmS ha ht).resolve_left hv
      obtain ⟨δ, k1, k2⟩ := S.hL.deltas_cover a ha t ht
      obtain ⟨e1, e2⟩ := S.full_sum (U := U) hc k1
      have h1 := hU _ ((hmem _).2 ⟨_, Or.inr hc, δ, k1, rfl⟩)
      rw [e2] at h1
      have hid : U t.id = U (full (L.eqn t.config) δ).id := by
        congr 1
        rw [Term.id, Equation.id, full, S.hL.eqn_config (Or.inr hc), termId_eq_iff hc.2.2.wf hc.2.2.wf]
        exact ⟨Or.inr rfl, by simp [k2]⟩
      rw [hid, ← k2]
      show _ = ψ _ _ + σ _ _
      rw [hσc hc, residualAt_delta S.hL ρ k1]
      have : ψ t.config δ.tw = emitted m L p c U t.config ((δ.tw - c) / 2) := if_neg hv
      rw [this]
      linear_combination h1
  obtain ⟨Ψ, hsame, hB⟩ := exists_same (c := c) (p := p) hmS hψp
  obtain ⟨Φ, hsame', hB'⟩ := exists_same (c := c) (p := p) hmS hσp
  have hsum : Same m ae c p (ψ + σ) (Ψ + Φ) := by
    refine ⟨fun a ha s e => ?_, fun n hn e => ?_, hsp⟩
    · show Ψ _ _ + Φ _ _ = _
      rw [hsame.inside a ha, hsame'.inside a ha]
      unfold amplitude
      show _ = _ * (ψ _ _ + σ _ _)
      ring
    · show Ψ _ _ + Φ _ _ = _
      rw [hsame.outside n hn, hsame'.outside n hn, add_zero]
  have hmot : ∀ n, Allowed m ae n → (p.w + I * p.eta - occEnergy m n) * Ψ n 0 +
      m.ham.hopping * (Ψ n (0 - 1) + Ψ n (0 + 1)) =
      (m.ham.terms.map (fun h : SingleTerm ℝ => (h.coupling : ℂ) *
        (occFactor h.dag n h.phononIndex (bosonSite h 0) : ℂ) *
        (Ψ + Φ) (n.act h.dag h.phononIndex (bosonSite h 0)) (electronSite h 0))).sum := by
    intro n hn
    obtain ⟨a, s, ha, rfl⟩ := exists_placed hmS hn
    rcases ha with rfl | ha
    · rw [placed_vac]
      refine hsame.mixed_vac hsum hmS S.hL S.shifts 0 ?_
      rw [← hr.sum_vac S, hψ0]
      exact hvac
    · refine hsame.mixed_cloud hsum hmS S.hL S.shifts ha s 0 ?_
      rw [hψc ha, hψc ha, hψc ha, ← hr.sum_cloud hsp S ha]
      have := S.emitted_motion (U := U) a (s - 0)
      push_cast at this ⊢
      linear_combination this
  -- the two states
  set A : Finset Arr := ((L.nodes m).toFinset).filter (fun a => a ≠ vac m) with hAdef
  have hA : ∀ a, a ∈ A ↔ InTruncation m ae a := by
    intro a
    rw [hAdef, Finset.mem_filter, List.mem_toFinset, Layout.mem_nodes S.hm.toListsOk S.hL]
    constructor
    · rintro ⟨h1, h2⟩; exact h1.resolve_left h2
    · intro h; exact ⟨Or.inr h, hnv h⟩
  have hsU := occ_hasSum hmS hA (F := fun n => ‖Ψ n 0‖ ^ 2) (fun n hn => by rw [hsame.outside n hn]; simp) (by
    intro a ha
    simp only [hsame.norm_placed ((hA a).1 ha), hψc ((hA a).1 ha)]
    have := summable_normSq (S.emitted_summable (U := U) a)
    refine this.congr (fun j => ?_)
    rw [Complex.normSq_eq_norm_sq])
  have hplaces : ∀ a, InTruncation m ae a → HasSum (fun s : ℤ => ‖σ a (c + 2 * s)‖ ^ 2)
      ((L.deltas a).map (fun δ => ‖ρ (full (L.eqn a) δ)‖ ^ 2)).sum := by
    intro a ha
    have := list_places (c := c) ((L.deltas a).map (fun δ => (δ.tw, ρ (full (L.eqn a) δ)))) (by
      rw [List.map_map]; exact S.hL.deltas_nodup a) (by
      intro q hq
      obtain ⟨δ, hδ, rfl⟩ := List.mem_map.1 hq
      have := (S.full_sum (U := U) ha hδ).1
      have hc := parity_cases hmS S.shifts
      show δ.tw % 2 = c
      omega)
    rw [List.map_map] at this
    simp only [hσc ha]
    exact this
  have hsR := occ_hasSum hmS hA (F := fun n => ‖Φ n 0‖ ^ 2) (fun n hn => by rw [hsame'.outside n hn]; simp) (by
    intro a ha
    simp only [hsame'.norm_placed ((hA a).1 ha)]
    exact (hplaces a ((hA a).1 ha)).summable)
  let u : L2 Occ := ⟨framed Ψ, memL2_iff.2 (hsU.summable.of_nonneg_of_le (fun n => by positivity) (norm_framed_le Ψ))⟩
  let r : L2 Occ := ⟨framed Φ, memL2_iff.2 (hsR.summable.of_nonneg_of_le (fun n => by positivity) (norm_framed_le Φ))⟩
  have heq := framed_motion (u := u) (r := r) S.hm.toListsOk hB hB' (fun _ => rfl) (fun _ => rfl) hsame.outside
    hsame'.outside hmot
  -- the size of the residual
  set N := √((allEqs b.eqs).map (fun e => ‖ρ e‖ ^ 2)).sum with hN
  have hN0 : 0 ≤ ((allEqs b.eqs).map (fun e => ‖ρ e‖ ^ 2)).sum := by
    refine List.sum_nonneg (fun x hx => ?_)
    obtain ⟨e, -, rfl⟩ := List.mem_map.1 hx
    positivity
  have hΦ0 : Φ 0 0 = ρG := by rw [hsame'.zero 0, mul_zero, neg_zero, ph_zero, one_mul, hσ0]
  have hΨ0 : Ψ 0 0 = G - ρG := by rw [hsame.zero 0, mul_zero, neg_zero, ph_zero, one_mul, hψ0]
  have hle : ‖ρG‖ ^ 2 + ∑ a ∈ A, ((L.deltas a).map (fun δ => ‖ρ (full (L.eqn a) δ)‖ ^ 2)).sum ≤
      ((allEqs b.eqs).map (fun e => ‖ρ e‖ ^ 2)).sum := by
    rw [S.hL.allEqs_eq hd]
    let f : Arr → ℝ := fun a => ((L.deltas a).map (fun δ => ‖ρ (full (L.eqn a) δ)‖ ^ 2)).sum
    have hf : ∀ a, 0 ≤ f a := by
      intro a
      refine List.sum_nonneg (fun x hx => ?_)
      obtain ⟨e, -, rfl⟩ := List.mem_map.1 hx
      positivity
    have e1 : (((L.nodes m).flatMap (fun a => (L.deltas a).map (full (L.eqn a)))).map (fun e => ‖ρ e‖ ^ 2)).sum =
        ((L.nodes m).map f).sum := by
      generalize L.nodes m = l
      induction l with
      | nil => rfl
      | cons a l ih =>
        rw [List.flatMap_cons, List.map_append, List.sum_append, ih, List.map_map]
        rfl
    rw [e1]
    refine le_trans ?_ (sum_toFinset_le (L.nodes m) hf)
    have hvm : vac m ∈ (L.nodes m).toFinset := by
      rw [List.mem_toFinset, Layout.mem_nodes S.hm.toListsOk S.hL]; exact Or.inl rfl
    rw [← Finset.add_sum_erase _ _ hvm]
    have hAe : (L.nodes m).toFinset.erase (vac m) = A := by
      ext a
      rw [Finset.mem_erase, hAdef, Finset.mem_filter]
      tauto
    rw [hAe]
    refine add_le_add ?_ le_rfl
    have : ‖ρG‖ ^ 2 ∈ (L.deltas (vac m)).map (fun δ => ‖ρ (full (L.eqn (vac m)) δ)‖ ^ 2) :=
      List.mem_map.2 ⟨δ₀, hδ₀, rfl⟩
    exact List.single_le_sum (fun x hx => by
      obtain ⟨e, -, rfl⟩ := List.mem_map.1 hx
      positivity) _ this
  have hrN : ‖r‖ ≤ N := by
    rw [hN]
    apply Real.le_sqrt_of_sq_le
    rw [L2.norm_sq]
    refine le_trans ((L2.summable r).tsum_le_tsum (norm_framed_le Φ) hsR.summable) ?_
    rw [hsR.tsum_eq, hΦ0]
    refine le_trans (le_of_eq ?_) hle
    congr 1
    apply Finset.sum_congr rfl
    intro a ha
    simp only [hsame'.norm_placed ((hA a).1 ha)]
    exact (hplaces a ((hA a).1 ha)).tsum_eq
  have hGN : ‖ρG‖ ≤ N := by
    rw [hN]
    apply Real.le_sqrt_of_sq_le
    refine le_trans ?_ hle
    have : 0 ≤ ∑ a ∈ A, ((L.deltas a).map (fun δ => ‖ρ (full (L.eqn a) δ)‖ ^ 2)).sum := by
      refine Finset.sum_nonneg (fun a _ => List.sum_nonneg (fun x hx => ?_))
      obtain ⟨e, -, rfl⟩ := List.mem_map.1 hx
      positivity
    linarith
  have hH := hamOp_selfAdjoint (ae := ae) (k := p.k) S.hm.toListsOk S.shifts S.adj
  have h1 := norm_le_of_eq hH heq
  have him : ((p.w : ℂ) + I * p.eta).im = p.eta := by simp
  rw [him, abs_of_pos S.eta] at h1
  have h2 : ‖intOp m ae p.k r‖ ≤ interaction m * N :=
    ((intOp m ae p.k).le_opNorm r).trans (mul_le_mul (intOp_norm S.hm.toListsOk hmS.index) hrN (norm_nonneg _)
      (interaction_nonneg m))
  have h3 : ‖G - ρG‖ ≤ ‖u‖ := by
    have : u 0 = G - ρG := by
      show framed Ψ 0 = _
      unfold framed
      rw [hΨ0, occFact_zero]; simp
    rw [← this]
    exact lp.norm_apply_le_norm (by norm_num) u 0
  have h4 : ‖G‖ ≤ ‖G - ρG‖ + ‖ρG‖ := by
    have := norm_add_le (G - ρG) ρG
    rwa [sub_add_cancel] at this
  have h5 : ‖u‖ ≤ interaction m / p.eta * N := by
    rw [div_mul_eq_mul_div, le_div_iff₀ S.eta, mul_comm]
    exact h1.trans h2
  refine ⟨by unfold sensitivity; linarith, ?_⟩
  -- all unknowns
  have h6 : ‖u + r‖ ≤ sensitivity m p.eta * N := by
    refine (norm_add_le _ _).trans ?_
    unfold sensitivity
    linarith
  let place : Equation ℝ → Occ := fun e => placed e.config (((e.fArg.map Num.tw).getD 0 - c) / 2)
  have hval : ∀ e ∈ allEqs b.eqs, ‖U e.id‖ ^ 2 ≤ factorials m * ‖(u + r) (place e)‖ ^ 2 := by
    intro e he
    obtain ⟨a, ha, δ, hδ, rfl⟩ := (hmem e).1 he
    have hpl : place (full (L.eqn a) δ) = placed a ((δ.tw - c) / 2) := by
      show placed (L.eqn a).config _ = _
      rw [S.hL.eqn_config ha]
      rfl
    have hal : Allowed m ae (placed a ((δ.tw - c) / 2)) := allowed_placed hmS ha
    have h7 : ‖U (full (L.eqn a) δ).id‖ = ‖(Ψ + Φ) (placed a ((δ.tw - c) / 2)) 0‖ := by
      rcases ha with rfl | ha
      · rw [S.vac_id hδ, placed_vac]
        show _ = ‖Ψ 0 0 + Φ 0 0‖
        rw [hΨ0, hΦ0, sub_add_cancel]
      · obtain ⟨e1, e2⟩ := S.full_sum (U := U) ha hδ
        have h1 := hU _ ((hmem _).2 ⟨_, Or.inr ha, δ, hδ, rfl⟩)
        rw [e2] at h1
        rw [hsum.norm_placed ha, ← e1]
        congr 1
        show _ = ψ _ _ + σ _ _
        rw [hσc ha, residualAt_delta S.hL ρ hδ]
        have : ψ a δ.tw = emitted m L p c U a ((δ.tw - c) / 2) := if_neg (hnv ha)
        rw [this]
        linear_combination h1
    rw [hpl, h7]
    generalize placed a ((δ.tw - c) / 2) = n at hal
    have h8 : (u + r) n = framed (Ψ + Φ) n := by
      show framed Ψ n + framed Φ n = _
      unfold framed
      show _ = _ * (Ψ n 0 + Φ n 0)
      ring
    rw [h8]
    unfold framed
    have hpos : (0 : ℝ) < occFact n := by exact_mod_cast occFact_pos n
    rw [norm_mul, norm_inv, Complex.norm_real, Real.norm_eq_abs, abs_of_nonneg (Real.sqrt_nonneg _), mul_pow,
      inv_pow, Real.sq_sqrt hpos.le, ← mul_assoc]
    have h9 : (occFact n : ℝ) ≤ factorials m := by exact_mod_cast occFact_le S.hm.toListsOk hal
    have h10 : 1 ≤ (factorials m : ℝ) * (occFact n : ℝ)⁻¹ := by
      rw [← div_eq_mul_inv, le_div_iff₀ hpos, one_mul]; exact h9
    have := sq_nonneg ‖(Ψ + Φ) n 0‖
    nlinarith
  have hinj : Set.InjOn place (allEqs b.eqs).toFinset := by
    intro e he e' he' hee
    rw [List.coe_toFinset] at he he'
    obtain ⟨a, ha, δ, hδ, rfl⟩ := (hmem e).1 he
    obtain ⟨a', ha', δ', hδ', rfl⟩ := (hmem e').1 he'
    have hids := S.hL.ids_nodup S.hm.toListsOk hd
    refine List.inj_on_of_nodup_map hids he he' ?_
    have hpl : ∀ a, Node m ae a → ∀ δ, place (full (L.eqn a) δ) = placed a ((δ.tw - c) / 2) := by
      intro a ha δ
      show placed (L.eqn a).config _ = _
      rw [S.hL.eqn_config ha]
      rfl
    rw [hpl a ha, hpl a' ha'] at hee
    rcases ha with rfl | ha
    · rcases ha' with rfl | ha'
      · rw [Equation.id, Equation.id]
        obtain ⟨b1, hb1, t1, ht1, k1, k2⟩ := S.hL.deltas_sub _ (Or.inl rfl) δ hδ
        obtain ⟨b2, hb2, t2, ht2, k3, k4⟩ := S.hL.deltas_sub _ (Or.inl rfl) δ' hδ'
        have e1 := S.hL.vac_term hmS hb1 ht1 k1
        have e2 := S.hL.vac_term hmS hb2 ht2 k3
        rw [k2] at e1
        rw [k4] at e2
        rw [full, full, S.hL.eqn_config (Or.inl rfl), green_id m e1, green_id m e2]
      · rw [placed_vac] at hee
        exact absurd hee.symm (placed_ne_zero ha')
    · rcases ha' with rfl | ha'
      · rw [placed_vac] at hee
        exact absurd hee (placed_ne_zero ha)
      · obtain ⟨rfl, e2⟩ := placed_inj ha ha' hee
        have e3 := (S.full_sum (U := U) ha hδ).1
        have e4 := (S.full_sum (U := U) ha hδ').1
        rw [Equation.id, Equation.id, full, full, S.hL.eqn_config (Or.inr ha), termId_eq_iff ha.2.2.wf ha.2.2.wf]
        refine ⟨Or.inr rfl, ?_⟩
        simp only [Option.map_some]
        congr 1
        omega
  have hnd : (allEqs b.eqs).Nodup := List.Nodup.of_map _ (S.hL.ids_nodup S.hm.toListsOk hd)
  have h11 : ((allEqs b.eqs).map (fun e => ‖U e.id‖ ^ 2)).sum ≤ factorials m * ‖u + r‖ ^ 2 := by
    rw [← List.sum_toFinset _ hnd, L2.norm_sq]
    refine (Finset.sum_le_sum (fun e he => hval e (List.mem_toFinset.1 he))).trans ?_
    rw [← Finset.mul_sum]
    refine mul_le_mul_of_nonneg_left ?_ (Nat.cast_nonneg _)
    rw [← Finset.sum_image (f := fun n => ‖(u + r) n‖ ^ 2) hinj]
    exact (L2.summable (u + r)).sum_le_tsum _ (fun _ _ => by positivity)
  rw [Real.sqrt_le_left (by
    have := interaction_nonneg m
    unfold sensitivity
    have := S.eta
    positivity), mul_pow, Real.sq_sqrt (Nat.cast_nonneg _)]
  refine h11.trans (mul_le_mul_of_nonneg_left ?_ (Nat.cast_nonneg _))
  exact pow_le_pow_left₀ (norm_nonneg _) h6 2

end GGCE
