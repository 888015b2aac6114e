import Verif.Proofs.Compare
import Verif.Proofs.Stability
import Verif.Props.Operator

/-! Operators with nonnegative matrix elements: the growth of the powers of a weighted mean. -/

set_option linter.unusedSectionVars false

namespace GGCE
open Spec Complex
open scoped InnerProductSpace

theorem shift_selfAdjoint {E : Type} [NormedAddCommGroup E] [InnerProductSpace ℂ E] [CompleteSpace E] {H : E →L[ℂ] E}
    (hH : IsSelfAdjoint H) (c : ℝ) : IsSelfAdjoint (algebraMap ℝ (E →L[ℂ] E) c - H) :=
  (IsSelfAdjoint.algebraMap _ (by rfl)).sub hH

/-- all amplitudes are real and nonnegative -/
def Pos (f : States) : Prop := ∀ n, ∃ r : ℝ, 0 ≤ r ∧ f n = r

theorem Pos.add {f g : States} (hf : Pos f) (hg : Pos g) : Pos (f + g) := by
  intro n
  obtain ⟨r, h1, h2⟩ := hf n
  obtain ⟨s, h3, h4⟩ := hg n
  refine ⟨r + s, add_nonneg h1 h3, ?_⟩
  show f n + g n = _
  rw [h2, h4]; push_cast; rfl

theorem Pos.smul {f : States} (hf : Pos f) {c : ℝ} (hc : 0 ≤ c) : Pos ((c : ℂ) • f) := by
  intro n
  obtain ⟨r, h1, h2⟩ := hf n
  refine ⟨c * r, mul_nonneg hc h1, ?_⟩
  show (c : ℂ) * f n = _
  rw [h2]; push_cast; rfl

theorem Pos.norm_le {f g : States} (hf : Pos f) (h : Pos (g - f)) : ‖f‖ ≤ ‖g‖ := by
  have h1 : ∀ n, ‖f n‖ ≤ ‖g n‖ := by
    intro n
    obtain ⟨r, h1, h2⟩ := hf n
    obtain ⟨s, h3, h4⟩ := h n
    have h5 : g n = ((r + s : ℝ) : ℂ) := by
      have : g n - f n = (s : ℂ) := h4
      rw [h2] at this
      push_cast
      linear_combination this
    rw [h2, h5, Complex.norm_real, Complex.norm_real, Real.norm_eq_abs, Real.norm_eq_abs, abs_of_nonneg h1,
      abs_of_nonneg (add_nonneg h1 h3)]
    linarith
  have e : ∀ u : States, ‖u‖ ^ 2 = ∑' n, ‖u n‖ ^ 2 := fun u => by
    have := lp.norm_rpow_eq_tsum (p := 2) (by norm_num) u
    simpa using this
  have sm : ∀ u : States, Summable (fun n => ‖u n‖ ^ 2) := fun u => by
    have := (lp.memℓp u).summable (p := 2) (by norm_num)
    simpa using this
  refine le_of_sq_le_sq ?_ (norm_nonneg _)
  rw [e, e]
  exact (sm f).tsum_le_tsum (fun n => pow_le_pow_left₀ (norm_nonneg _) (h1 n) 2) (sm g)

/-- the operator keeps amplitudes nonnegative -/
def PosOp (A : States →L[ℂ] States) : Prop := ∀ f, Pos f → Pos (A f)

theorem PosOp.pow {A : States →L[ℂ] States} (hA : PosOp A) (j : ℕ) : PosOp (A ^ j) := by
  induction j with
  | zero => intro f hf; exact hf
  | succ j ih => intro f hf; rw [pow_succ']; exact hA _ (ih f hf)

theorem PosOp.add {A B : States →L[ℂ] States} (hA : PosOp A) (hB : PosOp B) : PosOp (A + B) :=
  fun f hf => (hA f hf).add (hB f hf)

theorem PosOp.smul {A : States →L[ℂ] States} (hA : PosOp A) {c : ℝ} (hc : 0 ≤ c) : PosOp ((c : ℂ) • A) :=
  fun f hf => (hA f hf).smul hc

/-- a power of the weighted mean stays below a multiple of the power of one of the operators -/
theorem pow_below {P Q : States →L[ℂ] States} (hP : PosOp P) (hQ : PosOp Q) {C : ℝ} (hC : 0 ≤ C)
    (h : PosOp ((C : ℂ) • P - Q)) {u : States} (hu : Pos u) (j : ℕ) :
    Pos (((C : ℂ) ^ j) • (P ^ j) u - (Q ^ j) u) := by
  induction j with
  | zero =>
    have : ((C : ℂ) ^ 0) • (P ^ 0) u - (Q ^ 0) u = 0 := by simp
    rw [this]
    exact fun n => ⟨0, le_rfl, by simp⟩
  | succ j ih =>
    have e : ((C : ℂ) ^ (j + 1)) • (P ^ (j + 1)) u - (Q ^ (j + 1)) u =
        ((C : ℂ) • P - Q) ((Q ^ j) u) + (C : ℂ) • P (((C : ℂ) ^ j) • (P ^ j) u - (Q ^ j) u) := by
      rw [pow_succ' P, pow_succ' Q]
      show ((C : ℂ) ^ (j + 1)) • P ((P ^ j) u) - Q ((Q ^ j) u) =
        ((C : ℂ) • P ((Q ^ j) u) - Q ((Q ^ j) u)) + (C : ℂ) • P (((C : ℂ) ^ j) • (P ^ j) u - (Q ^ j) u)
      rw [map_sub, map_smul, smul_sub, smul_smul, ← pow_succ']
      abel
    rw [e]
    exact (h _ (hQ.pow j u hu)).add ((hP _ ih).smul hC)

/-- On a vector that a power of `Q` makes from `u`, `P` is as small as the growth of its own powers on `u` says. -/
theorem apply_le {P Q : States →L[ℂ] States} (hPs : IsSelfAdjoint P) (hP : PosOp P) (hQ : PosOp Q) {C : ℝ} (hC : 0 ≤ C)
    (h : PosOp ((C : ℂ) • P - Q)) {u : States} (hu : Pos u) {r : ℝ} (hr : 0 ≤ r) (hg : ∀ j : ℕ, ‖(P ^ j) u‖ ≤ r ^ j) (j : ℕ) :
    ‖P ((Q ^ j) u)‖ ≤ r * ‖(Q ^ j) u‖ := by
  refine norm_le_of_powers hPs (C := C ^ j * r ^ j) hr (fun i => ?_)
  have h1 := hP.pow i _ (pow_below hP hQ hC h hu j)
  rw [map_sub, map_smul] at h1
  have h2 := (hP.pow i _ (hQ.pow j u hu)).norm_le h1
  refine h2.trans ?_
  rw [norm_smul, norm_pow, Complex.norm_real, Real.norm_eq_abs, abs_of_nonneg hC]
  have e : (P ^ i) ((P ^ j) u) = (P ^ (i + j)) u := by rw [pow_add]; rfl
  rw [e, mul_assoc, ← pow_add, add_comm j i]
  exact mul_le_mul_of_nonneg_left (hg (i + j)) (pow_nonneg hC j)

/-- The powers of a weighted mean grow at most like those of the weighted mean of the growth rates. -/
theorem mean_powers {P P' : States →L[ℂ] States} (hPs : IsSelfAdjoint P) (hPs' : IsSelfAdjoint P') (hP : PosOp P)
    (hP' : PosOp P') {C C' : ℝ} (hC : 0 ≤ C) (hC' : 0 ≤ C') (h : PosOp ((C : ℂ) • P - P')) (h' : PosOp ((C' : ℂ) • P' - P))
    {u : States} (hu : Pos u) (hu1 : ‖u‖ ≤ 1) {r r' : ℝ} (hr : 0 ≤ r) (hr' : 0 ≤ r') (hg : ∀ j : ℕ, ‖(P ^ j) u‖ ≤ r ^ j)
    (hg' : ∀ j : ℕ, ‖(P' ^ j) u‖ ≤ r' ^ j) {θ : ℝ} (h0 : 0 ≤ θ) (h1 : θ ≤ 1) (j : ℕ) :
    ‖(((θ : ℂ) • P + ((1 - θ : ℝ) : ℂ) • P') ^ j) u‖ ≤ (θ * r + (1 - θ) * r') ^ j := by
  set Q := (θ : ℂ) • P + ((1 - θ : ℝ) : ℂ) • P' with hQd
  have h1' : 0 ≤ 1 - θ := by linarith
  have hQ : PosOp Q := (hP.smul h0).add (hP'.smul h1')
  have hQ1 : PosOp (((θ + (1 - θ) * C : ℝ) : ℂ) • P - Q) := by
    have e : ((θ + (1 - θ) * C : ℝ) : ℂ) • P - Q = ((1 - θ : ℝ) : ℂ) • ((C : ℂ) • P - P') := by
      rw [hQd]; push_cast; module
    rw [e]; exact h.smul h1'
  have hQ2 : PosOp (((θ * C' + (1 - θ) : ℝ) : ℂ) • P' - Q) := by
    have e : ((θ * C' + (1 - θ) : ℝ) : ℂ) • P' - Q = (θ : ℂ) • ((C' : ℂ) • P' - P) := by
      rw [hQd]; push_cast; module
    rw [e]; exact h'.smul h0
  induction j with
  | zero => rw [pow_zero, pow_zero]; exact hu1
  | succ j ih =>
    have a1 := apply_le hPs hP hQ (by positivity) hQ1 hu hr hg j
    have a2 := apply_le hPs' hP' hQ (by positivity) hQ2 hu hr' hg' j
    have hp : 0 ≤ θ * r + (1 - θ) * r' := by positivity
    rw [pow_succ' Q]
    show ‖(θ : ℂ) • P ((Q ^ j) u) + ((1 - θ : ℝ) : ℂ) • P' ((Q ^ j) u)‖ ≤ _
    refine (norm_add_le _ _).trans ?_
    rw [norm_smul, norm_smul, Complex.norm_real, Complex.norm_real, Real.norm_eq_abs, Real.norm_eq_abs, abs_of_nonneg h0,
      abs_of_nonneg h1', pow_succ']
    calc θ * ‖P ((Q ^ j) u)‖ + (1 - θ) * ‖P' ((Q ^ j) u)‖
        ≤ θ * (r * ‖(Q ^ j) u‖) + (1 - θ) * (r' * ‖(Q ^ j) u‖) :=
          add_le_add (mul_le_mul_of_nonneg_left a1 h0) (mul_le_mul_of_nonneg_left a2 h1')
      _ = (θ * r + (1 - θ) * r') * ‖(Q ^ j) u‖ := by ring
      _ ≤ _ := mul_le_mul_of_nonneg_left ih hp

/-! ### the Hamiltonian with attractive couplings -/

variable {m m' : Model ℝ} {ae ae' : ℤ}

/-- the model with every coupling made negative -/
noncomputable def tilt (m : Model ℝ) : Model ℝ :=
  { m with ham := { m.ham with terms := m.ham.terms.map (fun h => { h with coupling := -|h.coupling| }) } }

/-- the weighted mean of two models of the same shape, with negative couplings -/
noncomputable def mix (θ : ℝ) (m m' : Model ℝ) : Model ℝ :=
  { m with ham := { m.ham with
    hopping := θ * m.ham.hopping + (1 - θ) * m'.ham.hopping
    freqs := (List.range m.nTypes).map (fun t => θ * m.ham.freqs.getD t 0 + (1 - θ) * m'.ham.freqs.getD t 0)
    terms := List.zipWith (fun h h' => { h with coupling := -(θ * |h.coupling| + (1 - θ) * |h'.coupling|) })
      m.ham.terms m'.ham.terms } }

theorem tilt_allowed {n : Occ} : Allowed (tilt m) ae n ↔ Allowed m ae n :=
  ⟨fun ⟨a1, a2, a3, a4, a5, a6⟩ => ⟨a1, a2, a3, a4, a5, a6⟩, fun ⟨a1, a2, a3, a4, a5, a6⟩ => ⟨a1, a2, a3, a4, a5, a6⟩⟩

theorem mix_allowed {θ : ℝ} {n : Occ} : Allowed (mix θ m m') ae n ↔ Allowed m ae n :=
  ⟨fun ⟨a1, a2, a3, a4, a5, a6⟩ => ⟨a1, a2, a3, a4, a5, a6⟩, fun ⟨a1, a2, a3, a4, a5, a6⟩ => ⟨a1, a2, a3, a4, a5, a6⟩⟩

theorem tilt_lists (hm : ListsOk m) : ListsOk (tilt m) := ⟨hm.ext, hm.num⟩

theorem mix_lists {θ : ℝ} (hm : ListsOk m) : ListsOk (mix θ m m') := ⟨hm.ext, hm.num⟩

theorem tilt_energyBound : energyBound (tilt m) = energyBound m := rfl

theorem stronger_tilt (ht : 0 ≤ m.ham.hopping) : Stronger (tilt m) m ae ae where
  types := le_rfl
  cap c h := ⟨c, h, le_rfl⟩
  window := le_rfl
  extent _ M _ h := ⟨M, h, le_rfl⟩
  number _ N _ h := ⟨N, h, le_rfl⟩
  hopping := (abs_of_nonneg ht).le
  freqs _ _ := le_rfl
  terms := by
    refine ⟨_, List.Sublist.refl _, ?_⟩
    show List.Forall₂ _ (m.ham.terms.map _) _
    rw [List.forall₂_map_left_iff, List.forall₂_same]
    intro h _
    exact ⟨rfl, rfl, rfl, rfl, by simp⟩

theorem tilt_adjoint (h : (m.ham.terms.map adjoint).Perm m.ham.terms) :
    ((tilt m).ham.terms.map adjoint).Perm (tilt m).ham.terms := by
  show ((m.ham.terms.map _).map adjoint).Perm (m.ham.terms.map _)
  rw [List.map_map]
  have : (adjoint ∘ fun h : SingleTerm ℝ => { h with coupling := -|h.coupling| }) =
      (fun h : SingleTerm ℝ => { h with coupling := -|h.coupling| }) ∘ adjoint := by
    funext h; rfl
  rw [this, ← List.map_map]
  exact h.map _

open Classical in
/-- what `c - H` does to real amplitudes when every coupling is negative, at zero momentum -/
noncomputable def shadow (m : Model ℝ) (ae : ℤ) (c : ℝ) (r : Occ → ℝ) (n : Occ) : ℝ :=
  if Allowed m ae n then
    (c - occEnergy m n) * r n + m.ham.hopping * (r (n.shift 1) + r (n.shift (-1))) +
      (m.ham.terms.map (fun h => |h.coupling| * (ladder h n * if Allowed m ae (jump h n) then r (jump h n) else 0))).sum
  else c * r n

theorem shift_tilt (hm : ListsOk m) (c : ℝ) {f : States} {r : Occ → ℝ} (hf : ∀ n, f n = (r n : ℂ)) (n : Occ) :
    ((algebraMap ℝ (States →L[ℂ] States) c - hamOp (tilt m) ae 0) f) n = (shadow m ae c r n : ℝ) := by
  rw [shift_op_apply (tilt_lists hm)]
  unfold frame shadow
  by_cases hn : Allowed m ae n
  · rw [if_pos (tilt_allowed.2 hn), if_pos hn]
    have e1 : ((tilt m).ham.terms.map (fun h : SingleTerm ℝ => (h.coupling : ℂ) * (ladder h n : ℂ) *
          exp (-(I * ((0 : ℝ) * (tilt m).latticeConstant * electronSite h 0))) *
          @ite ℂ (Allowed (tilt m) ae (jump h n)) (Classical.propDecidable _) (f (jump h n)) 0)).sum =
        -(((m.ham.terms.map (fun h => |h.coupling| * (ladder h n *
          @ite ℝ (Allowed m ae (jump h n)) (Classical.propDecidable _) (r (jump h n)) 0))).sum : ℝ) : ℂ) := by
      show ((m.ham.terms.map (fun h : SingleTerm ℝ => { h with coupling := -|h.coupling| })).map _).sum = _
      rw [List.map_map]
      generalize m.ham.terms = l
      induction l with
      | nil => simp
      | cons h l ih =>
        rw [List.map_cons, List.map_cons, List.sum_cons, List.sum_cons, ih]
        have j1 : jump { h with coupling := -|h.coupling| } n = jump h n := rfl
        have j2 : ladder { h with coupling := -|h.coupling| } n = ladder h n := rfl
        simp only [Function.comp]
        by_cases ha : Allowed m ae (jump h n)
        · have hb : Allowed (tilt m) ae (jump { h with coupling := -|h.coupling| } n) := tilt_allowed.2 ha
          rw [if_pos ha, if_pos hb, hf, j1, j2]; push_cast; simp; ring
        · have hb : ¬ Allowed (tilt m) ae (jump { h with coupling := -|h.coupling| } n) := fun q => ha (tilt_allowed.1 q)
          rw [if_neg ha, if_neg hb]; push_cast; ring
    rw [e1, hf, hf, hf]
    have e2 : (tilt m).ham.hopping = m.ham.hopping := rfl
    have e3 : occEnergy (tilt m) n = occEnergy m n := rfl
    rw [e2, e3]
    simp only [Complex.ofReal_zero, zero_mul, mul_zero, neg_zero, Complex.exp_zero, one_mul]
    push_cast
    ring
  · rw [if_neg (fun h => hn (tilt_allowed.1 h)), if_neg hn, hf]
    push_cast; ring

open Classical in
theorem list_sum_nonneg' {α : Type} {l : List α} {F : α → ℝ} (h : ∀ a ∈ l, 0 ≤ F a) : 0 ≤ (l.map F).sum := by
  refine List.sum_nonneg (fun x hx => ?_)
  obtain ⟨a, ha, rfl⟩ := List.mem_map.1 hx
  exact h a ha

theorem posOp_tilt (hm : ListsOk m) (ht : 0 ≤ m.ham.hopping) {c : ℝ} (hc : energyBound m ≤ c) :
    PosOp (algebraMap ℝ (States →L[ℂ] States) c - hamOp (tilt m) ae 0) := by
  intro f hf n
  choose r h1 h2 using hf
  refine ⟨_, ?_, shift_tilt hm c h2 n⟩
  unfold shadow
  split
  · rename_i hn
    have hE : occEnergy m n ≤ c := (le_abs_self _).trans ((hn.energy_le hm).trans hc)
    refine add_nonneg (add_nonneg (mul_nonneg (by linarith) (h1 n)) (mul_nonneg ht (add_nonneg (h1 _) (h1 _)))) ?_
    refine list_sum_nonneg' (fun h _ => mul_nonneg (abs_nonneg _) (mul_nonneg (ladder_nonneg h n) ?_))
    split
    · exact h1 _
    · exact le_rfl
  · exact mul_nonneg ((energyBound_nonneg m).trans hc) (h1 n)

/-- one model has at most `C` times the matrix elements of the other -/
theorem posOp_ratio (hm : ListsOk m) (hm' : ListsOk m') (hs : SameShape m m') {c C : ℝ} (hC : 1 ≤ C)
    (hb : energyBound m ≤ c) (hcE : c + energyBound m' ≤ C * (c - energyBound m)) (ht : m'.ham.hopping ≤ C * m.ham.hopping)
    (hg : List.Forall₂ (fun h h' : SingleTerm ℝ => |h'.coupling| ≤ C * |h.coupling|) m.ham.terms m'.ham.terms) :
    PosOp ((C : ℂ) • (algebraMap ℝ (States →L[ℂ] States) c - hamOp (tilt m) ae 0) -
      (algebraMap ℝ (States →L[ℂ] States) c - hamOp (tilt m') ae 0)) := by
  intro f hf n
  choose r h1 h2 using hf
  refine ⟨C * shadow m ae c r n - shadow m' ae c r n, ?_, ?_⟩
  · have hc0 : 0 ≤ c := (energyBound_nonneg m).trans hb
    unfold shadow
    by_cases hn : Allowed m ae n
    · rw [if_pos hn, if_pos ((hs.allowed n).2 hn)]
      have hE := abs_le.1 (hn.energy_le hm)
      have hE' := abs_le.1 (((hs.allowed n).2 hn).energy_le hm')
      have a1 : (c - occEnergy m' n) * r n ≤ C * ((c - occEnergy m n) * r n) := by
        rw [← mul_assoc]
        refine mul_le_mul_of_nonneg_right ?_ (h1 n)
        have : C * (c - energyBound m) ≤ C * (c - occEnergy m n) := mul_le_mul_of_nonneg_left (by linarith [hE.2]) (by linarith)
        linarith [hE'.1]
      have a2 : m'.ham.hopping * (r (n.shift 1) + r (n.shift (-1))) ≤ C * (m.ham.hopping * (r (n.shift 1) + r (n.shift (-1)))) := by
        rw [← mul_assoc]
        exact mul_le_mul_of_nonneg_right ht (add_nonneg (h1 _) (h1 _))
      have a3 : (m'.ham.terms.map (fun h => |h.coupling| * (ladder h n *
          @ite ℝ (Allowed m' ae (jump h n)) (Classical.propDecidable _) (r (jump h n)) 0))).sum ≤
          C * (m.ham.terms.map (fun h => |h.coupling| * (ladder h n *
          @ite ℝ (Allowed m ae (jump h n)) (Classical.propDecidable _) (r (jump h n)) 0))).sum := by
        have ht' := hs.terms
        generalize m.ham.terms = l at hg ht'
        generalize m'.ham.terms = l' at hg ht'
        induction hg with
        | nil => simp
        | @cons h h' l l' hh _ ih =>
          rw [List.forall₂_cons] at ht'
          obtain ⟨⟨p1, p2, p3, p4⟩, ht'⟩ := ht'
          rw [List.map_cons, List.map_cons, List.sum_cons, List.sum_cons, mul_add]
          refine add_le_add ?_ (ih ht')
          have j1 : jump h' n = jump h n := by unfold jump bosonSite electronSite; rw [p1, p2, p3, p4]
          have j2 : ladder h' n = ladder h n := by unfold ladder bosonSite; rw [p1, p2, p3, p4]
          rw [← mul_assoc C, j2]
          by_cases ha : Allowed m ae (jump h n)
          · have hb : Allowed m' ae (jump h' n) := by rw [j1]; exact (hs.allowed _).2 ha
            rw [if_pos ha, if_pos hb, j1]
            exact mul_le_mul_of_nonneg_right hh (mul_nonneg (ladder_nonneg h n) (h1 _))
          · have hb : ¬ Allowed m' ae (jump h' n) := by rw [j1]; exact fun q => ha ((hs.allowed _).1 q)
            rw [if_neg ha, if_neg hb]; simp
      linarith
    · rw [if_neg hn, if_neg (fun h => hn ((hs.allowed n).1 h))]
      have := mul_le_mul_of_nonneg_right hC (mul_nonneg hc0 (h1 n))
      linarith
  · show (C : ℂ) * ((algebraMap ℝ (States →L[ℂ] States) c - hamOp (tilt m) ae 0) f) n -
      ((algebraMap ℝ (States →L[ℂ] States) c - hamOp (tilt m') ae 0) f) n = _
    rw [shift_tilt hm c h2, shift_tilt hm' c h2]
    push_cast; rfl

theorem mix_energy {θ : ℝ} (hs : SameShape m m') (n : Occ) :
    occEnergy (mix θ m m') n = θ * occEnergy m n + (1 - θ) * occEnergy m' n := by
  unfold occEnergy
  rw [hs.nTypes, Finset.mul_sum, Finset.mul_sum, ← Finset.sum_add_distrib]
  refine Finset.sum_congr rfl (fun t ht => ?_)
  have : (mix θ m m').ham.freqs.getD t 0 = θ * m.ham.freqs.getD t 0 + (1 - θ) * m'.ham.freqs.getD t 0 := by
    show ((List.range m.nTypes).map _).getD t 0 = _
    rw [List.getD_eq_getElem?_getD, List.getElem?_map, List.getElem?_range (Finset.mem_range.1 ht)]
    rfl
  rw [this]; ring

/-- the Hamiltonian of the mean is the mean of the Hamiltonians -/
theorem hamOp_mix {θ : ℝ} (hm : ListsOk m) (hm' : ListsOk m') (hs : SameShape m m') (c : ℝ) :
    algebraMap ℝ (States →L[ℂ] States) c - hamOp (mix θ m m') ae 0 =
      (θ : ℂ) • (algebraMap ℝ (States →L[ℂ] States) c - hamOp (tilt m) ae 0) +
      ((1 - θ : ℝ) : ℂ) • (algebraMap ℝ (States →L[ℂ] States) c - hamOp (tilt m') ae 0) := by
  ext f n
  show ((algebraMap ℝ (States →L[ℂ] States) c - hamOp (mix θ m m') ae 0) f) n =
    (θ : ℂ) * ((algebraMap ℝ (States →L[ℂ] States) c - hamOp (tilt m) ae 0) f) n +
    ((1 - θ : ℝ) : ℂ) * ((algebraMap ℝ (States →L[ℂ] States) c - hamOp (tilt m') ae 0) f) n
  rw [shift_op_apply (mix_lists hm), shift_op_apply (tilt_lists hm), shift_op_apply (tilt_lists hm')]
  unfold frame
  by_cases hn : Allowed m ae n
  · rw [if_pos (mix_allowed.2 hn), if_pos (tilt_allowed.2 hn), if_pos (tilt_allowed.2 ((hs.allowed n).2 hn)), mix_energy hs]
    have e2 : occEnergy (tilt m) n = occEnergy m n := rfl
    have e3 : occEnergy (tilt m') n = occEnergy m' n := rfl
    have e4 : (tilt m).ham.hopping = m.ham.hopping := rfl
    have e5 : (tilt m').ham.hopping = m'.ham.hopping := rfl
    have e6 : (mix θ m m').ham.hopping = θ * m.ham.hopping + (1 - θ) * m'.ham.hopping := rfl
    rw [e2, e3, e4, e5, e6]
    simp only [Complex.ofReal_zero, zero_mul, mul_zero, neg_zero, Complex.exp_zero, one_mul, mul_one]
    have key : ((mix θ m m').ham.terms.map (fun h : SingleTerm ℝ => (h.coupling : ℂ) * (ladder h n : ℂ) *
          @ite ℂ (Allowed (mix θ m m') ae (jump h n)) (Classical.propDecidable _) (f (jump h n)) 0)).sum =
        θ * ((tilt m).ham.terms.map (fun h : SingleTerm ℝ => (h.coupling : ℂ) * (ladder h n : ℂ) *
          @ite ℂ (Allowed (tilt m) ae (jump h n)) (Classical.propDecidable _) (f (jump h n)) 0)).sum +
        (1 - θ) * ((tilt m').ham.terms.map (fun h : SingleTerm ℝ => (h.coupling : ℂ) * (ladder h n : ℂ) *
          @ite ℂ (Allowed (tilt m') ae (jump h n)) (Classical.propDecidable _) (f (jump h n)) 0)).sum := by
      have t1 : (mix θ m m').ham.terms = List.zipWith (fun h h' : SingleTerm ℝ =>
        { h with coupling := -(θ * |h.coupling| + (1 - θ) * |h'.coupling|) }) m.ham.terms m'.ham.terms := rfl
      have t2 : (tilt m).ham.terms = m.ham.terms.map (fun h => { h with coupling := -|h.coupling| }) := rfl
      have t3 : (tilt m').ham.terms = m'.ham.terms.map (fun h => { h with coupling := -|h.coupling| }) := rfl
      rw [t1, t2, t3]
      have ht' := hs.terms
      generalize m.ham.terms = l at ht'
      generalize m'.ham.terms = l' at ht'
      induction ht' with
      | nil => simp
      | @cons h h' l l' hh _ ih =>
        obtain ⟨p1, p2, p3, p4⟩ := hh
        simp only [List.zipWith_cons_cons, List.map_cons, List.sum_cons]
        rw [ih]
        have j1 : jump h' n = jump h n := by unfold jump bosonSite electronSite; rw [p1, p2, p3, p4]
        have j2 : ladder h' n = ladder h n := by unfold ladder bosonSite; rw [p1, p2, p3, p4]
        have k1 : ∀ x : ℝ, jump { h with coupling := x } n = jump h n := fun _ => rfl
        have k2 : ∀ x : ℝ, ladder { h with coupling := x } n = ladder h n := fun _ => rfl
        have k3 : ∀ x : ℝ, jump { h' with coupling := x } n = jump h n := fun _ => j1
        have k4 : ∀ x : ℝ, ladder { h' with coupling := x } n = ladder h n := fun _ => j2
        have b1 : Allowed (mix θ m m') ae (jump { h with coupling := -(θ * |h.coupling| + (1 - θ) * |h'.coupling|) } n) ↔
          Allowed m ae (jump h n) := mix_allowed
        have b2 : Allowed (tilt m) ae (jump { h with coupling := -|h.coupling| } n) ↔ Allowed m ae (jump h n) := tilt_allowed
        have b3 : Allowed (tilt m') ae (jump { h' with coupling := -|h'.coupling| } n) ↔ Allowed m ae (jump h n) := by
          rw [k3]; exact tilt_allowed.trans (hs.allowed _)
        by_cases ha : Allowed m ae (jump h n)
        · rw [if_pos (b1.2 ha), if_pos (b2.2 ha), if_pos (b3.2 ha)]
          simp only [k1, k2, k3, k4]
          push_cast
          ring
        · rw [if_neg (fun q => ha (b1.1 q)), if_neg (fun q => ha (b2.1 q)), if_neg (fun q => ha (b3.1 q))]
          ring
    rw [key]
    push_cast
    ring
  · rw [if_neg (fun h => hn (mix_allowed.1 h)), if_neg (fun h => hn (tilt_allowed.1 h)),
      if_neg (fun h => hn ((hs.allowed n).1 (tilt_allowed.1 h)))]
    push_cast; ring

/-- the powers of `c - H` on the state without phonons are largest for the stronger model at zero momentum -/
theorem stronger_powers (hm : ListsOk m) (hm' : ListsOk m') (hz : Allowed m ae 0) (h0 : Allowed m' ae' 0)
    (hi' : ∀ h ∈ m'.ham.terms, h.phononIndex < m'.nTypes) (hst : Stronger m m' ae ae') (hone : OneSign m') {c : ℝ} (k : ℝ)
    (hc : energyBound m ≤ c) (hc' : energyBound m' ≤ c) (j : ℕ) :
    ‖((algebraMap ℝ (States →L[ℂ] States) c - hamOp m ae k) ^ j) bare‖ ≤
      ‖((algebraMap ℝ (States →L[ℂ] States) c - hamOp m' ae' 0) ^ j) bare‖ := by
  obtain ⟨ε, hε⟩ := hone.signs
  have hdom : Dominated m ae (fun n => unitC (occSign m'.nTypes ε n))
      (((algebraMap ℝ (States →L[ℂ] States) c - hamOp m ae k) ^ j) bare)
      (((algebraMap ℝ (States →L[ℂ] States) c - hamOp m' ae' 0) ^ j) bare) := by
    induction j with
    | zero =>
      refine ⟨fun n hn => ?_, fun n => ?_⟩
      · show (bare : States) n = 0
        rw [Props.bare_apply, if_neg]
        rintro rfl
        exact hn hz
      · show ∃ r : ℝ, ‖(bare : States) n‖ ≤ r ∧ (bare : States) n = unitC (occSign m'.nTypes ε n) * r
        rw [Props.bare_apply]
        by_cases hn : n = 0
        · exact ⟨1, by simp [hn], by rw [if_pos hn, hn, occSign_zero]; simp⟩
        · exact ⟨0, by simp [hn], by rw [if_neg hn]; simp⟩
    | succ j ih =>
      rw [pow_succ', pow_succ']
      exact ih.step hm hm' h0 hi' hst hε hc hc'
  exact hdom.norm_le (fun n => unitC_norm _)

theorem pos_bare : Pos bare := by
  intro n
  rw [Props.bare_apply]
  by_cases hn : n = 0
  · exact ⟨1, zero_le_one, by rw [if_pos hn]; simp⟩
  · exact ⟨0, le_rfl, by rw [if_neg hn]; simp⟩

theorem forall₂_ratio {l l' : List (SingleTerm ℝ)}
    (h : List.Forall₂ (fun h h' : SingleTerm ℝ => h.coupling = 0 → h'.coupling = 0) l l') :
    ∃ C : ℝ, 1 ≤ C ∧ List.Forall₂ (fun h h' : SingleTerm ℝ => |h'.coupling| ≤ C * |h.coupling|) l l' := by
  induction h with
  | nil => exact ⟨1, le_rfl, .nil⟩
  | @cons a a' l l' h1 _ ih =>
    obtain ⟨C, hC, hl⟩ := ih
    refine ⟨max C (|a'.coupling| / |a.coupling|), le_max_of_le_left hC, .cons ?_ (hl.imp (fun x y h => ?_))⟩
    · rcases eq_or_ne a.coupling 0 with e | e
      · rw [h1 e, e]; simp
      · have hp : 0 < |a.coupling| := abs_pos.2 e
        calc |a'.coupling| = |a'.coupling| / |a.coupling| * |a.coupling| := by field_simp
          _ ≤ _ := mul_le_mul_of_nonneg_right (le_max_right _ _) hp.le
    · exact h.trans (mul_le_mul_of_nonneg_right (le_max_left _ _) (abs_nonneg _))

/-- a constant bounding the ratio of the matrix elements -/
theorem exists_ratio (hm : ListsOk m) (hm' : ListsOk m') (hs : SameShape m m') {c : ℝ} (hb : energyBound m < c)
    (ht : 0 ≤ m.ham.hopping) (htz : m.ham.hopping = 0 → m'.ham.hopping = 0)
    (hg : List.Forall₂ (fun h h' : SingleTerm ℝ => h.coupling = 0 → h'.coupling = 0) m.ham.terms m'.ham.terms) :
    ∃ C : ℝ, 0 ≤ C ∧ PosOp ((C : ℂ) • (algebraMap ℝ (States →L[ℂ] States) c - hamOp (tilt m) ae 0) -
      (algebraMap ℝ (States →L[ℂ] States) c - hamOp (tilt m') ae 0)) := by
  obtain ⟨C1, h1, h2⟩ := forall₂_ratio hg
  have hd : 0 < c - energyBound m := by linarith
  obtain ⟨C, q1, q2, q3⟩ : ∃ C, C1 ≤ C ∧ (c + energyBound m') / (c - energyBound m) ≤ C ∧
      m'.ham.hopping / m.ham.hopping ≤ C :=
    ⟨max C1 (max ((c + energyBound m') / (c - energyBound m)) (m'.ham.hopping / m.ham.hopping)), by simp⟩
  refine ⟨C, by linarith, posOp_ratio hm hm' hs (by linarith) hb.le ?_ ?_ (h2.imp (fun x y h => ?_))⟩
  · rw [div_le_iff₀ hd] at q2
    exact q2
  · rcases ht.eq_or_lt with e | e
    · rw [htz e.symm, ← e, mul_zero]
    · rw [div_le_iff₀ e] at q3
      exact q3
  · exact h.trans (mul_le_mul_of_nonneg_right q1 (abs_nonneg _))

end GGCE
