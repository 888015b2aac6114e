import Verif.Spec.FloatDense
import Verif.Proofs.Fpu
import Verif.Proofs.DenseResidual
import Mathlib.Analysis.Asymptotics.Lemmas
import Mathlib.Topology.Instances.Matrix
import Mathlib.Analysis.Complex.Basic

/-! The dense solver in floating-point arithmetic: every step has an error that is linear in the accuracy. -/

namespace GGCE
open Spec Filter Topology Asymptotics

/-! ### limits of matrices, entry by entry -/

theorem det_tendsto {ι : Type} {l : Filter ι} {r : ℕ} {f : ι → Matrix (Fin r) (Fin r) ℂ} {X : Matrix (Fin r) (Fin r) ℂ}
    (h : ∀ i j, Tendsto (fun x => f x i j) l (𝓝 (X i j))) : Tendsto (fun x => (f x).det) l (𝓝 X.det) := by
  have h1 : Tendsto f l (𝓝 X) := tendsto_pi_nhds.2 (fun i => tendsto_pi_nhds.2 (fun j => h i j))
  exact ((continuous_id.matrix_det).tendsto X).comp h1

theorem inv_tendsto {ι : Type} {l : Filter ι} {r : ℕ} {f : ι → Matrix (Fin r) (Fin r) ℂ} {X : Matrix (Fin r) (Fin r) ℂ}
    (h : ∀ i j, Tendsto (fun x => f x i j) l (𝓝 (X i j))) (hX : X.det ≠ 0) (i j : Fin r) :
    Tendsto (fun x => (f x)⁻¹ i j) l (𝓝 (X⁻¹ i j)) := by
  have h1 : Tendsto f l (𝓝 X) := tendsto_pi_nhds.2 (fun i => tendsto_pi_nhds.2 (fun j => h i j))
  have h2 := ((continuous_id.matrix_adjugate).tendsto X).comp h1
  have h3 := tendsto_pi_nhds.1 (tendsto_pi_nhds.1 h2 i) j
  have h4 := ((det_tendsto h).inv₀ hX).mul h3
  simp only [Matrix.inv_def, Ring.inverse_eq_inv', Matrix.smul_apply, smul_eq_mul]
  exact h4

/-! ### errors of the order of the accuracy -/

open scoped Matrix.Norms.Frobenius

theorem norm_le_entries {r c : ℕ} (M : Matrix (Fin r) (Fin c) ℂ) : ‖M‖ ≤ ∑ q : Fin r × Fin c, ‖M q.1 q.2‖ := by
  rw [← frob_eq, frob, ← Fintype.sum_prod_type' (fun i j => ‖M i j‖ ^ 2)]
  refine Real.sqrt_le_iff.2 ⟨Finset.sum_nonneg (fun _ _ => norm_nonneg _), ?_⟩
  rw [sq, Finset.sum_mul]
  refine Finset.sum_le_sum (fun q hq => ?_)
  rw [sq]
  exact mul_le_mul_of_nonneg_left (Finset.single_le_sum (f := fun q : Fin r × Fin c => ‖M q.1 q.2‖)
    (fun _ _ => norm_nonneg _) hq) (norm_nonneg _)

theorem entry_le_norm {r c : ℕ} (M : Matrix (Fin r) (Fin c) ℂ) (i : Fin r) (j : Fin c) : ‖M i j‖ ≤ ‖M‖ := by
  rw [← frob_eq]; exact entry_le_frob M i j

section
variable {ι : Type} {l : Filter ι} {e g : ι → ℝ}

theorem bigO_matrix {r c : ℕ} {f : ι → Matrix (Fin r) (Fin c) ℂ} (h : ∀ i j, (fun x => f x i j) =O[l] e) : f =O[l] e := by
  have h1 : (fun x => ∑ q : Fin r × Fin c, ‖f x q.1 q.2‖) =O[l] e :=
    IsBigO.fun_sum (fun q _ => (h q.1 q.2).norm_left)
  refine IsBigO.trans (IsBigO.of_bound 1 (Eventually.of_forall (fun x => ?_))) h1
  rw [one_mul]
  exact (norm_le_entries _).trans (Real.le_norm_self _)

theorem bigO_entry {r c : ℕ} {f : ι → Matrix (Fin r) (Fin c) ℂ} (h : f =O[l] e) (i : Fin r) (j : Fin c) :
    (fun x => f x i j) =O[l] e :=
  IsBigO.trans (IsBigO.of_bound 1 (Eventually.of_forall (fun x => by rw [one_mul]; exact entry_le_norm _ i j))) h

theorem bigO_times {r s c : ℕ} {f : ι → Matrix (Fin r) (Fin s) ℂ} {f' : ι → Matrix (Fin s) (Fin c) ℂ} (h : f =O[l] e)
    (h' : f' =O[l] g) : (fun x => f x * f' x) =O[l] fun x => e x * g x := by
  refine IsBigO.trans (IsBigO.of_bound 1 (Eventually.of_forall (fun x => ?_))) (h.norm_left.mul h'.norm_left)
  rw [one_mul, norm_mul, norm_norm, norm_norm]
  exact Matrix.frobenius_norm_mul _ _

variable {E : Type} [NormedAddCommGroup E]

/-- `f` is `x` up to errors of the order of `e` -/
theorem bigO_bounded {f : ι → E} {x : E} (he : Tendsto e l (𝓝 0)) (h : (fun i => f i - x) =O[l] e) :
    f =O[l] (fun _ => (1 : ℝ)) := by
  have h1 : (fun i => f i - x) =O[l] (fun _ => (1 : ℝ)) := h.trans (he.isBigO_one ℝ)
  have h2 : (fun _ : ι => x) =O[l] (fun _ => (1 : ℝ)) := isBigO_const_const x one_ne_zero l
  exact (h1.add h2).congr_left (fun _ => sub_add_cancel _ _)

theorem bigO_tendsto {f : ι → E} {x : E} (he : Tendsto e l (𝓝 0)) (h : (fun i => f i - x) =O[l] e) :
    Tendsto f l (𝓝 x) := by
  have h1 := h.trans_tendsto he
  simpa using h1.add_const x

theorem bigO_add {f f' : ι → E} {x : E} (h : (fun i => f i - f' i) =O[l] e) (h' : (fun i => f' i - x) =O[l] e) :
    (fun i => f i - x) =O[l] e :=
  (h.add h').congr_left (fun _ => sub_add_sub_cancel _ _ _)

theorem bigO_product {r s c : ℕ} {f : ι → Matrix (Fin r) (Fin s) ℂ} {f' : ι → Matrix (Fin s) (Fin c) ℂ}
    {A : Matrix (Fin r) (Fin s) ℂ} {A' : Matrix (Fin s) (Fin c) ℂ} (he : Tendsto e l (𝓝 0))
    (h : (fun i => f i - A) =O[l] e) (h' : (fun i => f' i - A') =O[l] e) :
    (fun i => f i * f' i - A * A') =O[l] e := by
  have h1 := bigO_times h (bigO_bounded he h')
  have h2 := bigO_times (isBigO_const_const A (one_ne_zero (α := ℝ)) l) h'
  simp only [mul_one, one_mul] at h1 h2
  refine (h1.add h2).congr_left (fun i => ?_)
  rw [Matrix.sub_mul, Matrix.mul_sub]
  abel

end

/-! ### machines -/

/-- all that works together in `DenseSolver.solve`, with accuracy `u` -/
structure Device where
  u : ℝ
  fl : ℕ → ℂ → ℂ
  pw : ℂ → ℝ → ℂ
  cs : ℝ → ℝ
  ex : ℝ → ℂ
  arith : Arithmetic u u fl pw cs ex
  M : Fpu ℂ
  hM : FpuTo u M
  rnd : ℂ → ℂ
  hrnd : Rounds u u rnd
  L : DenseLib ℂ
  hL : LibTo u L

/-- machines of growing accuracy -/
def fine : Filter Device := comap Device.u (𝓝 0)

theorem fine_tendsto : Tendsto Device.u fine (𝓝 0) := tendsto_comap

theorem fine_iff {P : Device → Prop} : (∀ᶠ i in fine, P i) ↔ ∃ u0 > 0, ∀ i : Device, i.u ≤ u0 → P i := by
  rw [fine, Filter.eventually_comap, Metric.eventually_nhds_iff]
  constructor
  · rintro ⟨ε, h1, h2⟩
    refine ⟨ε / 2, half_pos h1, fun i hi => h2 ?_ i rfl⟩
    rw [Real.dist_0_eq_abs, abs_of_nonneg i.arith.unit.1]
    linarith
  · rintro ⟨u0, h1, h2⟩
    refine ⟨u0, h1, fun y hy i hi => h2 i ?_⟩
    subst hi
    rw [Real.dist_0_eq_abs] at hy
    exact (le_abs_self _).trans hy.le

/-- a computation that succeeds on accurate machines, with an error of the order of the accuracy -/
def Computes {E : Type} [NormedAddCommGroup E] (f : Device → Py E) (x : E) : Prop :=
  ∃ g : Device → E, (∀ᶠ i in fine, f i = .ok (g i)) ∧ (fun i => g i - x) =O[fine] Device.u

theorem computes_matmul {r s c : ℕ} {f : Device → Matrix (Fin r) (Fin s) ℂ} {f' : Device → Matrix (Fin s) (Fin c) ℂ}
    {A : Matrix (Fin r) (Fin s) ℂ} {A' : Matrix (Fin s) (Fin c) ℂ}
    (h : (fun i => f i - A) =O[fine] Device.u) (h' : (fun i => f' i - A') =O[fine] Device.u) :
    (fun i => i.L.matmul (f i) (f' i) - A * A') =O[fine] Device.u := by
  refine bigO_add (f' := fun i => f i * f' i) (bigO_matrix (fun a b => ?_)) (bigO_product fine_tendsto h h')
  have hb := bigO_bounded fine_tendsto h
  have hb' := bigO_bounded fine_tendsto h'
  have h1 : (fun i : Device => ∑ k, ‖f i a k‖ * ‖f' i k b‖) =O[fine] (fun _ => (1 : ℝ)) := by
    refine IsBigO.fun_sum (fun k _ => ?_)
    have := (bigO_entry hb a k).norm_left.mul (bigO_entry hb' k b).norm_left
    simpa using this
  have h2 : (fun i : Device => i.u * (∑ k, ‖f i a k‖ * ‖f' i k b‖) + i.u) =O[fine] Device.u := by
    have := ((isBigO_refl Device.u fine).mul h1).add ((isBigO_refl Device.u fine).mul (isBigO_refl (fun _ => (1 : ℝ)) fine))
    simpa using this
  refine IsBigO.trans (IsBigO.of_bound 1 (Eventually.of_forall (fun i => ?_))) h2
  rw [one_mul]
  exact (i.hL.matmul (f i) (f' i) a b).trans (Real.le_norm_self _)

theorem computes_sub {f f' : Device → ℂ} {a b : ℂ} (h : (fun i => f i - a) =O[fine] Device.u)
    (h' : (fun i => f' i - b) =O[fine] Device.u) : (fun i => i.L.sub (f i) (f' i) - (a - b)) =O[fine] Device.u := by
  have h0 : (fun i => (f i - f' i) - (a - b)) =O[fine] Device.u :=
    (h.sub h').congr_left (fun i => by ring)
  refine bigO_add (f' := fun i => f i - f' i) ?_ h0
  have h1 := (isBigO_refl Device.u fine).mul (bigO_bounded fine_tendsto h0).norm_left
  simp only [mul_one] at h1
  refine IsBigO.trans (IsBigO.of_bound 1 (Eventually.of_forall (fun i => ?_))) h1
  rw [one_mul]
  exact (i.hL.sub _ _).trans (Real.le_norm_self _)

theorem computes_solve {r c : ℕ} {f : Device → Matrix (Fin r) (Fin r) ℂ} {g : Device → Matrix (Fin r) (Fin c) ℂ}
    {X : Matrix (Fin r) (Fin r) ℂ} {A : Matrix (Fin r) (Fin c) ℂ} (hX : X.det ≠ 0)
    (h : (fun i => f i - X) =O[fine] Device.u) (h' : (fun i => g i - A) =O[fine] Device.u) :
    Computes (fun i => i.L.solve (f i) (g i)) (X⁻¹ * A) := by
  have hent : ∀ a b, Tendsto (fun i => f i a b) fine (𝓝 (X a b)) := fun a b =>
    bigO_tendsto fine_tendsto (by simpa using bigO_entry h a b)
  have hdet := (det_tendsto hent).eventually_ne hX
  have hinv : (fun i => (f i)⁻¹) =O[fine] (fun _ => (1 : ℝ)) :=
    bigO_matrix (fun a b => (inv_tendsto hent hX a b).isBigO_one ℝ)
  have hf := bigO_bounded fine_tendsto h
  have hg := bigO_bounded fine_tendsto h'
  have hcond : Tendsto (fun i : Device => i.u * (‖f i‖ * ‖(f i)⁻¹‖)) fine (𝓝 0) := by
    have := (isBigO_refl Device.u fine).mul (hf.norm_left.mul hinv.norm_left)
    simp only [mul_one] at this
    exact this.trans_tendsto fine_tendsto
  have hsmall : ∀ᶠ i in fine, i.u * (‖f i‖ * ‖(f i)⁻¹‖) < 1 / 2 :=
    hcond.eventually_lt_const (by norm_num)
  have hex : ∀ᶠ i in fine, ∃ Y, i.L.solve (f i) (g i) = .ok Y ∧
      ‖f i * Y - g i‖ ≤ i.u * (‖f i‖ * ‖Y‖ + ‖g i‖) ∧ ‖Y‖ ≤ 2 * (‖(f i)⁻¹‖ * ((1 + i.u) * ‖g i‖)) := by
    filter_upwards [hdet, hsmall] with i h1 h2
    obtain ⟨Y, k1, k2⟩ := i.hL.solve (f i) (g i) h1 (by rw [frob_eq, frob_eq]; linarith)
    simp only [frob_eq] at k2
    refine ⟨Y, k1, k2, ?_⟩
    have hu := i.arith.unit.1
    have e1 : Y = (f i)⁻¹ * (g i + (f i * Y - g i)) := by
      rw [add_sub_cancel, ← Matrix.mul_assoc, Matrix.nonsing_inv_mul _ (isUnit_iff_ne_zero.2 h1), Matrix.one_mul]
    have e2 : ‖Y‖ ≤ ‖(f i)⁻¹‖ * (‖g i‖ + i.u * (‖f i‖ * ‖Y‖ + ‖g i‖)) := by
      conv_lhs => rw [e1]
      exact (Matrix.frobenius_norm_mul _ _).trans (mul_le_mul_of_nonneg_left ((norm_add_le _ _).trans
        (add_le_add le_rfl k2)) (norm_nonneg _))
    have e3 : i.u * (‖f i‖ * ‖(f i)⁻¹‖) * ‖Y‖ ≤ 1 / 2 * ‖Y‖ := mul_le_mul_of_nonneg_right h2.le (norm_nonneg _)
    linarith
  classical
  let Z : Device → Matrix (Fin r) (Fin c) ℂ := fun i =>
    if h : ∃ Y, i.L.solve (f i) (g i) = .ok Y ∧
      ‖f i * Y - g i‖ ≤ i.u * (‖f i‖ * ‖Y‖ + ‖g i‖) ∧ ‖Y‖ ≤ 2 * (‖(f i)⁻¹‖ * ((1 + i.u) * ‖g i‖)) then h.choose else 0
  have hZ : ∀ᶠ i in fine, i.L.solve (f i) (g i) = .ok (Z i) ∧
      ‖f i * Z i - g i‖ ≤ i.u * (‖f i‖ * ‖Z i‖ + ‖g i‖) ∧ ‖Z i‖ ≤ 2 * (‖(f i)⁻¹‖ * ((1 + i.u) * ‖g i‖)) := by
    filter_upwards [hex] with i hi
    have : Z i = hi.choose := dif_pos hi
    rw [this]
    exact hi.choose_spec
  refine ⟨Z, hZ.mono (fun i hi => hi.1), ?_⟩
  have hZb : Z =O[fine] (fun _ => (1 : ℝ)) := by
    have h1 : (fun i : Device => 2 * (‖(f i)⁻¹‖ * ((1 + i.u) * ‖g i‖))) =O[fine] (fun _ => (1 : ℝ)) := by
      have hu1 : (fun i : Device => 1 + i.u) =O[fine] (fun _ => (1 : ℝ)) :=
        (tendsto_const_nhds.add fine_tendsto).isBigO_one ℝ
      have := (hinv.norm_left.mul (hu1.mul hg.norm_left)).const_mul_left 2
      simpa using this
    refine IsBigO.trans (IsBigO.of_bound 1 ?_) h1
    filter_upwards [hZ] with i hi
    rw [one_mul]
    exact hi.2.2.trans (Real.le_norm_self _)
  have hres : (fun i => f i * Z i - g i) =O[fine] Device.u := by
    have h1 := (isBigO_refl Device.u fine).mul ((hf.norm_left.mul hZb.norm_left).add
      (hg.norm_left.mul (isBigO_refl (fun _ => (1 : ℝ)) fine)))
    simp only [mul_one] at h1
    refine IsBigO.trans (IsBigO.of_bound 1 ?_) h1
    filter_upwards [hZ] with i hi
    rw [one_mul]
    exact hi.2.1.trans (Real.le_norm_self _)
  have h1 := bigO_times h hZb
  simp only [mul_one] at h1
  have h2 := bigO_times (isBigO_const_const X⁻¹ (one_ne_zero (α := ℝ)) fine) ((hres.sub h1).add h')
  simp only [one_mul] at h2
  refine h2.congr_left (fun i => ?_)
  have : f i * Z i - g i - (f i - X) * Z i + (g i - A) = X * Z i - A := by
    rw [Matrix.sub_mul]; abel
  rw [this, Matrix.mul_sub, ← Matrix.mul_assoc, Matrix.nonsing_inv_mul _ (isUnit_iff_ne_zero.2 hX), Matrix.one_mul]

/-- the last line: quotient and rounding -/
theorem computes_quotient {f g : Device → ℂ} {d a : ℂ} (hd : d ≠ 0) (h : (fun i => f i - d) =O[fine] Device.u)
    (h' : (fun i => g i - a) =O[fine] Device.u) :
    ∃ w : Device → ℂ, (∀ᶠ i in fine, f i ≠ 0 ∧ i.rnd (i.L.div (g i) (f i)) = w i) ∧
      (fun i => w i - a / d) =O[fine] Device.u := by
  have hne : ∀ᶠ i in fine, f i ≠ 0 := (bigO_tendsto fine_tendsto h).eventually_ne hd
  refine ⟨fun i => i.rnd (i.L.div (g i) (f i)), hne.mono (fun i hi => ⟨hi, rfl⟩), ?_⟩
  have hinv : (fun i => (f i)⁻¹) =O[fine] (fun _ => (1 : ℝ)) :=
    ((bigO_tendsto fine_tendsto h).inv₀ hd).isBigO_one ℝ
  have hq : (fun i => g i / f i - a / d) =O[fine] Device.u := by
    have h1 : (fun i => ((g i - a) - a / d * (f i - d)) * (f i)⁻¹) =O[fine] Device.u := by
      have := (h'.sub (h.const_mul_left (a / d))).mul hinv
      simpa using this
    refine h1.congr' ?_ EventuallyEq.rfl
    filter_upwards [hne] with i hi
    field_simp
    ring
  have hdiv : (fun i => i.L.div (g i) (f i) - a / d) =O[fine] Device.u := by
    refine bigO_add (f' := fun i => g i / f i) ?_ hq
    have h1 := (isBigO_refl Device.u fine).mul (bigO_bounded fine_tendsto hq).norm_left
    simp only [mul_one] at h1
    refine IsBigO.trans (IsBigO.of_bound 1 ?_) h1
    filter_upwards [hne] with i hi
    rw [one_mul]
    exact (i.hL.div _ _ hi).trans (Real.le_norm_self _)
  refine bigO_add (f' := fun i => i.L.div (g i) (f i)) ?_ hdiv
  have h1 : (fun i : Device => i.u * ‖i.L.div (g i) (f i)‖ + i.u) =O[fine] Device.u := by
    have := ((isBigO_refl Device.u fine).mul (bigO_bounded fine_tendsto hdiv).norm_left)
    simp only [mul_one] at this
    exact this.add (isBigO_refl Device.u fine)
  refine IsBigO.trans (IsBigO.of_bound 1 (Eventually.of_forall (fun i => ?_))) h1
  rw [one_mul]
  exact (i.hrnd.2.2 _).trans (Real.le_norm_self _)

/-! ### the matrices -/

theorem collectM_rel {α β β' : Type} {P : β → β' → Prop} {f : α → Py (Option β)} {f' : α → Py (Option β')} :
    ∀ (xs : List α) (ys : List β),
    (∀ x ∈ xs, ∀ o, f x = .ok o → (o = none ∧ f' x = .ok none) ∨ ∃ y y', o = some y ∧ f' x = .ok (some y') ∧ P y y') →
    collectM f xs = .ok ys → ∃ ys', collectM f' xs = .ok ys' ∧ List.Forall₂ P ys ys'
  | [], ys, _, h => by cases h; exact ⟨[], rfl, List.Forall₂.nil⟩
  | x :: xs, ys, hg, h => by
    unfold collectM at h
    cases hx : f x with
    | error e => rw [hx] at h; cases h
    | ok o =>
      rw [hx] at h
      cases hr : collectM f xs with
      | error e => simp only [Bind.bind, Except.bind, hr] at h; cases h
      | ok zs =>
        obtain ⟨zs', k1, k2⟩ := collectM_rel xs zs (fun x hx => hg x (List.mem_cons_of_mem _ hx)) hr
        simp only [Bind.bind, Except.bind, hr] at h
        rcases hg x List.mem_cons_self o hx with ⟨rfl, e1⟩ | ⟨y, y', rfl, e1, e2⟩
        · cases h
          exact ⟨zs', by unfold collectM; rw [e1, k1]; rfl, k2⟩
        · cases h
          exact ⟨y' :: zs', by unfold collectM; rw [e1, k1]; rfl, List.Forall₂.cons e2 k2⟩

theorem fillRow_close {γ : ℝ} {M : Fpu ℂ} {F F' : Phys ℝ ℂ} {m : Model ℝ} {p : Point ℝ} {rows : ℕ} {col : Dict PyStr ℕ}
    {n' i : ℕ} {ts : List (Term ℝ)} (hq : ∀ t ∈ ts, ∃ v v', t.coefficient F m p = .ok v ∧
      t.coefficientF M F' m p = .ok v' ∧ ‖v' - v‖ ≤ γ) {T : List (ℕ × ℕ × ℂ)}
    (h : fillRow F m p rows col n' i ts = .ok T) :
    ∃ T', fillRowF M F' m p rows col n' i ts = .ok T' ∧ List.Forall₂ (MateEntry γ) T T' := by
  refine collectM_rel ts T (fun t ht o ho => ?_) h
  obtain ⟨v, v', h1, h2, h3⟩ := hq t ht
  by_cases htot : t.config.total ≠ (n' : Int)
  · rw [if_pos htot] at ho ⊢
    cases ho
    exact Or.inl ⟨rfl, rfl⟩
  · rw [if_neg htot] at ho ⊢
    cases hc : col.get? t.id with
    | none => rw [hc] at ho; cases ho
    | some j =>
      rw [hc] at ho
      simp only at ho ⊢
      split at ho
      · rename_i hij
        rw [if_pos hij]
        rw [h1] at ho
        cases ho
        rw [h2]
        exact Or.inr ⟨_, _, rfl, rfl, rfl, rfl, h3⟩
      · cases ho

theorem fillMatrix_close {γ : ℝ} {M : Fpu ℂ} {F F' : Phys ℝ ℂ} {m : Model ℝ} {p : Point ℝ}
    {basis : Dict ℕ (Dict PyStr ℕ)} {eqs : Dict ℕ (List (Equation ℝ))} {n n' : ℕ}
    (hq : ∀ es, eqs.get? n = some es → ∀ e ∈ es, ∀ t ∈ e.terms, ∃ v v', t.coefficient F m p = .ok v ∧
      t.coefficientF M F' m p = .ok v' ∧ ‖v' - v‖ ≤ γ) {T : List (ℕ × ℕ × ℂ)}
    (h : fillMatrix F m p basis eqs n n' = .ok T) :
    ∃ T', fillMatrixF M F' m p basis eqs n n' = .ok T' ∧ List.Forall₂ (MateEntry γ) T T' := by
  unfold fillMatrix at h
  unfold fillMatrixF
  cases he : eqs.get? n with
  | none => rw [he] at h; cases h
  | some es =>
    cases hrow : basis.get? n with
    | none => rw [he, hrow] at h; cases h
    | some row =>
      cases hcol : basis.get? n' with
      | none => rw [he, hrow, hcol] at h; cases h
      | some col =>
        rw [he, hrow, hcol] at h
        revert h
        simp only
        generalize hcm : collectM _ es = x
        intro h
        cases x with
        | error e => cases h
        | ok ys =>
          cases h
          obtain ⟨ys', k1, k2⟩ := collectM_rel (P := List.Forall₂ (MateEntry γ)) (f' := fun e =>
              match row.get? e.id with
              | none => .error .keyError
              | some i => some <$> fillRowF M F' m p row.length col n' i e.terms) es ys (by
            intro e hes o ho
            cases hi : row.get? e.id with
            | none => rw [hi] at ho; cases ho
            | some i =>
              rw [hi] at ho
              simp only at ho ⊢
              cases hr : fillRow F m p row.length col n' i e.terms with
              | error x => rw [hr] at ho; cases ho
              | ok T =>
                rw [hr] at ho
                cases ho
                obtain ⟨T', j1, j2⟩ := fillRow_close (hq es he e hes) hr
                rw [j1]
                exact Or.inr ⟨_, _, rfl, rfl, j2⟩) hcm
          refine ⟨ys'.flatten, ?_, mate_flatten k2⟩
          exact congrArg (fun x : Py _ => List.flatten <$> x) k1

/-- one element of a matrix -/
theorem fillEntry_close {g : ℝ} (hg : 0 ≤ g) (i j : ℕ) : ∀ (T : List (ℕ × ℕ × ℂ)) (a : ℂ) (c : ℝ), 0 ≤ c →
    ∃ C, 0 ≤ C ∧ ∀ u, 0 ≤ u → u ≤ 1 → ∀ M, FpuTo u M → ∀ rnd, Rounds u u rnd → ∀ T' a',
      List.Forall₂ (MateEntry (u * g)) T T' → ‖a' - a‖ ≤ u * c →
      ‖T'.foldl (fun a t => if t.1 = i ∧ t.2.1 = j then rnd (M.add a t.2.2) else a) a' - (a + cooEntry T i j)‖ ≤ u * C
  | [], a, c, hc => by
    refine ⟨c, hc, ?_⟩
    intro u _ _ M _ rnd _ T' a' h ha
    cases h
    simpa [cooEntry] using ha
  | t :: T, a, c, hc => by
    by_cases ht : t.1 = i ∧ t.2.1 = j
    · obtain ⟨C, hC, hrec⟩ := fillEntry_close hg i j T (a + t.2.2)
        (c + g + (‖a + t.2.2‖ + c + g) + (3 * (‖a + t.2.2‖ + c + g) + 1)) (by positivity)
      refine ⟨C, hC, ?_⟩
      intro u hu hu1 M hM rnd hrnd T' a' h ha
      cases h with
      | @cons _ t' _ T' hx hT =>
        have hpos : t'.1 = i ∧ t'.2.1 = j := ⟨hx.1 ▸ ht.1, hx.2.1 ▸ ht.2⟩
        rw [List.foldl_cons, if_pos hpos, cooEntry_cons, if_pos ht, ← add_assoc]
        refine hrec u hu hu1 M hM rnd hrnd T' _ hT ?_
        have hsum := add_close hM hu ha hx.2.2 (le_refl ‖a + t.2.2‖)
        generalize M.add a' t'.2.2 = s at hsum ⊢
        generalize a + t.2.2 = z at hsum ⊢
        have h1 := hrnd.2.2 s
        have h2 : u * c ≤ c := mul_le_of_le_one_left hc hu1
        have h3 : u * g ≤ g := mul_le_of_le_one_left hg hu1
        have hA : 0 ≤ ‖z‖ + c + g := by positivity
        have h4 : u * (‖z‖ + u * c + u * g) ≤ u * (‖z‖ + c + g) := mul_le_mul_of_nonneg_left (by linarith) hu
        have h5 : u * (‖z‖ + c + g) ≤ ‖z‖ + c + g := mul_le_of_le_one_left hA hu1
        have h6 : ‖s‖ ≤ 3 * (‖z‖ + c + g) := by
          have := norm_le_norm_add_norm_sub' s z
          linarith
        have h7 : ‖rnd s - z‖ ≤ ‖rnd s - s‖ + ‖s - z‖ := by
          have := norm_add_le (rnd s - s) (s - z)
          rwa [sub_add_sub_cancel] at this
        have h8 := mul_le_mul_of_nonneg_left h6 hu
        linarith
    · obtain ⟨C, hC, hrec⟩ := fillEntry_close hg i j T a c hc
      refine ⟨C, hC, ?_⟩
      intro u hu hu1 M hM rnd hrnd T' a' h ha
      cases h with
      | @cons _ t' _ T' hx hT =>
        have hneg : ¬ (t'.1 = i ∧ t'.2.1 = j) := fun hc => ht ⟨hx.1 ▸ hc.1, hx.2.1 ▸ hc.2⟩
        rw [List.foldl_cons, if_neg hneg, cooEntry_cons, if_neg ht, zero_add]
        exact hrec u hu hu1 M hM rnd hrnd T' a' hT ha

/-- the coefficients are accurate -/
def CoefClose (m : Model ℝ) (eqs : Dict ℕ (List (Equation ℝ))) (p : Point ℝ) (g : ℝ) (i : Device) : Prop :=
  ∀ e ∈ allEqs eqs, ∀ t ∈ e.terms, ∃ v v', t.coefficient realPhys m p = .ok v ∧
    t.coefficientF i.M (floatPhys i.fl i.pw i.cs i.ex) m p = .ok v' ∧ ‖v' - v‖ ≤ i.u * g

variable {m : Model ℝ} {eqs : Dict ℕ (List (Equation ℝ))} {p : Point ℝ}

theorem Ready.computes_fill (h : Ready m eqs) {g : ℝ} (hg : 0 ≤ g) (hco : ∀ᶠ i in fine, CoefClose m eqs p g i)
    {n n' : ℕ} (hn : n ≤ m.number.sum.toNat) (hn' : n' ≤ m.number.sum.toNat) (r c : ℕ) :
    ∃ f : Device → Matrix (Fin r) (Fin c) ℂ, (∀ᶠ i in fine, ∃ ts,
        fillMatrixF i.M (floatPhys i.fl i.pw i.cs i.ex) m p (GGCE.localBasis eqs) eqs n n' = .ok ts ∧
        toMatrixF i.M i.rnd r c ts = f i) ∧
      (fun i => f i - toMatrix r c (fillV realPhys m p eqs n n')) =O[fine] Device.u := by
  classical
  have hfill := h.fill_eq realPhys p hn hn'
  have hget : ∀ es, eqs.get? n = some es → ∀ e ∈ es, e ∈ allEqs eqs := by
    intro es hes e he
    have : eqs.vals n = es := by
      have := h.get hn
      rw [hes] at this
      simpa using this.symm
    exact ((h.mem_vals hn).1 (this ▸ he)).1
  have hex : ∀ᶠ i in fine, ∃ ts,
      fillMatrixF i.M (floatPhys i.fl i.pw i.cs i.ex) m p (GGCE.localBasis eqs) eqs n n' = .ok ts ∧
      List.Forall₂ (MateEntry (i.u * g)) (fillV realPhys m p eqs n n') ts := by
    filter_upwards [hco] with i hi
    exact fillMatrix_close (fun es hes e he t ht => hi e (hget es hes e he) t ht) hfill
  let ts : Device → List (ℕ × ℕ × ℂ) := fun i => if h : ∃ ts,
      fillMatrixF i.M (floatPhys i.fl i.pw i.cs i.ex) m p (GGCE.localBasis eqs) eqs n n' = .ok ts ∧
      List.Forall₂ (MateEntry (i.u * g)) (fillV realPhys m p eqs n n') ts then h.choose else []
  have hts : ∀ᶠ i in fine,
      fillMatrixF i.M (floatPhys i.fl i.pw i.cs i.ex) m p (GGCE.localBasis eqs) eqs n n' = .ok (ts i) ∧
      List.Forall₂ (MateEntry (i.u * g)) (fillV realPhys m p eqs n n') (ts i) := by
    filter_upwards [hex] with i hi
    have : ts i = hi.choose := dif_pos hi
    rw [this]
    exact hi.choose_spec
  refine ⟨fun i => toMatrixF i.M i.rnd r c (ts i), hts.mono (fun i hi => ⟨ts i, hi.1, rfl⟩), bigO_matrix (fun a b => ?_)⟩
  obtain ⟨C, hC, hrec⟩ := fillEntry_close hg a b (fillV realPhys m p eqs n n') 0 0 le_rfl
  refine IsBigO.of_bound C ?_
  filter_upwards [hts] with i hi
  have hu := i.arith.unit
  have := hrec i.u hu.1 (by linarith [hu.2]) i.M i.hM i.rnd i.hrnd (ts i) 0 hi.2 (by simp)
  rw [zero_add, mul_comm] at this
  rw [Real.norm_of_nonneg hu.1]
  exact this

theorem Ready.computes_R (h : Ready m eqs) {g : ℝ} (hg : 0 ≤ g) (hco : ∀ᶠ i in fine, CoefClose m eqs p g i) :
    ∀ (s n : ℕ), n + s + 1 ≤ m.number.sum.toNat → ∀ Q,
      fraction (alphaM realPhys m p eqs) (betaM realPhys m p eqs) s n = .ok Q →
      Computes (fun i => denseRF i.L i.M i.rnd (floatPhys i.fl i.pw i.cs i.ex) m p (GGCE.localBasis eqs) eqs s n) Q
  | 0, n, hs, Q, hQ => by
    obtain ⟨f, h1, h2⟩ := h.computes_fill hg hco (n := n + 1) (n' := n) (by omega) (by omega)
      (GGCE.blockDim (GGCE.localBasis eqs) (n + 1)) (GGCE.blockDim (GGCE.localBasis eqs) n)
    cases hQ
    refine ⟨f, ?_, h2⟩
    filter_upwards [h1] with i hi
    obtain ⟨ts, k1, k2⟩ := hi
    rw [denseRF, k1, ← k2]
    rfl
  | s + 1, n, hs, Q, hQ => by
    obtain ⟨R', r1, r2, rfl⟩ := fraction_succ hQ
    obtain ⟨q, q1, q2⟩ := Ready.computes_R h hg hco s (n + 1) (by omega) R' r1
    obtain ⟨f, h1, h2⟩ := h.computes_fill hg hco (n := n + 1) (n' := n) (by omega) (by omega)
      (GGCE.blockDim (GGCE.localBasis eqs) (n + 1)) (GGCE.blockDim (GGCE.localBasis eqs) n)
    obtain ⟨f', h1', h2'⟩ := h.computes_fill hg hco (n := n + 1) (n' := n + 2) (by omega) (by omega)
      (GGCE.blockDim (GGCE.localBasis eqs) (n + 1)) (GGCE.blockDim (GGCE.localBasis eqs) (n + 2))
    obtain ⟨X, hXd⟩ : ∃ X : Device → Matrix (Fin (GGCE.blockDim (GGCE.localBasis eqs) (n + 1)))
        (Fin (GGCE.blockDim (GGCE.localBasis eqs) (n + 1))) ℂ, X = fun i a b =>
          i.L.sub ((1 : Matrix _ _ ℂ) a b) (i.L.matmul (f' i) (q i) a b) := ⟨_, rfl⟩
    have hX : (fun i => X i - (1 - betaM realPhys m p eqs (n + 1) * R')) =O[fine] Device.u := by
      subst hXd
      refine bigO_matrix (fun a b => ?_)
      refine computes_sub (f := fun _ => (1 : Matrix _ _ ℂ) a b) ?_ (bigO_entry (computes_matmul h2' q2) a b)
      simpa using isBigO_zero (E' := ℂ) Device.u fine
    obtain ⟨Z, z1, z2⟩ := computes_solve (isUnit_iff_ne_zero.1 r2) hX h2
    refine ⟨Z, ?_, z2⟩
    filter_upwards [h1, h1', q1, z1] with i ⟨ts, k1, k2⟩ ⟨ts', k1', k2'⟩ kq kz
    rw [denseRF, kq, k1, k1']
    simp only [Bind.bind, Except.bind]
    rw [k2, k2']
    rw [hXd] at kz
    exact kz

end GGCE
