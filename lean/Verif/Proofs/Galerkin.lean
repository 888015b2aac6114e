import Verif.Proofs.Weighted
import Verif.Proofs.Hilbert
import Mathlib.Order.Filter.Ultrafilter.Basic
import Mathlib.Topology.Algebra.InfiniteSum.Order

/-!
A Hamiltonian that moves between the points of a set and changes a number by at most one, with weights that grow
like the square root of the number, is determined by its restrictions to subsets: their resolvents converge.
-/

set_option linter.unusedSectionVars false

namespace GGCE
open ComplexConjugate Filter Topology
open scoped InnerProductSpace

/-- A diagonal part and a list of weighted moves -/
structure Hops (ι : Type) where
  S : ι → Prop
  o : ι
  N : ι → ℝ
  E : ι → ℝ
  moves : List ((ι ≃ ι) × (ι → ℂ))

namespace Hops

variable {ι : Type} (Q : Hops ι)

/-- the reverse of a move -/
def rev (μ : (ι ≃ ι) × (ι → ℂ)) : (ι ≃ ι) × (ι → ℂ) := (μ.1.symm, fun n => conj (μ.2 (μ.1.symm n)))

/-- the assumptions -/
structure Ok (e c : ℝ) : Prop where
  base : Q.S Q.o
  baseN : Q.N Q.o = 0
  nonneg : ∀ n, Q.S n → 0 ≤ Q.N n
  diag : ∀ n, Q.S n → |Q.E n| ≤ e * Q.N n
  weight : ∀ μ ∈ Q.moves, ∀ n, Q.S n → Q.S (μ.1 n) → ‖μ.2 n‖ ≤ c * Real.sqrt (Q.N (μ.1 n) + 2)
  step : ∀ μ ∈ Q.moves, ∀ n, Q.S n → Q.S (μ.1 n) → |Q.N (μ.1 n) - Q.N n| ≤ 1
  symm : (Q.moves.map rev).Perm Q.moves
  epos : 0 ≤ e
  cpos : 0 ≤ c

open Classical in
/-- the weight of a move inside `P` -/
noncomputable def inside (P : ι → Prop) (μ : (ι ≃ ι) × (ι → ℂ)) (n : ι) : ℂ := if P n ∧ P (μ.1 n) then μ.2 n else 0

open Classical in
/-- the diagonal part inside `P` -/
noncomputable def diagIn (P : ι → Prop) (n : ι) : ℂ := if P n then (Q.E n : ℂ) else 0

/-- the Hamiltonian restricted to `P` -/
noncomputable def op (P : ι → Prop) : L2 ι →L[ℂ] L2 ι :=
  wcomp (Q.diagIn P) (Equiv.refl _) + (Q.moves.map (fun μ => wcomp (inside P μ) μ.1)).sum

/-- its action -/
noncomputable def act (P : ι → Prop) (f : ι → ℂ) (n : ι) : ℂ :=
  Q.diagIn P n * f n + (Q.moves.map (fun μ => inside P μ n * f (μ.1 n))).sum

/-- a subset to which the Hamiltonian can be restricted -/
structure Sub (P : ι → Prop) (B : ℝ) : Prop where
  sub : ∀ n, P n → Q.S n
  base : P Q.o
  bound : ∀ n, P n → Q.N n ≤ B

variable {Q} {e c : ℝ} {P : ι → Prop} {B : ℝ}

theorem coe_sum {α : Type} (l : List α) (A : α → L2 ι →L[ℂ] L2 ι) (f : L2 ι) (n : ι) :
    ((l.map A).sum f) n = (l.map (fun h => A h f n)).sum := by
  induction l with
  | nil => rfl
  | cons a l ih =>
    simp only [List.map_cons, List.sum_cons]
    rw [← ih]
    rfl

theorem sum_apply {α : Type} (l : List α) (A : α → L2 ι →L[ℂ] L2 ι) (f : L2 ι) :
    (l.map A).sum f = (l.map (fun h => A h f)).sum := by
  induction l with
  | nil => rfl
  | cons a l ih =>
    simp only [List.map_cons, List.sum_cons]
    rw [← ih]
    rfl

theorem Sub.pos (hQ : Q.Ok e c) (hP : Q.Sub P B) : 0 ≤ B := by
  have := hP.bound _ hP.base
  rw [hQ.baseN] at this
  exact this

theorem diagIn_bound (hQ : Q.Ok e c) (hP : Q.Sub P B) (n : ι) : ‖Q.diagIn P n‖ ≤ e * B := by
  unfold diagIn
  split
  · rename_i h
    rw [Complex.norm_real, Real.norm_eq_abs]
    exact (hQ.diag n (hP.sub n h)).trans (mul_le_mul_of_nonneg_left (hP.bound n h) hQ.epos)
  · rw [norm_zero]; exact mul_nonneg hQ.epos (hP.pos hQ)

theorem inside_bound (hQ : Q.Ok e c) (hP : Q.Sub P B) {μ} (hμ : μ ∈ Q.moves) (n : ι) :
    ‖inside P μ n‖ ≤ c * Real.sqrt (B + 2) := by
  unfold inside
  split
  · rename_i h
    refine (hQ.weight μ hμ n (hP.sub _ h.1) (hP.sub _ h.2)).trans (mul_le_mul_of_nonneg_left ?_ hQ.cpos)
    exact Real.sqrt_le_sqrt (by linarith [hP.bound _ h.2])
  · rw [norm_zero]; exact mul_nonneg hQ.cpos (Real.sqrt_nonneg _)

theorem op_apply (hQ : Q.Ok e c) (hP : Q.Sub P B) (f : L2 ι) (n : ι) : Q.op P f n = Q.act P f n := by
  show wcomp (Q.diagIn P) (Equiv.refl _) f n + ((Q.moves.map (fun μ => wcomp (inside P μ) μ.1)).sum f) n = _
  rw [coe_sum, wcomp_apply (diagIn_bound hQ hP)]
  unfold act
  congr 2
  apply List.map_congr_left
  intro μ hμ
  rw [wcomp_apply (inside_bound hQ hP hμ)]

theorem op_selfAdjoint (hQ : Q.Ok e c) (hP : Q.Sub P B) : IsSelfAdjoint (Q.op P) := by
  have hE : star (wcomp (Q.diagIn P) (Equiv.refl _)) = wcomp (Q.diagIn P) (Equiv.refl _) := by
    refine wcomp_adjoint (diagIn_bound hQ hP) (diagIn_bound hQ hP) _ _ (fun _ => rfl) (fun n => ?_)
    show Q.diagIn P n = _
    unfold diagIn
    split
    · rw [Complex.conj_ofReal]
    · rw [map_zero]
  have hT : ∀ μ ∈ Q.moves, star (wcomp (inside P μ) μ.1) = wcomp (inside P (rev μ)) (rev μ).1 := by
    intro μ hμ
    have hμ' : rev μ ∈ Q.moves := hQ.symm.mem_iff.1 (List.mem_map_of_mem hμ)
    refine wcomp_adjoint (inside_bound hQ hP hμ) (inside_bound hQ hP hμ') _ _ (fun n => ?_) (fun n => ?_)
    · exact μ.1.symm_apply_apply n
    · unfold inside rev
      simp only [Equiv.symm_apply_apply]
      by_cases h : P n ∧ P (μ.1 n)
      · rw [if_pos h, if_pos ⟨h.2, by rw [Equiv.symm_apply_apply]; exact h.1⟩]
      · rw [if_neg h, if_neg (fun q => h ⟨by have := q.2; rwa [Equiv.symm_apply_apply] at this, q.1⟩), map_zero]
  have hsum : star (Q.moves.map (fun μ => wcomp (inside P μ) μ.1)).sum =
      (Q.moves.map (fun μ => wcomp (inside P μ) μ.1)).sum := by
    have e1 : star (Q.moves.map (fun μ => wcomp (inside P μ) μ.1)).sum =
        (Q.moves.map (fun μ => star (wcomp (inside P μ) μ.1))).sum := by
      rw [← starAddEquiv_apply, map_list_sum, List.map_map]; rfl
    rw [e1, List.map_congr_left hT]
    have := (hQ.symm.map (fun μ => wcomp (inside P μ) μ.1)).sum_eq
    rw [List.map_map] at this
    exact this
  unfold IsSelfAdjoint op
  rw [star_add, hE, hsum]

/-! ### norms -/

theorem norm_wcomp_le {w s : ι → ℂ} {C C' : ℝ} (hw : ∀ n, ‖w n‖ ≤ C) (hs : ∀ n, ‖s n‖ ≤ C') (τ : ι ≃ ι) {a : ℝ}
    (ha : 0 ≤ a) (h : ∀ n, ‖w n‖ ≤ a * ‖s (τ n)‖) (f : L2 ι) :
    ‖wcomp w τ f‖ ≤ a * ‖wcomp s (Equiv.refl _) f‖ := by
  refine le_of_sq_le_sq ?_ (by positivity)
  rw [mul_pow, L2.norm_sq, L2.norm_sq, ← τ.tsum_eq (fun i => ‖wcomp s (Equiv.refl _) f i‖ ^ 2), ← tsum_mul_left]
  refine (L2.summable _).tsum_le_tsum (fun i => ?_)
    ((τ.summable_iff.2 (L2.summable (wcomp s (Equiv.refl _) f))).mul_left _)
  rw [wcomp_apply hw, wcomp_apply hs, norm_mul, norm_mul, ← mul_pow, ← mul_assoc]
  exact pow_le_pow_left₀ (by positivity) (mul_le_mul_of_nonneg_right (h i) (norm_nonneg _)) 2
where
  le_of_sq_le_sq {a b : ℝ} (h : a ^ 2 ≤ b ^ 2) (hb : 0 ≤ b) : a ≤ b := by nlinarith [abs_le_of_sq_le_sq h hb, le_abs_self a]

theorem norm_sum_le {α : Type} (l : List α) (A : α → L2 ι) {b : ℝ} (h : ∀ x ∈ l, ‖A x‖ ≤ b) :
    ‖(l.map A).sum‖ ≤ l.length * b := by
  induction l with
  | nil => simp
  | cons a l ih =>
    rw [List.map_cons, List.sum_cons, List.length_cons]
    push_cast
    have h1 := h a List.mem_cons_self
    have h2 := ih (fun x hx => h x (List.mem_cons_of_mem _ hx))
    refine (norm_add_le _ _).trans ?_
    linarith

/-! ### the solution on a subset -/

theorem act_off {n : ι} (h : ¬ P n) (f : ι → ℂ) : Q.act P f n = 0 := by
  unfold act diagIn
  rw [if_neg h, zero_mul, zero_add]
  refine List.sum_eq_zero (fun x hx => ?_)
  obtain ⟨μ, -, rfl⟩ := List.mem_map.1 hx
  unfold inside
  rw [if_neg (fun q => h q.1), zero_mul]

theorem motion (hQ : Q.Ok e c) (hP : Q.Sub P B) {z : ℂ} (hz : z.im ≠ 0) (v : L2 ι) (n : ι) :
    z * resolvent (Q.op P) z v n - Q.act P (resolvent (Q.op P) z v) n = v n := by
  have h := resolvent_apply (mem_resolventSet_of_im (op_selfAdjoint hQ hP) hz) v
  have h' := congrArg (fun f : L2 ι => f n) h
  rw [← op_apply hQ hP]
  exact h'

theorem off (hQ : Q.Ok e c) (hP : Q.Sub P B) {z : ℂ} (hz : z.im ≠ 0) {v : L2 ι}
    (hv : ∀ n, n ≠ Q.o → v n = 0) {n : ι} (h : ¬ P n) : resolvent (Q.op P) z v n = 0 := by
  have h1 := motion hQ hP hz v n
  rw [act_off h, hv n (fun q => h (q ▸ hP.base)), sub_zero] at h1
  refine (mul_eq_zero.1 h1).resolve_left (fun q => hz (by rw [q]; rfl))

open Classical in
/-- the number, inside `P` -/
noncomputable def numIn (Q : Hops ι) (P : ι → Prop) (n : ι) : ℂ := if P n then (Q.N n : ℂ) else 0

open Classical in
/-- the square root of the number plus two, inside `P` -/
noncomputable def rootIn (Q : Hops ι) (P : ι → Prop) (n : ι) : ℂ := if P n then (Real.sqrt (Q.N n + 2) : ℂ) else 0

theorem numIn_bound (hQ : Q.Ok e c) (hP : Q.Sub P B) (n : ι) : ‖Q.numIn P n‖ ≤ B := by
  unfold numIn
  split
  · rename_i h
    rw [Complex.norm_real, Real.norm_of_nonneg (hQ.nonneg n (hP.sub n h))]
    exact hP.bound n h
  · rw [norm_zero]; exact hP.pos hQ

theorem rootIn_bound (hP : Q.Sub P B) (n : ι) : ‖Q.rootIn P n‖ ≤ Real.sqrt (B + 2) := by
  unfold rootIn
  split
  · rename_i h
    rw [Complex.norm_real, Real.norm_of_nonneg (Real.sqrt_nonneg _)]
    exact Real.sqrt_le_sqrt (by linarith [hP.bound n h])
  · rw [norm_zero]; exact Real.sqrt_nonneg _

/-- how a move changes the number -/
noncomputable def kernel (Q : Hops ι) (P : ι → Prop) (μ : (ι ≃ ι) × (ι → ℂ)) (n : ι) : ℂ :=
  inside P μ n * ((Q.N (μ.1 n) - Q.N n : ℝ) : ℂ)

theorem kernel_le (hQ : Q.Ok e c) (hP : Q.Sub P B) {μ} (hμ : μ ∈ Q.moves) (n : ι) :
    ‖Q.kernel P μ n‖ ≤ c * ‖Q.rootIn P (μ.1 n)‖ := by
  unfold kernel inside rootIn
  by_cases h : P n ∧ P (μ.1 n)
  · rw [if_pos h, if_pos h.2, norm_mul, Complex.norm_real, Complex.norm_real, Real.norm_eq_abs,
      Real.norm_of_nonneg (Real.sqrt_nonneg _)]
    have h1 := hQ.weight μ hμ n (hP.sub _ h.1) (hP.sub _ h.2)
    have h2 := hQ.step μ hμ n (hP.sub _ h.1) (hP.sub _ h.2)
    calc ‖μ.2 n‖ * |Q.N (μ.1 n) - Q.N n| ≤ ‖μ.2 n‖ * 1 := mul_le_mul_of_nonneg_left h2 (norm_nonneg _)
      _ ≤ _ := by rw [mul_one]; exact h1
  · rw [if_neg h, zero_mul, norm_zero]
    exact mul_nonneg hQ.cpos (norm_nonneg _)

theorem kernel_bound (hQ : Q.Ok e c) (hP : Q.Sub P B) {μ} (hμ : μ ∈ Q.moves) (n : ι) :
    ‖Q.kernel P μ n‖ ≤ c * Real.sqrt (B + 2) :=
  (kernel_le hQ hP hμ n).trans (mul_le_mul_of_nonneg_left (rootIn_bound hP _) hQ.cpos)

theorem list_sum_sub {α : Type} (l : List α) (f g : α → ℂ) :
    (l.map (fun x => f x - g x)).sum = (l.map f).sum - (l.map g).sum := by
  induction l with
  | nil => simp
  | cons a l ih => simp only [List.map_cons, List.sum_cons, ih]; ring

theorem list_sum_mul {α : Type} (l : List α) (f : α → ℂ) (a : ℂ) :
    (l.map (fun x => a * f x)).sum = a * (l.map f).sum := by
  induction l with
  | nil => simp
  | cons a l ih => simp only [List.map_cons, List.sum_cons, ih]; ring

theorem commutator (hQ : Q.Ok e c) (hP : Q.Sub P B) {z : ℂ} (hz : z.im ≠ 0) {v : L2 ι}
    (hv : ∀ n, n ≠ Q.o → v n = 0) :
    z • wcomp (Q.numIn P) (Equiv.refl _) (resolvent (Q.op P) z v) -
      Q.op P (wcomp (Q.numIn P) (Equiv.refl _) (resolvent (Q.op P) z v)) =
    - (Q.moves.map (fun μ => wcomp (Q.kernel P μ) μ.1 (resolvent (Q.op P) z v))).sum := by
  set u := resolvent (Q.op P) z v with hu
  ext n
  have hm := motion hQ hP hz v n
  rw [← hu] at hm
  show z * wcomp (Q.numIn P) (Equiv.refl _) u n - Q.op P (wcomp (Q.numIn P) (Equiv.refl _) u) n =
    - ((Q.moves.map (fun μ => wcomp (Q.kernel P μ) μ.1 u)).sum n)
  have hk : (Q.moves.map (fun μ => wcomp (Q.kernel P μ) μ.1 u)).sum n =
      (Q.moves.map (fun μ => inside P μ n * (Q.numIn P (μ.1 n) * u (μ.1 n)) -
        Q.numIn P n * (inside P μ n * u (μ.1 n)))).sum := by
    rw [← sum_apply, coe_sum]
    congr 1
    apply List.map_congr_left
    intro μ hμ
    rw [wcomp_apply (kernel_bound hQ hP hμ)]
    unfold kernel inside numIn
    by_cases h : P n ∧ P (μ.1 n)
    · rw [if_pos h, if_pos h.1, if_pos h.2]; push_cast; ring
    · rw [if_neg h]; ring
  have hv0 : Q.numIn P n * v n = 0 := by
    by_cases h : n = Q.o
    · unfold numIn; subst h; rw [hQ.baseN]; split <;> simp
    · rw [hv n h, mul_zero]
  rw [op_apply hQ hP, hk, list_sum_sub, list_sum_mul, wcomp_apply (numIn_bound hQ hP)]
  unfold act at hm ⊢
  have e1 : (Q.moves.map (fun μ => inside P μ n * wcomp (Q.numIn P) (Equiv.refl _) u (μ.1 n))).sum =
      (Q.moves.map (fun μ => inside P μ n * (Q.numIn P (μ.1 n) * u (μ.1 n)))).sum := by
    congr 1
    apply List.map_congr_left
    intro μ _
    rw [wcomp_apply (numIn_bound hQ hP)]
    rfl
  rw [e1, wcomp_apply (numIn_bound hQ hP)]
  simp only [Equiv.refl_apply]
  linear_combination Q.numIn P n * hm + hv0

theorem root_le (hQ : Q.Ok e c) (hP : Q.Sub P B) {δ : ℝ} (hδ : 0 < δ) (u : L2 ι) :
    ‖wcomp (Q.rootIn P) (Equiv.refl _) u‖ ^ 2 ≤
      δ * ‖wcomp (Q.numIn P) (Equiv.refl _) u‖ ^ 2 + (2 + 1 / (4 * δ)) * ‖u‖ ^ 2 := by
  rw [L2.norm_sq, L2.norm_sq, L2.norm_sq, ← tsum_mul_left, ← tsum_mul_left,
    ← ((L2.summable _).mul_left _).tsum_add ((L2.summable _).mul_left _)]
  refine (L2.summable _).tsum_le_tsum (fun i => ?_)
    (((L2.summable _).mul_left _).add ((L2.summable _).mul_left _))
  rw [wcomp_apply (rootIn_bound hP), wcomp_apply (numIn_bound hQ hP)]
  simp only [Equiv.refl_apply]
  rw [norm_mul, norm_mul, mul_pow, mul_pow]
  unfold rootIn numIn
  have hpos : 0 ≤ ‖u i‖ ^ 2 := by positivity
  split
  · rename_i h
    have hn := hQ.nonneg i (hP.sub i h)
    rw [Complex.norm_real, Complex.norm_real, Real.norm_of_nonneg (Real.sqrt_nonneg _), Real.norm_of_nonneg hn,
      Real.sq_sqrt (by linarith), ← mul_assoc, ← add_mul]
    refine mul_le_mul_of_nonneg_right ?_ hpos
    have h1 : Q.N i ≤ δ * Q.N i ^ 2 + 1 / (4 * δ) := by
      have : δ * Q.N i ^ 2 + 1 / (4 * δ) - Q.N i = (2 * δ * Q.N i - 1) ^ 2 / (4 * δ) := by field_simp; ring
      have h2 : 0 ≤ (2 * δ * Q.N i - 1) ^ 2 / (4 * δ) := by positivity
      linarith
    linarith
  · rw [norm_zero]
    have : 0 ≤ (2 + 1 / (4 * δ)) * ‖u i‖ ^ 2 := by positivity
    simpa using this

/-- the sum of the bounds of the moves -/
def kappa (Q : Hops ι) (c : ℝ) : ℝ := Q.moves.length * c

theorem kappa_nonneg (hQ : Q.Ok e c) : 0 ≤ Q.kappa c := mul_nonneg (Nat.cast_nonneg _) hQ.cpos

/-- a bound for the mean square number that does not depend on the subset -/
noncomputable def cap (Q : Hops ι) (c η : ℝ) : ℝ :=
  2 * Q.kappa c ^ 2 * (2 + 1 / (4 * (η ^ 2 / (2 * (Q.kappa c ^ 2 + 1))))) / η ^ 4

theorem number_estimate (hQ : Q.Ok e c) (hP : Q.Sub P B) {z : ℂ} (hz : z.im ≠ 0) {v : L2 ι}
    (hv : ∀ n, n ≠ Q.o → v n = 0) (hv1 : ‖v‖ = 1) :
    ‖wcomp (Q.numIn P) (Equiv.refl _) (resolvent (Q.op P) z v)‖ ^ 2 ≤ Q.cap c |z.im| := by
  have hη : 0 < |z.im| := abs_pos.2 hz
  set u := resolvent (Q.op P) z v with hu
  have h1 := norm_le_of_eq (op_selfAdjoint hQ hP) (commutator hQ hP hz hv)
  rw [← hu, norm_neg] at h1
  have h2 : ‖(Q.moves.map (fun μ => wcomp (Q.kernel P μ) μ.1 u)).sum‖ ≤
      Q.moves.length * (c * ‖wcomp (Q.rootIn P) (Equiv.refl _) u‖) :=
    norm_sum_le _ _ (fun μ hμ => norm_wcomp_le (kernel_bound hQ hP hμ) (rootIn_bound hP) _ hQ.cpos
      (kernel_le hQ hP hμ) u)
  have h3 : ‖u‖ ≤ 1 / |z.im| := by
    have := resolvent_norm_le (op_selfAdjoint hQ hP) hz v
    rwa [hv1] at this
  set η := |z.im| with hη'
  set y := ‖wcomp (Q.numIn P) (Equiv.refl _) u‖ with hy
  set s := ‖wcomp (Q.rootIn P) (Equiv.refl _) u‖ with hs
  have hκ := kappa_nonneg hQ
  set κ := Q.kappa c with hκ'
  have h4 : η * y ≤ κ * s := by
    refine (h1.trans h2).trans (le_of_eq ?_)
    rw [hκ']; unfold kappa; ring
  have hδ : 0 < η ^ 2 / (2 * (κ ^ 2 + 1)) := by positivity
  have h5 := root_le hQ hP hδ u
  rw [← hs, ← hy] at h5
  set δ := η ^ 2 / (2 * (κ ^ 2 + 1)) with hδ'
  have h6 : (η * y) ^ 2 ≤ (κ * s) ^ 2 := pow_le_pow_left₀ (by positivity) h4 2
  have h7 : ‖u‖ ^ 2 ≤ 1 / η ^ 2 := by
    rw [← one_div_pow]; exact pow_le_pow_left₀ (norm_nonneg _) h3 2
  have hA : 0 ≤ 2 + 1 / (4 * δ) := by positivity
  have h8 : (κ * s) ^ 2 ≤ κ ^ 2 * (δ * y ^ 2 + (2 + 1 / (4 * δ)) * (1 / η ^ 2)) := by
    rw [mul_pow]
    refine mul_le_mul_of_nonneg_left (h5.trans ?_) (by positivity)
    have := mul_le_mul_of_nonneg_left h7 hA
    linarith
  have h9 : κ ^ 2 * δ ≤ η ^ 2 / 2 := by
    rw [hδ', mul_div_assoc', div_le_div_iff₀ (by positivity) (by norm_num)]
    nlinarith [sq_nonneg η]
  have h10 : η ^ 2 * y ^ 2 ≤ η ^ 2 / 2 * y ^ 2 + κ ^ 2 * (2 + 1 / (4 * δ)) * (1 / η ^ 2) := by
    have := mul_le_mul_of_nonneg_right h9 (sq_nonneg y)
    nlinarith
  unfold cap
  rw [← hκ', ← hδ', le_div_iff₀ (by positivity)]
  have h11 : η ^ 2 * (η ^ 2 / 2 * y ^ 2) ≤ η ^ 2 * (κ ^ 2 * (2 + 1 / (4 * δ)) * (1 / η ^ 2)) :=
    mul_le_mul_of_nonneg_left (by linarith) (by positivity)
  have h12 : η ^ 2 * (κ ^ 2 * (2 + 1 / (4 * δ)) * (1 / η ^ 2)) = κ ^ 2 * (2 + 1 / (4 * δ)) := by
    field_simp
  rw [h12] at h11
  nlinarith

/-! ### the solution on everything -/

/-- A solution for the whole Hamiltonian, with a finite mean square number -/
structure Exact (Q : Hops ι) (z : ℂ) (v u : L2 ι) : Prop where
  outside : ∀ n, ¬ Q.S n → u n = 0
  number : Summable (fun n => Q.N n ^ 2 * ‖u n‖ ^ 2)
  motion : ∀ n, Q.S n → z * u n - Q.act Q.S u n = v n

open Classical in
/-- what is outside `P` -/
noncomputable def rest (Q : Hops ι) (P : ι → Prop) (u : ι → ℂ) (n : ι) : ℝ := if P n then 0 else (Q.N n + 2) * ‖u n‖ ^ 2

variable {z : ℂ} {v u : L2 ι}

theorem Exact.summable (hQ : Q.Ok e c) (hu : Q.Exact z v u) : Summable (fun n => (Q.N n + 2) * ‖u n‖ ^ 2) := by
  refine (hu.number.add ((L2.summable u).mul_left 3)).of_nonneg_of_le (fun n => ?_) (fun n => ?_)
  · by_cases h : Q.S n
    · have := hQ.nonneg n h
      positivity
    · rw [hu.outside n h]; simp
  · rw [← add_mul]
    refine mul_le_mul_of_nonneg_right ?_ (by positivity)
    nlinarith [sq_nonneg (Q.N n - 1 / 2)]

theorem Exact.rest_nonneg (hQ : Q.Ok e c) (hu : Q.Exact z v u) (P : ι → Prop) (n : ι) : 0 ≤ Q.rest P u n := by
  unfold rest
  split
  · exact le_rfl
  · by_cases h : Q.S n
    · have := hQ.nonneg n h
      positivity
    · rw [hu.outside n h]; simp

theorem Exact.rest_summable (hQ : Q.Ok e c) (hu : Q.Exact z v u) (P : ι → Prop) : Summable (Q.rest P u) := by
  refine (hu.summable hQ).of_nonneg_of_le (hu.rest_nonneg hQ P) (fun n => ?_)
  unfold rest
  split
  · have := hu.rest_nonneg hQ (fun _ => False) n
    unfold rest at this
    rwa [if_neg not_false] at this
  · exact le_rfl

open Classical in
/-- the weight of the moves out of `P` -/
noncomputable def gap (Q : Hops ι) (P : ι → Prop) (μ : (ι ≃ ι) × (ι → ℂ)) (n : ι) : ℂ :=
  if P n ∧ Q.S (μ.1 n) ∧ ¬ P (μ.1 n) then μ.2 n else 0

theorem gap_bound (hQ : Q.Ok e c) (hP : Q.Sub P B) {μ} (hμ : μ ∈ Q.moves) (n : ι) :
    ‖Q.gap P μ n‖ ≤ c * Real.sqrt (B + 1 + 2) := by
  unfold gap
  split
  · rename_i h
    refine (hQ.weight μ hμ n (hP.sub _ h.1) h.2.1).trans (mul_le_mul_of_nonneg_left ?_ hQ.cpos)
    refine Real.sqrt_le_sqrt ?_
    have h1 := (abs_le.1 (hQ.step μ hμ n (hP.sub _ h.1) h.2.1)).2
    linarith [hP.bound _ h.1]
  · rw [norm_zero]; exact mul_nonneg hQ.cpos (Real.sqrt_nonneg _)

theorem gap_norm (hQ : Q.Ok e c) (hP : Q.Sub P B) (hu : Q.Exact z v u) {μ} (hμ : μ ∈ Q.moves) :
    ‖wcomp (Q.gap P μ) μ.1 u‖ ≤ c * Real.sqrt (∑' n, Q.rest P u n) := by
  have hT : 0 ≤ ∑' n, Q.rest P u n := tsum_nonneg (hu.rest_nonneg hQ P)
  refine abs_le_of_sq_le_sq' ?_ (mul_nonneg hQ.cpos (Real.sqrt_nonneg _)) |>.2
  rw [mul_pow, Real.sq_sqrt hT, L2.norm_sq, ← μ.1.tsum_eq (Q.rest P u), ← tsum_mul_left]
  refine (L2.summable _).tsum_le_tsum (fun i => ?_) ((μ.1.summable_iff.2 (hu.rest_summable hQ P)).mul_left _)
  rw [wcomp_apply (gap_bound hQ hP hμ), norm_mul, mul_pow]
  unfold gap
  split
  · rename_i h
    unfold rest
    rw [if_neg h.2.2, ← mul_assoc]
    refine mul_le_mul_of_nonneg_right ?_ (by positivity)
    have h1 := hQ.weight μ hμ i (hP.sub _ h.1) h.2.1
    have h2 := pow_le_pow_left₀ (norm_nonneg _) h1 2
    rwa [mul_pow, Real.sq_sqrt (by linarith [hQ.nonneg _ h.2.1])] at h2
  · rw [norm_zero]
    have := mul_nonneg (sq_nonneg c) (hu.rest_nonneg hQ P (μ.1 i))
    simpa using this

open Classical in
/-- being in `P` -/
noncomputable def ind (P : ι → Prop) (n : ι) : ℂ := if P n then 1 else 0

theorem ind_bound (P : ι → Prop) (n : ι) : ‖ind P n‖ ≤ 1 := by
  unfold ind; split <;> simp

/-- The solution on a subset is close to the solution on everything. -/
theorem close (hQ : Q.Ok e c) (hP : Q.Sub P B) (hz : z.im ≠ 0) (hv : ∀ n, n ≠ Q.o → v n = 0) (hu : Q.Exact z v u) :
    |z.im| * ‖resolvent (Q.op P) z v - wcomp (ind P) (Equiv.refl _) u‖ ≤
      Q.kappa c * Real.sqrt (∑' n, Q.rest P u n) := by
  have key : z • (resolvent (Q.op P) z v - wcomp (ind P) (Equiv.refl _) u) -
      Q.op P (resolvent (Q.op P) z v - wcomp (ind P) (Equiv.refl _) u) =
      - (Q.moves.map (fun μ => wcomp (Q.gap P μ) μ.1 u)).sum := by
    have h1 := resolvent_apply (mem_resolventSet_of_im (op_selfAdjoint hQ hP) hz) v
    have h2 : z • wcomp (ind P) (Equiv.refl _) u - Q.op P (wcomp (ind P) (Equiv.refl _) u) =
        v + (Q.moves.map (fun μ => wcomp (Q.gap P μ) μ.1 u)).sum := by
      ext n
      show z * wcomp (ind P) (Equiv.refl _) u n - Q.op P (wcomp (ind P) (Equiv.refl _) u) n =
        v n + (Q.moves.map (fun μ => wcomp (Q.gap P μ) μ.1 u)).sum n
      have hk : (Q.moves.map (fun μ => wcomp (Q.gap P μ) μ.1 u)).sum n =
          (Q.moves.map (fun μ => Q.gap P μ n * u (μ.1 n))).sum := by
        rw [← sum_apply, coe_sum]
        congr 1
        apply List.map_congr_left
        intro μ hμ
        rw [wcomp_apply (gap_bound hQ hP hμ)]
      rw [op_apply hQ hP, wcomp_apply (ind_bound P), hk]
      by_cases hn : P n
      · have hm := hu.motion n (hP.sub n hn)
        unfold act at hm ⊢
        have e1 : (Q.moves.map (fun μ => inside P μ n * wcomp (ind P) (Equiv.refl _) u (μ.1 n))).sum =
            (Q.moves.map (fun μ => inside Q.S μ n * u (μ.1 n) - Q.gap P μ n * u (μ.1 n))).sum := by
          congr 1
          apply List.map_congr_left
          intro μ _
          rw [wcomp_apply (ind_bound P)]
          simp only [Equiv.refl_apply]
          unfold inside gap ind
          have hS := hP.sub n hn
          by_cases h1 : P (μ.1 n)
          · rw [if_pos ⟨hn, h1⟩, if_pos h1, if_pos ⟨hS, hP.sub _ h1⟩, if_neg (fun q => q.2.2 h1)]; ring
          · rw [if_neg (fun q => h1 q.2), if_neg h1]
            by_cases h2 : Q.S (μ.1 n)
            · rw [if_pos ⟨hS, h2⟩, if_pos ⟨hn, h2, h1⟩]; ring
            · rw [if_neg (fun q => h2 q.2), if_neg (fun q => h2 q.2.1)]; ring
        rw [e1, list_sum_sub, wcomp_apply (ind_bound P)]
        have e2 : Q.diagIn P n = Q.diagIn Q.S n := by unfold diagIn; rw [if_pos hn, if_pos (hP.sub n hn)]
        have e3 : ind P n = 1 := by unfold ind; rw [if_pos hn]
        rw [e2, e3]
        simp only [Equiv.refl_apply]
        linear_combination hm
      · rw [act_off hn, hv n (fun q => hn (q ▸ hP.base))]
        have e1 : (Q.moves.map (fun μ => Q.gap P μ n * u (μ.1 n))).sum = 0 := by
          refine List.sum_eq_zero (fun x hx => ?_)
          obtain ⟨μ, -, rfl⟩ := List.mem_map.1 hx
          unfold gap
          rw [if_neg (fun q => hn q.1), zero_mul]
        have e3 : ind P n = 0 := by unfold ind; rw [if_neg hn]
        rw [e1, e3]; ring
    rw [map_sub, smul_sub, sub_sub_sub_comm, h1, h2]
    abel
  have h1 := norm_le_of_eq (op_selfAdjoint hQ hP) key
  rw [norm_neg] at h1
  refine h1.trans ?_
  unfold kappa
  rw [mul_assoc]
  exact norm_sum_le _ _ (fun μ hμ => gap_norm hQ hP hu hμ)

theorem close_at (hQ : Q.Ok e c) (hP : Q.Sub P B) (hz : z.im ≠ 0) (hv : ∀ n, n ≠ Q.o → v n = 0) (hu : Q.Exact z v u)
    {n : ι} (hn : P n) :
    ‖resolvent (Q.op P) z v n - u n‖ ≤ Q.kappa c * Real.sqrt (∑' n, Q.rest P u n) / |z.im| := by
  rw [le_div_iff₀ (abs_pos.2 hz), mul_comm]
  refine (mul_le_mul_of_nonneg_left ?_ (abs_nonneg _)).trans (close hQ hP hz hv hu)
  have h := lp.norm_apply_le_norm (by norm_num : (2 : ENNReal) ≠ 0)
    (resolvent (Q.op P) z v - wcomp (ind P) (Equiv.refl _) u) n
  have e1 : (resolvent (Q.op P) z v - wcomp (ind P) (Equiv.refl _) u) n = resolvent (Q.op P) z v n - u n := by
    show resolvent (Q.op P) z v n - wcomp (ind P) (Equiv.refl _) u n = _
    rw [wcomp_apply (ind_bound P)]
    unfold ind
    rw [if_pos hn, one_mul]
    rfl
  rwa [e1] at h

/-- It is as close as required once the subset contains a certain finite set. -/
theorem converges (hQ : Q.Ok e c) (hz : z.im ≠ 0) (hv : ∀ n, n ≠ Q.o → v n = 0) (hu : Q.Exact z v u) {ε : ℝ}
    (hε : 0 < ε) : ∃ F : Finset ι, (∀ n ∈ F, Q.S n) ∧ ∀ (P : ι → Prop) (B : ℝ), Q.Sub P B → (∀ n ∈ F, P n) →
      ∀ n, P n → ‖resolvent (Q.op P) z v n - u n‖ ≤ ε := by
  classical
  have hη : 0 < |z.im| := abs_pos.2 hz
  have hκ := kappa_nonneg hQ
  set ε' := (ε * |z.im| / (Q.kappa c + 1)) ^ 2 with hε'
  have hε'0 : 0 < ε' := by positivity
  have ht := tendsto_tsum_compl_atTop_zero (fun n => (Q.N n + 2) * ‖u n‖ ^ 2)
  obtain ⟨F, hF⟩ := ((tendsto_order.1 ht).2 ε' hε'0).exists_forall_of_atTop
  have hF := hF F le_rfl
  refine ⟨F.filter Q.S, fun n hn => (Finset.mem_filter.1 hn).2, fun P B hP hFP n hn => ?_⟩
  have hrest : ∑' n, Q.rest P u n ≤ ε' := by
    refine le_trans ?_ hF.le
    have e1 : ∑' a : { x // x ∉ F }, (Q.N a + 2) * ‖u a‖ ^ 2 =
        ∑' a, ({x | x ∉ F} : Set ι).indicator (fun n => (Q.N n + 2) * ‖u n‖ ^ 2) a :=
      tsum_subtype ({x | x ∉ F} : Set ι) (fun n => (Q.N n + 2) * ‖u n‖ ^ 2)
    rw [e1]
    refine (hu.rest_summable hQ P).tsum_le_tsum (fun i => ?_) ((hu.summable hQ).indicator _)
    unfold rest
    by_cases hi : i ∈ F
    · rw [Set.indicator_of_notMem (by simpa using hi)]
      split
      · exact le_rfl
      · rename_i h
        rw [hu.outside i (fun q => h (hFP i (Finset.mem_filter.2 ⟨hi, q⟩)))]
        simp
    · rw [Set.indicator_of_mem (by simpa using hi)]
      split
      · have := hu.rest_nonneg hQ (fun _ => False) i
        unfold rest at this
        rwa [if_neg not_false] at this
      · exact le_rfl
  refine (close_at hQ hP hz hv hu hn).trans ?_
  rw [div_le_iff₀ hη]
  have h1 : Real.sqrt (∑' n, Q.rest P u n) ≤ ε * |z.im| / (Q.kappa c + 1) := by
    rw [← Real.sqrt_sq (show 0 ≤ ε * |z.im| / (Q.kappa c + 1) by positivity)]
    exact Real.sqrt_le_sqrt hrest
  refine (mul_le_mul_of_nonneg_left h1 hκ).trans ?_
  rw [mul_div_assoc', div_le_iff₀ (by positivity)]
  nlinarith [mul_pos hε hη]

/-- the states with number at most `B` -/
def upto (Q : Hops ι) (B : ℝ) (n : ι) : Prop := Q.S n ∧ Q.N n ≤ B

theorem upto_sub (hQ : Q.Ok e c) {B : ℝ} (hB : 0 ≤ B) : Q.Sub (Q.upto B) B :=
  ⟨fun _ h => h.1, ⟨hQ.base, by rw [hQ.baseN]; exact hB⟩, fun _ h => h.2⟩

theorem exact_unique (hQ : Q.Ok e c) (hz : z.im ≠ 0) (hv : ∀ n, n ≠ Q.o → v n = 0) {u u' : L2 ι}
    (hu : Q.Exact z v u) (hu' : Q.Exact z v u') : u = u' := by
  ext n
  by_cases hn : Q.S n
  · by_contra hne
    have hpos : 0 < ‖u n - u' n‖ := norm_pos_iff.2 (sub_ne_zero.2 hne)
    obtain ⟨F, hFS, hF⟩ := converges hQ hz hv hu (show 0 < ‖u n - u' n‖ / 3 by positivity)
    obtain ⟨F', hFS', hF'⟩ := converges hQ hz hv hu' (show 0 < ‖u n - u' n‖ / 3 by positivity)
    obtain ⟨B, hB0, hBn, hBF, hBF'⟩ : ∃ B : ℝ, 0 ≤ B ∧ Q.N n ≤ B ∧ (∀ x ∈ F, Q.N x ≤ B) ∧ ∀ x ∈ F', Q.N x ≤ B := by
      refine ⟨∑ x ∈ F, |Q.N x| + ∑ x ∈ F', |Q.N x| + |Q.N n|, by positivity, ?_, fun x hx => ?_, fun x hx => ?_⟩
      · have h1 : 0 ≤ ∑ x ∈ F, |Q.N x| := Finset.sum_nonneg (fun _ _ => abs_nonneg _)
        have h2 : 0 ≤ ∑ x ∈ F', |Q.N x| := Finset.sum_nonneg (fun _ _ => abs_nonneg _)
        linarith [le_abs_self (Q.N n)]
      · have h1 := Finset.single_le_sum (f := fun x => |Q.N x|) (fun _ _ => abs_nonneg _) hx
        have h2 : 0 ≤ ∑ x ∈ F', |Q.N x| := Finset.sum_nonneg (fun _ _ => abs_nonneg _)
        linarith [le_abs_self (Q.N x), abs_nonneg (Q.N n)]
      · have h1 := Finset.single_le_sum (f := fun x => |Q.N x|) (fun _ _ => abs_nonneg _) hx
        have h2 : 0 ≤ ∑ x ∈ F, |Q.N x| := Finset.sum_nonneg (fun _ _ => abs_nonneg _)
        linarith [le_abs_self (Q.N x), abs_nonneg (Q.N n)]
    have h1 := hF (Q.upto B) B (upto_sub hQ hB0) (fun x hx => ⟨hFS x hx, hBF x hx⟩) n ⟨hn, hBn⟩
    have h2 := hF' (Q.upto B) B (upto_sub hQ hB0) (fun x hx => ⟨hFS' x hx, hBF' x hx⟩) n ⟨hn, hBn⟩
    have h3 : ‖u n - u' n‖ ≤ ‖resolvent (Q.op (Q.upto B)) z v n - u n‖ +
        ‖resolvent (Q.op (Q.upto B)) z v n - u' n‖ := by
      rw [norm_sub_rev _ (u n)]
      refine le_trans (le_of_eq ?_) (norm_add_le _ _)
      congr 1; ring
    linarith
  · rw [hu.outside n hn, hu'.outside n hn]

theorem exists_exact (hQ : Q.Ok e c) (hz : z.im ≠ 0) (hv : ∀ n, n ≠ Q.o → v n = 0) (hv1 : ‖v‖ = 1) :
    ∃ u : L2 ι, Q.Exact z v u := by
  have hη : 0 < |z.im| := abs_pos.2 hz
  have hP : ∀ j : ℕ, Q.Sub (Q.upto j) j := fun j => upto_sub hQ (Nat.cast_nonneg j)
  set U : ℕ → L2 ι := fun j => resolvent (Q.op (Q.upto j)) z v with hU
  have hUn : ∀ j, ‖U j‖ ≤ 1 / |z.im| := fun j => by
    have := resolvent_norm_le (op_selfAdjoint hQ (hP j)) hz v
    rwa [hv1] at this
  -- a limit along an ultrafilter
  have hlim : ∀ n, ∃ a : ℂ, Tendsto (fun j => U j n) (hyperfilter ℕ) (𝓝 a) := by
    intro n
    have hc : IsCompact (Metric.closedBall (0 : ℂ) (1 / |z.im|)) := isCompact_closedBall _ _
    have hm : Metric.closedBall (0 : ℂ) (1 / |z.im|) ∈ ((hyperfilter ℕ).map (fun j => U j n)) := by
      refine Ultrafilter.mem_map.2 (Filter.univ_mem' (fun j => ?_))
      show U j n ∈ Metric.closedBall (0 : ℂ) (1 / |z.im|)
      rw [mem_closedBall_zero_iff]
      exact (lp.norm_apply_le_norm (by norm_num) (U j) n).trans (hUn j)
    obtain ⟨a, -, ha⟩ := hc.ultrafilter_le_nhds' _ hm
    exact ⟨a, ha⟩
  choose a ha using hlim
  have hpi : Tendsto (id fun j => (U j : ι → ℂ)) (hyperfilter ℕ : Filter ℕ) (𝓝 a) := tendsto_pi_nhds.2 ha
  have hbd : Bornology.IsBounded (Set.range U) := by
    rw [isBounded_iff_forall_norm_le]
    exact ⟨1 / |z.im|, fun x ⟨j, hj⟩ => hj ▸ hUn j⟩
  have hmem : Memℓp a 2 := lp.memℓp_of_tendsto hbd hpi
  have hlarge : ∀ b : ℝ, ∀ᶠ j : ℕ in (hyperfilter ℕ : Filter ℕ), b ≤ j := fun b => by
    have h1 : ∀ᶠ j : ℕ in atTop, b ≤ j := tendsto_natCast_atTop_atTop.eventually_ge_atTop b
    exact Nat.hyperfilter_le_atTop h1
  have hout : ∀ n, ¬ Q.S n → a n = 0 := fun n hn => by
    have h1 : ∀ j, U j n = 0 := fun j => off hQ (hP j) hz hv (fun q => hn q.1)
    refine tendsto_nhds_unique (ha n) ?_
    simp only [h1]
    exact tendsto_const_nhds
  refine ⟨⟨a, hmem⟩, hout, ?_, ?_⟩
  · set V : ℕ → L2 ι := fun j => wcomp (Q.numIn (Q.upto j)) (Equiv.refl _) (U j) with hV
    have hVn : ∀ j, ‖V j‖ ^ 2 ≤ Q.cap c |z.im| := fun j => number_estimate hQ (hP j) hz hv hv1
    have hVb : Bornology.IsBounded (Set.range V) := by
      rw [isBounded_iff_forall_norm_le]
      exact ⟨Real.sqrt (Q.cap c |z.im|), fun x ⟨j, hj⟩ => hj ▸ Real.le_sqrt_of_sq_le (hVn j)⟩
    have hVt : Tendsto (id fun j => (V j : ι → ℂ)) (hyperfilter ℕ : Filter ℕ) (𝓝 (fun n => (Q.N n : ℂ) * a n)) := by
      refine tendsto_pi_nhds.2 (fun n => ?_)
      refine Tendsto.congr' ?_ ((ha n).const_mul (Q.N n : ℂ))
      filter_upwards [hlarge (Q.N n)] with j hj
      show _ = V j n
      rw [hV]
      simp only
      rw [wcomp_apply (numIn_bound hQ (hP j))]
      simp only [Equiv.refl_apply]
      unfold numIn
      split
      · rfl
      · rename_i h
        have : U j n = 0 := off hQ (hP j) hz hv h
        rw [this, mul_zero, mul_zero]
    have h1 := memL2_iff.1 (lp.memℓp_of_tendsto hVb hVt)
    refine h1.congr (fun n => ?_)
    rw [norm_mul, mul_pow, Complex.norm_real, Real.norm_eq_abs, sq_abs]
  · intro n hn
    have h1 : ∀ j, z * U j n - Q.act (Q.upto j) (U j) n = v n := fun j => motion hQ (hP j) hz v n
    have h2 : Tendsto (fun j => z * U j n - Q.act (Q.upto j) (U j) n) (hyperfilter ℕ : Filter ℕ)
        (𝓝 (z * a n - Q.act Q.S a n)) := by
      refine ((ha n).const_mul z).sub ?_
      refine Tendsto.congr' (f₁ := fun j => Q.act Q.S (U j) n) ?_ ?_
      · filter_upwards [hlarge (Q.N n + 1)] with j hj
        unfold act
        have hnj : Q.upto j n := ⟨hn, by linarith⟩
        have e1 : Q.diagIn (Q.upto j) n = Q.diagIn Q.S n := by
          unfold diagIn; rw [if_pos hn, if_pos hnj]
        rw [e1]
        congr 2
        apply List.map_congr_left
        intro μ hμ
        unfold inside
        by_cases h : Q.S (μ.1 n)
        · have hs := (abs_le.1 (hQ.step μ hμ n hn h)).2
          rw [if_pos ⟨hn, h⟩, if_pos ⟨hnj, h, by linarith⟩]
        · rw [if_neg (fun q => h q.2), if_neg (fun q => h q.2.1)]
      · unfold act
        refine ((ha n).const_mul _).add ?_
        generalize Q.moves = l
        induction l with
        | nil => simp
        | cons μ l ih =>
          simp only [List.map_cons, List.sum_cons]
          exact ((ha (μ.1 n)).const_mul _).add ih
    simp only [h1] at h2
    exact (tendsto_nhds_unique h2 tendsto_const_nhds)

end Hops
end GGCE
