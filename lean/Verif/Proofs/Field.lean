import Verif.Proofs.Occ
import Verif.Proofs.Spectral

/-! From the equations of motion on the infinite chain to those of the clouds: a resolvent is the same thing
as one amplitude per cloud and distance. -/

set_option linter.unusedSectionVars false

namespace GGCE
open Spec Arr Complex ComplexConjugate

variable {m : Model ℝ} {ae : ℤ} {c : ℤ} {p : Point ℝ}

/-- the sign of a cloud: the code's amplitudes are those of the opposite coupling -/
def sgn (a : Arr) : ℂ := if phonons a % 2 = 0 then 1 else -1

theorem sgn_mul_self (a : Arr) : sgn a * sgn a = 1 := by unfold sgn; split <;> simp

theorem sgn_vac : sgn (vac m) = 1 := by
  have h1 : ∀ k, (List.map List.sum (List.replicate k (List.replicate 1 (0 : ℤ)))).sum = 0 := by
    intro k
    rw [List.map_replicate]
    simp
  have : phonons (vac m) = 0 := h1 m.nTypes
  unfold sgn
  rw [this]; rfl

theorem sgn_link {h : SingleTerm ℝ} {a b : Arr} {γ o : ℤ} (hm : Shaped m ae) (hh : h ∈ m.ham.terms)
    (ha : Node m ae a) (hb : Node m ae b) (hl : Link m h a γ b o) : sgn b = -sgn a := by
  have hr : a.rows.length = m.nTypes := by
    rcases ha with rfl | ha
    · simp [vac, Arr.zeros]
    · exact ha.2.1
  have := phonons_acted ha.wf hb.wf hl.acted (by rw [hr]; exact hm.index h hh)
  have hd : Dag.delta h.dag = 1 ∨ Dag.delta h.dag = -1 := by cases h.dag <;> simp [Dag.delta]
  unfold sgn
  by_cases e : phonons a % 2 = 0
  · rw [if_pos e, if_neg (by omega)]
  · rw [if_neg e, if_pos (by omega)]; simp

theorem ph_neg_mul (m : Model ℝ) (p : Point ℝ) (s : ℤ) : ph m p (-s) * ph m p s = 1 := by
  rw [← ph_add]; simp [ph_zero]

theorem ph_ne_zero (m : Model ℝ) (p : Point ℝ) (s : ℤ) : ph m p s ≠ 0 := Complex.exp_ne_zero _

theorem ph_norm (m : Model ℝ) (p : Point ℝ) (s : ℤ) : ‖ph m p s‖ = 1 := by
  show ‖Complex.exp (I * ((p.k * (m.latticeConstant * ((s : ℝ) / 2)) : ℝ) : ℂ))‖ = 1
  rw [mul_comm]
  exact Complex.norm_exp_ofReal_mul_I _

theorem ph_exp (m : Model ℝ) (p : Point ℝ) (s : ℤ) :
    exp (-(I * (p.k * m.latticeConstant * s))) = ph m p (-(2 * s)) := by
  show _ = Complex.exp _
  congr 1
  push_cast
  ring

/-- acting on a placed cloud: either a transition of the truncated space, or outside -/
theorem link_or (hm : Shaped m ae) {a : Arr} (ha : Node m ae a) (h : SingleTerm ℝ) (s x : ℤ)
    (hs : a = vac m → s = x) :
    (∃ b o, Node m ae b ∧ Link m h a (x - s) b o ∧
      placed b (s + o) = (placed a s).act h.dag h.phononIndex x) ∨
    (¬ Allowed m ae ((placed a s).act h.dag h.phononIndex x) ∧
      ∀ b o, Node m ae b → ¬ Link m h a (x - s) b o) := by
  have rows : ∀ {a : Arr}, Node m ae a → a.rows.length = m.nTypes := by
    intro a ha
    rcases ha with rfl | ha
    · simp [vac, Arr.zeros]
    · exact ha.2.1
  have hact : ∀ b o, Node m ae b → (Acted a h.dag h.phononIndex (x - s) b o ↔
      placed b (s + o) = (placed a s).act h.dag h.phononIndex x) := by
    intro b o hb
    constructor
    · rintro ⟨-, h2⟩
      funext t y
      have := h2 t (y - s)
      show chain b t (y - (s + o)) = chain a t (y - s) + _
      rw [show y - (s + o) = y - s - o by ring, this]
      congr 1
      by_cases e : t = h.phononIndex ∧ y = x
      · rw [if_pos e, if_pos ⟨e.1, by omega⟩]
      · rw [if_neg e, if_neg (fun q => e ⟨q.1, by omega⟩)]
    · intro e
      refine ⟨by rw [rows ha, rows hb], fun t y => ?_⟩
      have : chain b t (y + s - (s + o)) = chain a t (y + s - s) +
          if t = h.phononIndex ∧ y + s = x then Dag.delta h.dag else 0 := congrFun (congrFun e t) (y + s)
      rw [show y + s - (s + o) = y - o by ring, show y + s - s = y by ring] at this
      rw [this]
      congr 1
      by_cases e : t = h.phononIndex ∧ y + s = x
      · rw [if_pos e, if_pos ⟨e.1, by omega⟩]
      · rw [if_neg e, if_neg (fun q => e ⟨q.1, by omega⟩)]
  by_cases hal : Allowed m ae ((placed a s).act h.dag h.phononIndex x)
  · left
    obtain ⟨b, s', hb, e⟩ := exists_placed hm hal
    by_cases hv : b = vac m
    · subst hv
      have hx : x = s := by
        rcases ha with rfl | ha
        · exact (hs rfl).symm
        · obtain ⟨t, ht⟩ := ha.2.2.left
          rw [placed_vac] at e
          have h1 : chain a t (s - s) + (if t = h.phononIndex ∧ s = x then Dag.delta h.dag else 0) = 0 :=
            congrFun (congrFun e t) s
          rw [sub_self] at h1
          by_contra hc
          rw [if_neg (fun q => hc q.2.symm)] at h1
          rw [add_zero] at h1
          exact ht h1
      have e' : placed (vac m) (s + 0) = (placed a s).act h.dag h.phononIndex x := by
        rw [e, placed_vac, placed_vac]
      refine ⟨vac m, 0, hb, ⟨(hact _ _ hb).2 e', fun _ => ⟨by omega, rfl⟩, fun _ => ⟨by omega, rfl⟩⟩, e'⟩
    · have hbt := hb.resolve_left hv
      have e' : placed b (s + (s' - s)) = (placed a s).act h.dag h.phononIndex x := by
        rw [e]; congr 1; ring
      refine ⟨b, s' - s, hb, ⟨(hact _ _ hb).2 e', fun hva => ?_, fun hvb => absurd hvb hv⟩, e'⟩
      have hsx := hs hva
      obtain ⟨t, ht⟩ := hbt.2.2.left
      rw [hva, placed_vac] at e
      have h1 : 0 + (if t = h.phononIndex ∧ s' = x then Dag.delta h.dag else 0) = chain b t (s' - s') :=
        congrFun (congrFun e t) s'
      rw [sub_self] at h1
      have : s' = x := by
        by_contra hc
        rw [if_neg (fun q => hc q.2)] at h1
        exact ht (by rw [← h1]; rfl)
      omega
  · right
    refine ⟨hal, fun b o hb hl => hal ?_⟩
    rw [← (hact b o hb).1 hl.acted]
    exact allowed_placed hm hb

/-- amplitudes of clouds, by twice the distance from the electron to the first site -/
structure FieldEq (m : Model ℝ) (ae : ℤ) (c : ℤ) (p : Point ℝ) (ψ : Arr → ℤ → ℂ) : Prop where
  plane : ∀ d, ψ (vac m) d = ph m p d * ψ (vac m) 0
  bounded : ∀ a, InTruncation m ae a → ∃ C, ∀ j, ‖ψ a (c + 2 * j)‖ ≤ C
  cloud : ∀ a, InTruncation m ae a → ∀ j,
    (p.w + I * p.eta - energy m a) * ψ a (c + 2 * j) +
      m.ham.hopping * (ψ a (c + 2 * (j - 1)) + ψ a (c + 2 * (j + 1))) =
    -(m.ham.terms.map (fun h => ∑ q ∈ links m ae a h,
      if c + 2 * j = h.phi.tw - h.psi.tw - 2 * q.1 then
        (h.coupling : ℂ) * (factor h a q.1 : ℂ) * ph m p (-(2 * q.2.2)) *
          ψ q.2.1 (h.phi.tw - 2 * q.1 + 2 * q.2.2) else 0)).sum
  green : (p.w + I * p.eta + 2 * m.ham.hopping * Real.cos (p.k * m.latticeConstant)) * ψ (vac m) 0 +
    (m.ham.terms.map (fun h => ∑ q ∈ links m ae (vac m) h,
      (h.coupling : ℂ) * ph m p (h.psi.tw - h.phi.tw) * ψ q.2.1 h.phi.tw)).sum = 1

/-- the amplitude of a placed cloud -/
noncomputable def amplitude (m : Model ℝ) (p : Point ℝ) (c : ℤ) (ψ : Arr → ℤ → ℂ) (a : Arr) (s e : ℤ) : ℂ :=
  sgn a * ph m p (-(2 * s + c)) * ψ a (c + 2 * (s - e))

/-- `Ψ` and `ψ` are the same amplitudes -/
structure Same (m : Model ℝ) (ae : ℤ) (c : ℤ) (p : Point ℝ) (ψ : Arr → ℤ → ℂ) (Ψ : Occ → ℤ → ℂ) : Prop where
  inside : ∀ a, Node m ae a → ∀ s e, Ψ (placed a s) e = amplitude m p c ψ a s e
  outside : ∀ n, ¬ Allowed m ae n → ∀ e, Ψ n e = 0
  plane : ∀ d, ψ (vac m) d = ph m p d * ψ (vac m) 0

variable {ψ : Arr → ℤ → ℂ} {Ψ : Occ → ℤ → ℂ}

theorem Same.zero (hs : Same m ae c p ψ Ψ) (e : ℤ) : Ψ 0 e = ph m p (-(2 * e)) * ψ (vac m) 0 := by
  have := hs.inside (vac m) (Or.inl rfl) 0 e
  rw [placed_vac] at this
  rw [this]
  unfold amplitude
  rw [sgn_vac, hs.plane, ← mul_assoc, one_mul, ← ph_add]
  congr 2; ring

/-- the sum over the transitions of a term at one site -/
theorem sum_at {m : Model ℝ} {ae : ℤ} (hm : Shaped m ae) {L : Layout ℝ} (hL : L.Ok m ae) {a : Arr}
    (ha : Node m ae a) {h : SingleTerm ℝ} (hh : h ∈ m.ham.terms) (s x : ℤ) (hs : a = vac m → s = x)
    (v : ℤ → Arr → ℤ → ℂ) (w : Occ → ℂ)
    (hv : ∀ b o, Node m ae b → Link m h a (x - s) b o → v (x - s) b o = w (placed b (s + o)))
    (hw : ∀ n, ¬ Allowed m ae n → w n = 0) :
    (∑ q ∈ links m ae a h, if q.1 = x - s then v q.1 q.2.1 q.2.2 else 0) =
      w ((placed a s).act h.dag h.phononIndex x) := by
  rcases link_or hm ha h s x hs with ⟨b, o, hb, hl, e⟩ | ⟨h1, h2⟩
  · rw [← e, ← hv b o hb hl, Finset.sum_eq_single (x - s, b, o)]
    · rw [if_pos rfl]
    · rintro ⟨γ, b', o'⟩ hq hne
      rw [hL.mem_links hm ha hh] at hq
      simp only at hq ⊢
      split
      · rename_i e1
        subst e1
        obtain ⟨rfl, rfl⟩ := link_unique hq.1 hb hq.2 hl
        exact absurd rfl hne
      · rfl
    · intro hn
      exact absurd ((hL.mem_links hm ha hh _).2 ⟨hb, hl⟩) hn
  · rw [hw _ h1]
    apply Finset.sum_eq_zero
    rintro ⟨γ, b', o'⟩ hq
    rw [hL.mem_links hm ha hh] at hq
    simp only at hq ⊢
    split
    · rename_i e1
      subst e1
      exact absurd hq.2 (h2 _ _ hq.1)
    · rfl

theorem factor_placed (h : SingleTerm ℝ) (a : Arr) (s x : ℤ) :
    occFactor h.dag (placed a s) h.phononIndex x = factor h a (x - s) := by
  unfold occFactor factor
  cases h.dag <;> rfl

/-- one term of the equation of motion of a cloud -/
theorem Same.term_cloud (hsame : Same m ae c p ψ Ψ) (hm : Shaped m ae) {L : Layout ℝ} (hL : L.Ok m ae)
    (hsh : Props.ShiftsOk m c) {a : Arr} (ha : InTruncation m ae a) {h : SingleTerm ℝ}
    (hh : h ∈ m.ham.terms) (s e : ℤ) :
    (h.coupling : ℂ) * (occFactor h.dag (placed a s) h.phononIndex (bosonSite h e) : ℂ) *
      Ψ ((placed a s).act h.dag h.phononIndex (bosonSite h e)) (electronSite h e) =
    -(sgn a * ph m p (-(2 * s + c)) * ∑ q ∈ links m ae a h,
      if c + 2 * (s - e) = h.phi.tw - h.psi.tw - 2 * q.1 then
        (h.coupling : ℂ) * (factor h a q.1 : ℂ) * ph m p (-(2 * q.2.2)) *
          ψ q.2.1 (h.phi.tw - 2 * q.1 + 2 * q.2.2) else 0) := by
  have hv : a ≠ vac m := fun e => total_ne_zero ha (e ▸ vac_total m)
  obtain ⟨p1, p2⟩ := hsh h hh
  have hx : 2 * bosonSite h e = 2 * e - h.psi.tw + h.phi.tw - c := by unfold bosonSite; omega
  have he : 2 * electronSite h e = 2 * e - h.psi.tw := by unfold electronSite; omega
  set x := bosonSite h e
  set e' := electronSite h e
  have hcond : ∀ γ : ℤ, c + 2 * (s - e) = h.phi.tw - h.psi.tw - 2 * γ ↔ γ = x - s := by
    intro γ; omega
  simp only [hcond]
  rw [sum_at hm hL (Or.inr ha) hh s x (fun e => absurd e hv)
    (fun γ b o => (h.coupling : ℂ) * (factor h a γ : ℂ) * ph m p (-(2 * o)) *
          ψ b (h.phi.tw - 2 * γ + 2 * o))
    (fun n => -(sgn a * ph m p (2 * s + c) * (h.coupling : ℂ) * (factor h a (x - s) : ℂ) * Ψ n e'))]
  · rw [factor_placed]
    have h1 := sgn_mul_self a
    have h2 := ph_neg_mul m p (2 * s + c)
    linear_combination (-(h.coupling : ℂ) * (factor h a (x - s) : ℂ) *
      Ψ ((placed a s).act h.dag h.phononIndex x) e') * (h1 * ph m p (-(2 * s + c)) * ph m p (2 * s + c) + h2)
  · intro b o hb hl
    rw [hsame.inside b hb]
    unfold amplitude
    rw [sgn_link hm hh (Or.inr ha) hb hl]
    have h1 := sgn_mul_self a
    have h2 := ph_neg_mul m p (2 * s + c)
    have h3 : ph m p (-(2 * (s + o) + c)) = ph m p (-(2 * s + c)) * ph m p (-(2 * o)) := by
      rw [← ph_add]; congr 1; ring
    rw [h3, show c + 2 * (s + o - e') = h.phi.tw - 2 * (x - s) + 2 * o by omega]
    linear_combination (-(h.coupling : ℂ) * (factor h a (x - s) : ℂ) * ph m p (-(2 * o)) *
      ψ b (h.phi.tw - 2 * (x - s) + 2 * o)) * (h1 * ph m p (-(2 * s + c)) * ph m p (2 * s + c) + h2)
  · intro n hn
    rw [hsame.outside n hn]; ring

/-- one term of the equation of motion of the bare electron -/
theorem Same.term_vac (hsame : Same m ae c p ψ Ψ) (hm : Shaped m ae) {L : Layout ℝ} (hL : L.Ok m ae)
    (hsh : Props.ShiftsOk m c) {h : SingleTerm ℝ} (hh : h ∈ m.ham.terms) (e : ℤ) :
    (h.coupling : ℂ) * (occFactor h.dag 0 h.phononIndex (bosonSite h e) : ℂ) *
      Ψ (Occ.act 0 h.dag h.phononIndex (bosonSite h e)) (electronSite h e) =
    -(ph m p (-(2 * e)) * ∑ q ∈ links m ae (vac m) h,
      (h.coupling : ℂ) * ph m p (h.psi.tw - h.phi.tw) * ψ q.2.1 h.phi.tw) := by
  obtain ⟨p1, p2⟩ := hsh h hh
  have hx : 2 * bosonSite h e = 2 * e - h.psi.tw + h.phi.tw - c := by unfold bosonSite; omega
  have he : 2 * electronSite h e = 2 * e - h.psi.tw := by unfold electronSite; omega
  set x := bosonSite h e
  set e' := electronSite h e
  cases hd : h.dag with
  | minus =>
    rw [links_eq (links_vac_minus hd)]
    simp [occFactor]
  | plus =>
    have hfac : occFactor .plus 0 h.phononIndex x = 1 := rfl
    rw [hfac]
    have hsum : ∑ q ∈ links m ae (vac m) h, (h.coupling : ℂ) * ph m p (h.psi.tw - h.phi.tw) * ψ q.2.1 h.phi.tw =
        ∑ q ∈ links m ae (vac m) h, if q.1 = x - x then
          (h.coupling : ℂ) * ph m p (h.psi.tw - h.phi.tw) * ψ q.2.1 h.phi.tw else 0 := by
      apply Finset.sum_congr rfl
      intro q hq
      have := ((hL.mem_links hm (Or.inl rfl) hh q).1 hq).2.left rfl
      rw [if_pos (by omega)]
    rw [hsum, sum_at hm hL (Or.inl rfl) hh x x (fun _ => rfl)
      (fun γ b o => (h.coupling : ℂ) * ph m p (h.psi.tw - h.phi.tw) * ψ b h.phi.tw)
      (fun n => -(ph m p (2 * e) * (h.coupling : ℂ) * Ψ n e'))]
    · rw [placed_vac, hd]
      have h2 := ph_neg_mul m p (2 * e)
      push_cast
      linear_combination (-(h.coupling : ℂ) * Ψ (Occ.act 0 .plus h.phononIndex x) e') * h2
    · intro b o hb hl
      have ho := (hl.left rfl).2
      rw [hsame.inside b hb]
      unfold amplitude
      rw [sgn_link hm hh (Or.inl rfl) hb hl, sgn_vac, ho]
      have h3 : ph m p (h.psi.tw - h.phi.tw) = ph m p (2 * e) * ph m p (-(2 * (x + 0) + c)) := by
        rw [← ph_add]; congr 1; omega
      rw [h3, show c + 2 * (x + 0 - e') = h.phi.tw by omega]
      ring
    · intro n hn
      rw [hsame.outside n hn]; ring

theorem sum_neg_mul {α : Type} (l : List α) (z : ℂ) (f : α → ℂ) :
    (l.map (fun x => -(z * f x))).sum = -(z * (l.map f).sum) := by
  induction l with
  | nil => simp
  | cons x l ih => simp only [List.map_cons, List.sum_cons, ih]; ring

/-- the equation of motion of a placed cloud is the field equation of the cloud -/
theorem Same.motion_cloud (hsame : Same m ae c p ψ Ψ) (hm : Shaped m ae) {L : Layout ℝ} (hL : L.Ok m ae)
    (hsh : Props.ShiftsOk m c) {a : Arr} (ha : InTruncation m ae a) (s e : ℤ) :
    ((p.w + I * p.eta - occEnergy m (placed a s)) * Ψ (placed a s) e +
      m.ham.hopping * (Ψ (placed a s) (e - 1) + Ψ (placed a s) (e + 1)) -
      (m.ham.terms.map (fun h : SingleTerm ℝ => (h.coupling : ℂ) *
        (occFactor h.dag (placed a s) h.phononIndex (bosonSite h e) : ℂ) *
        Ψ ((placed a s).act h.dag h.phononIndex (bosonSite h e)) (electronSite h e))).sum = 0) ↔
    ((p.w + I * p.eta - energy m a) * ψ a (c + 2 * (s - e)) +
      m.ham.hopping * (ψ a (c + 2 * (s - e - 1)) + ψ a (c + 2 * (s - e + 1))) =
    -(m.ham.terms.map (fun h => ∑ q ∈ links m ae a h,
      if c + 2 * (s - e) = h.phi.tw - h.psi.tw - 2 * q.1 then
        (h.coupling : ℂ) * (factor h a q.1 : ℂ) * ph m p (-(2 * q.2.2)) *
          ψ q.2.1 (h.phi.tw - 2 * q.1 + 2 * q.2.2) else 0)).sum) := by
  rw [energy_placed (Or.inr ha), hsame.inside a (Or.inr ha), hsame.inside a (Or.inr ha),
    hsame.inside a (Or.inr ha),
    List.map_congr_left (fun h hh => hsame.term_cloud hm hL hsh ha hh s e)]
  unfold amplitude
  rw [show s - (e - 1) = s - e + 1 by ring, show s - (e + 1) = s - e - 1 by ring]
  have hz : sgn a * ph m p (-(2 * s + c)) ≠ 0 := by
    refine mul_ne_zero (fun h0 => ?_) (ph_ne_zero _ _ _)
    have := sgn_mul_self a
    rw [h0] at this; simp at this
  have hsum : (m.ham.terms.map (fun h => -(sgn a * ph m p (-(2 * s + c)) * ∑ q ∈ links m ae a h,
      if c + 2 * (s - e) = h.phi.tw - h.psi.tw - 2 * q.1 then
        (h.coupling : ℂ) * (factor h a q.1 : ℂ) * ph m p (-(2 * q.2.2)) *
          ψ q.2.1 (h.phi.tw - 2 * q.1 + 2 * q.2.2) else 0))).sum =
      -(sgn a * ph m p (-(2 * s + c)) * (m.ham.terms.map (fun h => ∑ q ∈ links m ae a h,
      if c + 2 * (s - e) = h.phi.tw - h.psi.tw - 2 * q.1 then
        (h.coupling : ℂ) * (factor h a q.1 : ℂ) * ph m p (-(2 * q.2.2)) *
          ψ q.2.1 (h.phi.tw - 2 * q.1 + 2 * q.2.2) else 0)).sum) := by
    exact sum_neg_mul _ _ _
  rw [hsum]
  constructor
  · intro h
    apply mul_left_cancel₀ hz
    linear_combination h
  · intro h
    linear_combination (sgn a * ph m p (-(2 * s + c))) * h

/-- the equation of motion of the bare electron is the equation of the Green's function -/
theorem Same.motion_vac (hsame : Same m ae c p ψ Ψ) (hm : Shaped m ae) {L : Layout ℝ} (hL : L.Ok m ae)
    (hsh : Props.ShiftsOk m c) (e : ℤ) :
    ((p.w + I * p.eta - occEnergy m 0) * Ψ 0 e + m.ham.hopping * (Ψ 0 (e - 1) + Ψ 0 (e + 1)) -
      (m.ham.terms.map (fun h : SingleTerm ℝ => (h.coupling : ℂ) *
        (occFactor h.dag 0 h.phononIndex (bosonSite h e) : ℂ) *
        Ψ (Occ.act 0 h.dag h.phononIndex (bosonSite h e)) (electronSite h e))).sum =
      exp (-(I * (p.k * m.latticeConstant * e)))) ↔
    ((p.w + I * p.eta + 2 * m.ham.hopping * Real.cos (p.k * m.latticeConstant)) * ψ (vac m) 0 +
      (m.ham.terms.map (fun h => ∑ q ∈ links m ae (vac m) h,
        (h.coupling : ℂ) * ph m p (h.psi.tw - h.phi.tw) * ψ q.2.1 h.phi.tw)).sum = 1) := by
  have hE : occEnergy m 0 = 0 := by
    unfold occEnergy
    apply Finset.sum_eq_zero
    intro t _
    simp
  rw [hE, hsame.zero, hsame.zero, hsame.zero,
    List.map_congr_left (fun h hh => hsame.term_vac hm hL hsh hh e), ph_exp]
  have h1 : ph m p (-(2 * (e - 1))) = ph m p (-(2 * e)) * ph m p 2 := by rw [← ph_add]; congr 1; ring
  have h2 : ph m p (-(2 * (e + 1))) = ph m p (-(2 * e)) * ph m p (-2) := by rw [← ph_add]; congr 1; ring
  have h3 : ph m p 2 + ph m p (-2) = 2 * Real.cos (p.k * m.latticeConstant) := by
    rw [Complex.ofReal_cos, Complex.cos]
    show Complex.exp _ + Complex.exp _ = _
    rw [mul_div_cancel₀ _ (two_ne_zero)]
    congr 2
    · push_cast; ring
    · push_cast; ring
  have hz := ph_ne_zero m p (-(2 * e))
  have hsum : (m.ham.terms.map (fun h => -(ph m p (-(2 * e)) * ∑ q ∈ links m ae (vac m) h,
      (h.coupling : ℂ) * ph m p (h.psi.tw - h.phi.tw) * ψ q.2.1 h.phi.tw))).sum =
      -(ph m p (-(2 * e)) * (m.ham.terms.map (fun h => ∑ q ∈ links m ae (vac m) h,
      (h.coupling : ℂ) * ph m p (h.psi.tw - h.phi.tw) * ψ q.2.1 h.phi.tw)).sum) := by
    exact sum_neg_mul _ _ _
  rw [hsum, h1, h2]
  constructor
  · intro h
    apply mul_left_cancel₀ hz
    simp only [Complex.ofReal_zero, sub_zero] at h
    linear_combination h - (ph m p (-(2 * e)) * m.ham.hopping * ψ (vac m) 0) * h3
  · intro h
    simp only [Complex.ofReal_zero, sub_zero]
    linear_combination ph m p (-(2 * e)) * h + (ph m p (-(2 * e)) * m.ham.hopping * ψ (vac m) 0) * h3

theorem parity_cases (hm : Shaped m ae) (hsh : Props.ShiftsOk m c) : c = 0 ∨ c = 1 := by
  obtain ⟨h, hh, -⟩ := hm.minus
  have := (hsh h hh).2
  omega

/-- field equations give a resolvent -/
theorem FieldEq.resolvent (hF : FieldEq m ae c p ψ) (hm : Shaped m ae) {L : Layout ℝ} (hL : L.Ok m ae)
    (hsh : Props.ShiftsOk m c) : ∃ Ψ, Resolvent m ae p Ψ ∧ Same m ae c p ψ Ψ := by
  classical
  let Ψ : Occ → ℤ → ℂ := fun n e =>
    if h : ∃ q : Arr × ℤ, Node m ae q.1 ∧ n = placed q.1 q.2 then
      amplitude m p c ψ h.choose.1 h.choose.2 e else 0
  have hvac : ∀ s e, amplitude m p c ψ (vac m) s e = ph m p (-(2 * e)) * ψ (vac m) 0 := by
    intro s e
    unfold amplitude
    rw [sgn_vac, hF.plane, ← mul_assoc, one_mul, ← ph_add]
    congr 2; ring
  have hin : ∀ a, Node m ae a → ∀ s e, Ψ (placed a s) e = amplitude m p c ψ a s e := by
    intro a ha s e
    have hex : ∃ q : Arr × ℤ, Node m ae q.1 ∧ placed a s = placed q.1 q.2 := ⟨(a, s), ha, rfl⟩
    show (if h : _ then _ else _) = _
    rw [dif_pos hex]
    obtain ⟨k1, k2⟩ := hex.choose_spec
    generalize hex.choose = q at k1 k2
    rcases ha with rfl | ha
    · rcases k1 with k1 | k1
      · rw [k1, hvac, hvac]
      · rw [placed_vac] at k2
        exact absurd k2.symm (placed_ne_zero k1)
    · rcases k1 with k1 | k1
      · rw [k1, placed_vac] at k2
        exact absurd k2 (placed_ne_zero ha)
      · obtain ⟨e1, e2⟩ := placed_inj ha k1 k2
        rw [← e1, ← e2]
  have hout : ∀ n, ¬ Allowed m ae n → ∀ e, Ψ n e = 0 := by
    intro n hn e
    show (if h : _ then _ else _) = _
    rw [dif_neg]
    rintro ⟨q, k1, rfl⟩
    exact hn (allowed_placed hm k1)
  have hsame : Same m ae c p ψ Ψ := ⟨hin, hout, hF.plane⟩
  refine ⟨Ψ, ⟨?_, ?_, hout, ?_⟩, hsame⟩
  · intro n e s
    by_cases hn : Allowed m ae n
    · obtain ⟨a, s0, ha, rfl⟩ := exists_placed hm hn
      rw [placed_shift, hin a ha, hin a ha, ph_exp]
      unfold amplitude
      rw [show s0 + s - (e + s) = s0 - e by ring,
        show -(2 * (s0 + s) + c) = -(2 * s) + -(2 * s0 + c) by ring, ph_add]
      ring
    · rw [hout n hn, mul_zero]
      apply hout
      intro hn'
      obtain ⟨a, s0, ha, e0⟩ := exists_placed hm hn'
      apply hn
      have : n = placed a (s0 - s) := by
        funext t x
        have : n t (x + s - s) = chain a t (x + s - s0) := congrFun (congrFun e0 t) (x + s)
        rw [show x + s - s = x by ring] at this
        rw [this]
        show _ = chain a t (x - (s0 - s))
        congr 1; ring
      rw [this]
      exact allowed_placed hm ha
  · intro n
    by_cases hn : Allowed m ae n
    · obtain ⟨a, s, ha, rfl⟩ := exists_placed hm hn
      have hsg : ‖sgn a‖ = 1 := by unfold sgn; split <;> simp
      rcases ha with rfl | ha
      · refine ⟨‖ψ (vac m) 0‖, fun e => ?_⟩
        rw [hin _ (Or.inl rfl), hvac, norm_mul, ph_norm, one_mul]
      · obtain ⟨C, hC⟩ := hF.bounded a ha
        refine ⟨C, fun e => ?_⟩
        rw [hin _ (Or.inr ha)]
        unfold amplitude
        rw [norm_mul, norm_mul, hsg, ph_norm, one_mul, one_mul]
        exact hC _
    · exact ⟨0, fun e => by rw [hout n hn]; simp⟩
  · intro n hn e
    obtain ⟨a, s, ha, rfl⟩ := exists_placed hm hn
    rcases ha with rfl | ha
    · rw [placed_vac, if_pos rfl]
      exact (hsame.motion_vac hm hL hsh e).2 hF.green
    · rw [if_neg (placed_ne_zero ha)]
      exact (hsame.motion_cloud hm hL hsh ha s e).2 (hF.cloud a ha (s - e))

/-- a resolvent gives field equations -/
theorem field_of_resolvent (hR : Resolvent m ae p Ψ) (hm : Shaped m ae) {L : Layout ℝ} (hL : L.Ok m ae)
    (hsh : Props.ShiftsOk m c) : ∃ ψ, FieldEq m ae c p ψ ∧ Same m ae c p ψ Ψ := by
  classical
  let ψ : Arr → ℤ → ℂ := fun a d => if a = vac m then ph m p d * Ψ 0 0
    else sgn a * ph m p c * Ψ (placed a 0) ((c - d) / 2)
  have hplane : ∀ d, ψ (vac m) d = ph m p d * ψ (vac m) 0 := by
    intro d
    show (if _ then _ else _) = _ * (if _ then _ else _)
    rw [if_pos rfl, if_pos rfl, ph_zero, one_mul]
  have h0 : ∀ e, Ψ 0 e = ph m p (-(2 * e)) * Ψ 0 0 := by
    intro e
    have := hR.bloch 0 0 e
    rw [zero_add, ph_exp] at this
    exact this
  have hin : ∀ a, Node m ae a → ∀ s e, Ψ (placed a s) e = amplitude m p c ψ a s e := by
    intro a ha s e
    unfold amplitude
    by_cases hv : a = vac m
    · subst hv
      rw [hplane]
      show _ = _ * (_ * (if _ then _ else _))
      rw [if_pos rfl, placed_vac, h0, sgn_vac, ph_zero, one_mul, one_mul, ← mul_assoc, ← ph_add]
      congr 2; ring
    · have hb := hR.bloch (placed a 0) (e - s) s
      rw [placed_shift, zero_add, sub_add_cancel, ph_exp] at hb
      show _ = _ * (if _ then _ else _)
      rw [if_neg hv, hb, show (c - (c + 2 * (s - e))) / 2 = e - s by omega]
      have h1 := sgn_mul_self a
      have h2 : ph m p (-(2 * s + c)) * ph m p c = ph m p (-(2 * s)) := by
        rw [← ph_add]; congr 1; ring
      rw [← h2]
      linear_combination (-ph m p (-(2 * s + c)) * ph m p c * Ψ (placed a 0) (e - s)) * h1
  have hsame : Same m ae c p ψ Ψ := ⟨hin, hR.outside, hplane⟩
  refine ⟨ψ, ⟨hplane, ?_, ?_, ?_⟩, hsame⟩
  · intro a ha
    obtain ⟨C, hC⟩ := hR.bounded (placed a 0)
    refine ⟨C, fun j => ?_⟩
    have h1 := hin a (Or.inr ha) 0 (-j)
    have hsg : ‖sgn a‖ = 1 := by unfold sgn; split <;> simp
    have h2 := congrArg norm h1
    unfold amplitude at h2
    rw [norm_mul, norm_mul, hsg, ph_norm, one_mul, one_mul, show c + 2 * (0 - -j) = c + 2 * j by ring] at h2
    rw [← h2]; exact hC _
  · intro a ha j
    have := (hsame.motion_cloud hm hL hsh ha 0 (-j)).1 (by
      have := hR.motion (placed a 0) (allowed_placed hm (Or.inr ha)) (-j)
      rwa [if_neg (placed_ne_zero ha)] at this)
    rw [show (0 : ℤ) - -j = j by ring] at this
    exact this
  · have := hR.motion 0 (allowed_zero hm) 0
    rw [if_pos rfl] at this
    exact (hsame.motion_vac hm hL hsh 0).1 this

end GGCE
