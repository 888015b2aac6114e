import Verif.Proofs.Lattice
import Verif.Proofs.Links
import Verif.Props.Symmetry

/-! The energy identity: the imaginary part of the Green's function is a sum of squares. -/

set_option linter.unusedSectionVars false

namespace GGCE
open Spec Arr Complex ComplexConjugate

/-- phase of a shift by `s` half lattice constants -/
noncomputable def ph (m : Model ℝ) (p : Point ℝ) (s : ℤ) : ℂ :=
  realPhys.expI (p.k * (m.latticeConstant * ((s : ℝ) / 2)))

theorem ph_add (m : Model ℝ) (p : Point ℝ) (s s' : ℤ) : ph m p (s + s') = ph m p s * ph m p s' := by
  show Complex.exp _ = Complex.exp _ * Complex.exp _
  rw [← Complex.exp_add]
  congr 1
  push_cast
  ring

theorem ph_zero (m : Model ℝ) (p : Point ℝ) : ph m p 0 = 1 := by
  show Complex.exp _ = 1
  simp

theorem ph_conj (m : Model ℝ) (p : Point ℝ) (s : ℤ) : conj (ph m p s) = ph m p (-s) := by
  show conj (Complex.exp _) = Complex.exp _
  rw [← Complex.exp_conj]
  congr 1
  simp only [map_mul, Complex.conj_I, Complex.conj_ofReal]
  push_cast
  ring

/-- the argument of the propagator in a generalized equation -/
def gtw (t : Term ℝ) : ℤ := (t.gArg.map Num.tw).getD 0

/-- what all lemmas below assume -/
structure Setting (m : Model ℝ) (ae : Int) (L : Layout ℝ) (c : ℤ) (p : Point ℝ) : Prop where
  hm : WellFormed m ae
  hL : L.Ok m ae
  shifts : Props.ShiftsOk m c
  adj : (m.ham.terms.map adjoint).Perm m.ham.terms
  eta : 0 < p.eta
  lattice : m.ham.hopping = 0 ∨ (0 < m.ham.hopping ∧ m.latticeConstant = 1)

/-- The unknowns `U` satisfy the equations of the nodes in `P`, with right-hand side `r` times that of
the Green's function, and vanish on all other nodes. -/
structure Solves (m : Model ℝ) (ae : Int) (L : Layout ℝ) (p : Point ℝ) (P : Arr → Prop) (r : ℂ)
    (U : PyStr → ℂ) : Prop where
  green : P (vac m) → ∀ δ ∈ L.deltas (vac m),
    U (full (L.eqn (vac m)) δ).id +
      ((full (L.eqn (vac m)) δ).terms.map (fun t => coefV realPhys m p t * U t.id)).sum =
      r * realPhys.G0 p.k p.w m.latticeConstant p.eta m.ham.hopping
  cloud : ∀ a, InTruncation m ae a → P a → ∀ δ ∈ L.deltas a,
    U (full (L.eqn a) δ).id +
      ((full (L.eqn a) δ).terms.map (fun t => coefV realPhys m p t * U t.id)).sum = 0
  zero : ∀ a, Node m ae a → ¬ P a → ∀ δ ∈ L.deltas a, U (full (L.eqn a) δ).id = 0

/-- the amplitude of a term, without its propagator -/
noncomputable def amp (m : Model ℝ) (p : Point ℝ) (U : PyStr → ℂ) (t : Term ℝ) : ℂ :=
  (t.pref : ℂ) * ph m p t.expShift.tw * U t.id

open Classical in
/-- the unknown of the cloud `a` at argument `d`, extended to all arguments -/
noncomputable def psi (m : Model ℝ) (L : Layout ℝ) (p : Point ℝ) (P : Arr → Prop) (U : PyStr → ℂ) (a : Arr)
    (d : ℤ) : ℂ :=
  if a = vac m then ph m p d * U "{G}[0.0]".toList
  else if P a then -((L.eqn a).terms.map (fun t => amp m p U t *
    realPhys.g0 (((d + gtw t : ℤ) : ℝ) / 2) (p.w - energy m a) m.latticeConstant p.eta m.ham.hopping)).sum
  else 0

section
variable {m : Model ℝ} {ae : Int} {L : Layout ℝ} {c : ℤ} {p : Point ℝ} {P : Arr → Prop} {r : ℂ}
  {U : PyStr → ℂ}

theorem Setting.from_mem (S : Setting m ae L c p) {a : Arr} (ha : Node m ae a) {t : Term ℝ}
    (ht : t ∈ (L.eqn a).terms) : ∃ h ∈ m.ham.terms, ∃ γ, From m ae a h γ t := by
  rcases ha with rfl | ha
  · rw [S.hL.eqn_vac] at ht
    obtain ⟨h, hh, rfl⟩ := List.mem_map.1 ht
    obtain ⟨hh, hd⟩ := List.mem_filter.1 hh
    exact ⟨h, hh, 0, Or.inr ⟨rfl, by simpa using hd, rfl, rfl⟩⟩
  · obtain ⟨ts, e1, e2⟩ := S.hL.eqn a ha
    rw [e1] at ht
    obtain ⟨h, hh, γ, -, hp⟩ := e2.mem ht
    exact ⟨h, hh, γ, Or.inl ⟨ha, hp⟩⟩

/-- all arguments of a cloud have the parity of the shifts -/
theorem Setting.fArg_parity (S : Setting m ae L c p) {a : Arr} (ha : Node m ae a) {t : Term ℝ}
    (ht : t ∈ (L.eqn a).terms) (hc : InTruncation m ae t.config) : t.fArg.tw % 2 = c := by
  obtain ⟨h, hh, γ, hf⟩ := S.from_mem ha ht
  have hs := S.shifts h hh
  rcases hf with ⟨-, hp⟩ | ⟨-, -, -, rfl⟩
  · rcases hp.cloud with ⟨-, o, -, k1, -⟩ | ⟨k0, -⟩
    · omega
    · exact absurd (total_of_vacuum k0) (total_ne_zero hc)
  · exact hs.2

theorem Setting.gtw_parity (S : Setting m ae L c p) {a : Arr} (ha : InTruncation m ae a) {t : Term ℝ}
    (ht : t ∈ (L.eqn a).terms) : (gtw t + c) % 2 = 0 := by
  obtain ⟨h, hh, γ, hf⟩ := S.from_mem (Or.inr ha) ht
  have hs := S.shifts h hh
  rcases hf with ⟨-, hp⟩ | ⟨rfl, -⟩
  · obtain ⟨g, hg, hg'⟩ := hp.gArg
    unfold gtw
    rw [hg]
    simp only [Option.map_some, Option.getD_some]
    omega
  · exact absurd (vac_total m) (total_ne_zero ha)

/-- the coefficient of a term of an equation of a cloud -/
theorem coefV_produced {a : Arr} {h : SingleTerm ℝ} {γ : ℤ} {t : Term ℝ} (hp : Produced m ae a h γ t)
    (δ : Num) : coefV realPhys m p (incr δ t) * U t.id = amp m p U t *
      realPhys.g0 (((δ.tw + gtw t : ℤ) : ℝ) / 2) (p.w - energy m a) m.latticeConstant p.eta m.ham.hopping := by
  obtain ⟨g, hg, -⟩ := hp.gArg
  have hk : incr δ t = { t with gArg := some ⟨g.flt, g.tw + δ.tw⟩ } := by
    have := hp.kind
    unfold incr
    cases hd' : h.dag <;> simp [hd'] at this <;> simp [this, hg]
  have hk' : t.kind ≠ .eom := by rw [hp.kind]; cases h.dag <;> simp
  have : (incr δ t).coefficient realPhys m p = .ok ((t.pref : ℂ) * ph m p t.expShift.tw *
      realPhys.g0 (((δ.tw + gtw t : ℤ) : ℝ) / 2) (p.w - energy m a) m.latticeConstant p.eta m.ham.hopping) := by
    rw [hk]
    unfold Term.coefficient
    simp only
    have hgt : gtw t = g.tw := by unfold gtw; rw [hg]; rfl
    rw [hgt, add_comm δ.tw, ← hp.freq]
    cases hkind : t.kind with
    | eom => exact absurd hkind hk'
    | ann => rfl
    | cre => rfl
  unfold coefV
  rw [this]
  simp only [amp]
  ring

theorem Setting.psi_delta (S : Setting m ae L c p) (hU : Solves m ae L p P r U) {a : Arr}
    (ha : InTruncation m ae a) {δ : Num} (hδ : δ ∈ L.deltas a) :
    U (full (L.eqn a) δ).id = psi m L p P U a δ.tw := by
  have hv : a ≠ vac m := fun e => total_ne_zero ha (e ▸ vac_total m)
  unfold psi
  rw [if_neg hv]
  by_cases hP : P a
  · rw [if_pos hP]
    have h1 := hU.cloud a ha hP δ hδ
    rw [show (full (L.eqn a) δ).terms = (L.eqn a).terms.map (incr δ) from rfl, List.map_map] at h1
    rw [eq_neg_of_add_eq_zero_left h1]
    congr 2
    apply List.map_congr_left
    intro t ht
    obtain ⟨h, hh, γ, hf⟩ := S.from_mem (Or.inr ha) ht
    rcases hf with ⟨-, hp⟩ | ⟨e, -⟩
    · simp only [Function.comp, incr_id]
      exact coefV_produced hp δ
    · exact absurd e hv
  · rw [if_neg hP]
    exact hU.zero a (Or.inr ha) hP δ hδ

/-- the unknown of a term on a cloud -/
theorem Setting.term_cloud (S : Setting m ae L c p) (hU : Solves m ae L p P r U) {a : Arr}
    (ha : Node m ae a) {t : Term ℝ} (ht : t ∈ (L.eqn a).terms) (hc : InTruncation m ae t.config) :
    U t.id = psi m L p P U t.config t.fArg.tw := by
  obtain ⟨δ, k1, k2⟩ := S.hL.deltas_cover a ha t ht
  rw [← k2, ← S.psi_delta hU hc k1]
  congr 1
  rw [Term.id, Equation.id, full, S.hL.eqn_config (Or.inr hc), termId_eq_iff hc.2.2.wf hc.2.2.wf]
  exact ⟨Or.inr rfl, by simp [k2]⟩

theorem green_id (m : Model ℝ) {f : Num} (h : f.tw = 0) : termId (vac m) (some f) = "{G}[0.0]".toList := by
  unfold termId
  have h1 : configId (vac m) = ['{', 'G', '}'] := by
    unfold configId; rw [if_pos (vac_total m)]; rfl
  rw [h1]
  unfold fArgId
  simp only [h]
  decide +kernel

/-- the unknown of a term on the vacuum -/
theorem Setting.term_vac (S : Setting m ae L c p) {a : Arr}
    (ha : Node m ae a) {t : Term ℝ} (ht : t ∈ (L.eqn a).terms) (hc : t.config = vac m) :
    U t.id = U "{G}[0.0]".toList := by
  rw [Term.id, hc, green_id m (S.hL.vac_term S.hm.toShaped ha ht hc)]

theorem Setting.psi_outside (S : Setting m ae L c p) (hU : Solves m ae L p P r U) {a : Arr}
    (ha : Node m ae a) (hP : ¬ P a) (d : ℤ) : psi m L p P U a d = 0 := by
  unfold psi
  by_cases hv : a = vac m
  · subst hv
    rw [if_pos rfl]
    obtain ⟨δ, hδ⟩ := List.exists_mem_of_ne_nil _ (S.hL.deltas_ne_nil S.hm.toShaped ha)
    have h1 := hU.zero _ ha hP δ hδ
    obtain ⟨b, hb, t, ht, k1, k2⟩ := S.hL.deltas_sub _ ha δ hδ
    have h2 := S.hL.vac_term S.hm.toShaped hb ht k1
    rw [Equation.id, full, S.hL.eqn_config ha, green_id m (by rw [← k2]; exact h2)] at h1
    rw [h1, mul_zero]
  · rw [if_neg hv, if_neg hP]

/-- the contribution of a term to the energy -/
noncomputable def qTerm (m : Model ℝ) (L : Layout ℝ) (p : Point ℝ) (P : Arr → Prop) (U : PyStr → ℂ)
    (a : Arr) (t : Term ℝ) : ℂ :=
  match t.kind with
  | .eom => amp m p U t * conj (U "{G}[0.0]".toList)
  | _ => amp m p U t * conj (psi m L p P U a (-gtw t))

/-- the contribution of a transition to the energy -/
noncomputable def vLink (m : Model ℝ) (L : Layout ℝ) (p : Point ℝ) (P : Arr → Prop) (U : PyStr → ℂ)
    (a : Arr) (h : SingleTerm ℝ) (γ : ℤ) (b : Arr) (o : ℤ) : ℂ :=
  (h.coupling : ℂ) * (factor h a γ : ℂ) * ph m p (-(2 * o)) *
    conj (psi m L p P U a (h.phi.tw - h.psi.tw - 2 * γ)) * psi m L p P U b (h.phi.tw - 2 * γ + 2 * o)

theorem Setting.qTerm_eq (S : Setting m ae L c p) (hU : Solves m ae L p P r U) {a : Arr}
    (ha : Node m ae a) {t : Term ℝ} (ht : t ∈ (L.eqn a).terms) {h : SingleTerm ℝ} (hh : h ∈ m.ham.terms)
    {γ : ℤ} (hf : From m ae a h γ t) :
    qTerm m L p P U a t = vLink m L p P U a h γ t.config (offT t) := by
  rcases hf with ⟨hat, hp⟩ | ⟨rfl, hd, rfl, rfl⟩
  · have hk' : t.kind ≠ .eom := by rw [hp.kind]; cases h.dag <;> simp
    have hq : qTerm m L p P U a t = amp m p U t * conj (psi m L p P U a (-gtw t)) := by
      unfold qTerm
      cases hkind : t.kind with
      | eom => exact absurd hkind hk'
      | ann => rfl
      | cre => rfl
    obtain ⟨g, hg, hg'⟩ := hp.gArg
    have hgt : -gtw t = h.phi.tw - h.psi.tw - 2 * γ := by
      unfold gtw; rw [hg]; simp only [Option.map_some, Option.getD_some]; omega
    have hpref : (t.pref : ℂ) = (h.coupling : ℂ) * (factor h a γ : ℂ) := by
      rw [hp.pref]
      unfold factor
      cases h.dag <;> simp
    rw [hq, hgt]
    unfold vLink amp
    rw [hpref]
    rcases hp.cloud with ⟨k0, o, k3, k1, k2⟩ | ⟨k0, k3, k1, k2⟩
    · have ho : offT t = o := by
        unfold offT; rw [if_neg (not_or.2 ⟨total_ne_zero k0, hk'⟩)]; omega
      rw [ho, S.term_cloud hU ha ht k0, k1, k2]
      ring
    · have ho : offT t = 0 := if_pos (Or.inl (total_of_vacuum k0))
      have hv : t.config = vac m := vacuum_eq k0 (by rw [k3.1, hat.2.1])
      rw [ho, S.term_vac (U := U) ha ht hv, k2]
      have : psi m L p P U t.config (h.phi.tw - 2 * γ + 2 * 0) =
          ph m p (h.phi.tw - 2 * γ) * U "{G}[0.0]".toList := by
        unfold psi; rw [if_pos hv]; simp
      rw [this]
      simp only [mul_zero, neg_zero, ph_zero]
      ring
  · have ho : offT (eomOf m h) = 0 := if_pos (Or.inr rfl)
    rw [ho]
    have hcl : InTruncation m ae (eomOf m h).config :=
      single_bounded S.hm.toShaped.bounded (S.hm.index h hh)
    have hfac : factor h (vac m) 0 = 1 := by unfold factor; rw [hd]
    have hpv : psi m L p P U (vac m) (h.phi.tw - h.psi.tw - 2 * 0) =
        ph m p (h.phi.tw - h.psi.tw) * U "{G}[0.0]".toList := by
      unfold psi; rw [if_pos rfl]; simp
    show amp m p U (eomOf m h) * conj (U "{G}[0.0]".toList) = _
    unfold vLink amp
    rw [S.term_cloud hU ha ht hcl, hfac, hpv, map_mul, ph_conj]
    rw [show (eomOf m h).pref = h.coupling from rfl,
      show (eomOf m h).expShift.tw = h.psi.tw - h.phi.tw from rfl,
      show (eomOf m h).fArg.tw = h.phi.tw from rfl, neg_sub]
    simp only [mul_zero, neg_zero, ph_zero, sub_zero, add_zero, Int.cast_one]
    ring

/-! #### one node -/

/-- sum of squares of the unknown of a node -/
noncomputable def weightS (m : Model ℝ) (L : Layout ℝ) (p : Point ℝ) (P : Arr → Prop) (U : PyStr → ℂ)
    (c : ℤ) (a : Arr) : ℝ :=
  open Classical in
  if a = vac m then normSq (U "{G}[0.0]".toList)
  else ∑' j : ℤ, normSq (psi m L p P U a (c + 2 * j))

theorem hasSum_list {ι α : Type} [AddCommMonoid α] [TopologicalSpace α] [ContinuousAdd α] {β : Type}
    (l : List β) (f : β → ι → α) (s : β → α) (h : ∀ b ∈ l, HasSum (f b) (s b)) :
    HasSum (fun j => (l.map (fun b => f b j)).sum) (l.map s).sum := by
  induction l with
  | nil => simp
  | cons b l ih =>
    simp only [List.map_cons, List.sum_cons]
    exact (h b List.mem_cons_self).add (ih (fun x hx => h x (List.mem_cons_of_mem _ hx)))

theorem Setting.cloud_node (S : Setting m ae L c p) {a : Arr}
    (ha : InTruncation m ae a) (hP : P a) :
    Summable (fun j : ℤ => ‖psi m L p P U a (c + 2 * j)‖) ∧
    p.eta * weightS m L p P U c a + ((L.eqn a).terms.map (qTerm m L p P U a)).sum.im = 0 := by
  have hv : a ≠ vac m := fun e => total_ne_zero ha (e ▸ vac_total m)
  obtain ⟨hprop, hsum⟩ := g0_good (w := p.w - energy m a) (a := m.latticeConstant) S.eta S.lattice
  set g : ℤ → ℂ := fun d => realPhys.g0 d (p.w - energy m a) m.latticeConstant p.eta m.ham.hopping with hgdef
  set f : ℤ → ℂ := fun j => psi m L p P U a (c + 2 * j) with hfdef
  let n : Term ℝ → ℤ := fun t => (c + gtw t) / 2
  have hn : ∀ t ∈ (L.eqn a).terms, c + gtw t = 2 * n t := by
    intro t ht
    have := S.gtw_parity ha ht
    show c + gtw t = 2 * ((c + gtw t) / 2)
    omega
  have hf : ∀ j, f j = -((L.eqn a).terms.map (fun t => amp m p U t * g (j + n t))).sum := by
    intro j
    show psi m L p P U a (c + 2 * j) = _
    unfold psi
    rw [if_neg hv, if_pos hP]
    congr 2
    apply List.map_congr_left
    intro t ht
    have h2 : (((c + 2 * j + gtw t : ℤ) : ℝ) / 2) = ((j + n t : ℤ) : ℝ) := by
      rw [show c + 2 * j + gtw t = 2 * (j + n t) by have := hn t ht; omega]
      push_cast; ring
    rw [h2]
  have hsf : Summable (fun j => ‖f j‖) := by
    have : ∀ l : List (Term ℝ), Summable (fun j => ‖(l.map (fun t => amp m p U t * g (j + n t))).sum‖) := by
      intro l
      induction l with
      | nil => simp
      | cons t l ih =>
        simp only [List.map_cons, List.sum_cons]
        have h1 : Summable (fun j => ‖amp m p U t * g (j + n t)‖) := by
          simp only [norm_mul]
          exact ((Equiv.addRight (n t)).summable_iff.2 hsum).mul_left _
        exact Summable.of_nonneg_of_le (fun _ => norm_nonneg _) (fun _ => norm_add_le _ _) (h1.add ih)
    refine (this (L.eqn a).terms).congr (fun j => ?_)
    rw [hf, norm_neg]
  refine ⟨hsf, ?_⟩
  let cc : ℤ → ℂ := fun j => -((L.eqn a).terms.map (fun t => if j + n t = 0 then amp m p U t else 0)).sum
  have heq : ∀ j, ((((p.w - energy m a : ℝ) : ℂ)) + p.eta * I) * f j +
      m.ham.hopping * (f (j - 1) + f (j + 1)) = cc j := by
    intro j
    rw [hf, hf, hf]
    show _ = -_
    generalize (L.eqn a).terms = l
    induction l with
    | nil => simp
    | cons t l ih =>
      simp only [List.map_cons, List.sum_cons]
      have h1 := hprop (j + n t)
      have h2 : (if j + n t = 0 then amp m p U t else 0) = amp m p U t * (if j + n t = 0 then 1 else 0) := by
        split <;> simp
      rw [h2, ← h1, show j - 1 + n t = j + n t - 1 by ring, show j + 1 + n t = j + n t + 1 by ring]
      simp only [hgdef] at ih ⊢
      linear_combination ih
  obtain ⟨hcs, him⟩ := im_energy hsf _ _ heq
  have hval : HasSum (fun j => conj (f j) * cc j) (-((L.eqn a).terms.map (qTerm m L p P U a)).sum) := by
    have h1 := hasSum_list (L.eqn a).terms
      (fun t j => conj (f j) * (if j + n t = 0 then amp m p U t else 0)) (qTerm m L p P U a) (by
        intro t ht
        have hk : qTerm m L p P U a t = conj (f (-n t)) * amp m p U t := by
          have hfn : f (-n t) = psi m L p P U a (-gtw t) := by
            show psi m L p P U a (c + 2 * -n t) = _
            rw [show c + 2 * -n t = -gtw t by have := hn t ht; omega]
          obtain ⟨h, hh, γ, hfr⟩ := S.from_mem (Or.inr ha) ht
          rcases hfr with ⟨-, hp⟩ | ⟨e, -⟩
          · have hk' : t.kind ≠ .eom := by rw [hp.kind]; cases h.dag <;> simp
            rw [hfn]
            unfold qTerm
            cases hkind : t.kind with
            | eom => exact absurd hkind hk'
            | ann => simp only; ring
            | cre => simp only; ring
          · exact absurd e hv
        rw [hk]
        have := hasSum_single (f := fun j => conj (f j) * (if j + n t = 0 then amp m p U t else 0)) (-n t)
          (by intro j hj; rw [if_neg (by omega), mul_zero])
        simpa using this)
    have h2 := h1.neg
    refine Eq.mp (congrArg (fun F => HasSum F _) (funext ?_)) h2
    intro j
    show -_ = conj (f j) * -_
    rw [mul_neg, ← List.sum_map_mul_left]
  rw [hval.tsum_eq] at him
  have him2 : ((((p.w - energy m a : ℝ) : ℂ)) + p.eta * I).im = p.eta := by simp
  rw [him2, neg_im] at him
  have hw : weightS m L p P U c a = ∑' j, normSq (f j) := by
    unfold weightS; rw [if_neg hv]
  rw [hw, ← him]; ring

theorem Setting.vac_node (S : Setting m ae L c p) (hU : Solves m ae L p P r U) (hP : P (vac m)) :
    p.eta * weightS m L p P U c (vac m) + ((L.eqn (vac m)).terms.map (qTerm m L p P U (vac m))).sum.im =
      (conj (U "{G}[0.0]".toList) * r).im := by
  set G := U "{G}[0.0]".toList with hG
  have hn : Node m ae (vac m) := Or.inl rfl
  obtain ⟨δ, hδ⟩ := List.exists_mem_of_ne_nil _ (S.hL.deltas_ne_nil S.hm.toShaped hn)
  have h1 := hU.green hP δ hδ
  obtain ⟨b, hb, t, ht, k1, k2⟩ := S.hL.deltas_sub _ hn δ hδ
  have h2 := S.hL.vac_term S.hm.toShaped hb ht k1
  have hid : (full (L.eqn (vac m)) δ).id = "{G}[0.0]".toList := by
    rw [Equation.id, full, S.hL.eqn_config hn, green_id m (by rw [← k2]; exact h2)]
  obtain ⟨h3, h4, -⟩ := Props.C25_free_weight p.k p.w m.latticeConstant m.ham.hopping p.eta S.eta
  set D := (p.w : ℂ) + I * p.eta + 2 * m.ham.hopping * Real.cos (p.k * m.latticeConstant)
  have hsum : ((full (L.eqn (vac m)) δ).terms.map (fun t => coefV realPhys m p t * U t.id)).sum =
      realPhys.G0 p.k p.w m.latticeConstant p.eta m.ham.hopping *
        ((L.eqn (vac m)).terms.map (amp m p U)).sum := by
    rw [show (full (L.eqn (vac m)) δ).terms = (L.eqn (vac m)).terms.map (incr δ) from rfl, List.map_map,
      ← List.sum_map_mul_left]
    congr 1
    apply List.map_congr_left
    intro t ht
    obtain ⟨h, hh, γ, hf⟩ := S.from_mem hn ht
    rcases hf with ⟨e, -⟩ | ⟨-, -, -, rfl⟩
    · exact absurd (vac_total m) (total_ne_zero e)
    · simp only [Function.comp, incr_id]
      show _ = _ * ((h.coupling : ℂ) * ph m p (h.psi.tw - h.phi.tw) * U (eomOf m h).id)
      have : coefV realPhys m p (incr δ (eomOf m h)) = (h.coupling : ℂ) *
          realPhys.G0 p.k p.w m.latticeConstant p.eta m.ham.hopping * ph m p (h.psi.tw - h.phi.tw) := rfl
      rw [this]; ring
  have hq : ((L.eqn (vac m)).terms.map (qTerm m L p P U (vac m))).sum =
      ((L.eqn (vac m)).terms.map (amp m p U)).sum * conj G := by
    rw [← List.sum_map_mul_right]
    congr 1
    apply List.map_congr_left
    intro t ht
    obtain ⟨h, hh, γ, hf⟩ := S.from_mem hn ht
    rcases hf with ⟨e, -⟩ | ⟨-, -, -, rfl⟩
    · exact absurd (vac_total m) (total_ne_zero e)
    · rfl
  have hw : weightS m L p P U c (vac m) = normSq G := by unfold weightS; rw [if_pos rfl]
  rw [hid, hsum] at h1
  set A := ((L.eqn (vac m)).terms.map (amp m p U)).sum
  set G0 := realPhys.G0 p.k p.w m.latticeConstant p.eta m.ham.hopping
  have hG0 : G0 ≠ 0 := by
    intro e; rw [e, zero_mul] at h4; exact zero_ne_one h4
  have key : D * G + A = r := by
    apply mul_left_cancel₀ hG0
    linear_combination h1 + G * h4
  have hD : D.im = p.eta := by
    have : ((2 : ℂ) * m.ham.hopping * Real.cos (p.k * m.latticeConstant)).im = 0 := by
      rw [show (2 : ℂ) * m.ham.hopping * Real.cos (p.k * m.latticeConstant) =
        ((2 * m.ham.hopping * Real.cos (p.k * m.latticeConstant) : ℝ) : ℂ) by push_cast; rfl]
      exact ofReal_im _
    show ((p.w : ℂ) + I * p.eta + 2 * m.ham.hopping * Real.cos (p.k * m.latticeConstant)).im = _
    rw [add_im, add_im, this]; simp
  rw [hw, hq, ← key, mul_add, add_im, mul_comm A]
  congr 1
  rw [show conj G * (D * G) = D * (normSq G : ℂ) by rw [Complex.normSq_eq_conj_mul_self]; ring]
  rw [mul_im]; simp [hD]

/-! #### all nodes -/

open Classical in
/-- the nodes in `P` -/
noncomputable def nodesIn (m : Model ℝ) (L : Layout ℝ) (P : Arr → Prop) : Finset Arr :=
  (L.nodes m).toFinset.filter P

theorem Setting.mem_nodesIn (S : Setting m ae L c p) {a : Arr} :
    a ∈ nodesIn m L P ↔ Node m ae a ∧ P a := by
  classical
  unfold nodesIn
  rw [Finset.mem_filter, List.mem_toFinset, Layout.mem_nodes S.hm.toListsOk S.hL]

theorem Setting.links_spec (S : Setting m ae L c p) {a : Arr} (ha : Node m ae a) {h : SingleTerm ℝ}
    (hh : h ∈ m.ham.terms) (x : ℤ × Arr × ℤ) :
    x ∈ links m ae a h ↔ Node m ae x.2.1 ∧ Link m h a x.1 x.2.1 x.2.2 :=
  S.hL.mem_links S.hm.toShaped ha hh x

/-- contribution of one interaction term, over all transitions -/
noncomputable def total (m : Model ℝ) (ae : Int) (L : Layout ℝ) (p : Point ℝ) (P : Arr → Prop)
    (U : PyStr → ℂ) (h : SingleTerm ℝ) : ℂ :=
  ∑ a ∈ nodesIn m L P, ∑ x ∈ links m ae a h,
    ((fact a : ℂ))⁻¹ * vLink m L p P U a h x.1 x.2.1 x.2.2

theorem vLink_symm {a b : Arr} (ha : Proper a) (hb : Proper b) {h : SingleTerm ℝ} {γ o : ℤ}
    (hl : Link m h a γ b o) :
    ((fact b : ℂ))⁻¹ * vLink m L p P U b (adjoint h) (γ - o) a (-o) =
      conj (((fact a : ℂ))⁻¹ * vLink m L p P U a h γ b o) := by
  have hbal := hl.balance ha hb
  have hfa : (fact a : ℂ) ≠ 0 := by exact_mod_cast (fact_pos a).ne'
  have hfb : (fact b : ℂ) ≠ 0 := by exact_mod_cast (fact_pos b).ne'
  have hbal' : (factor h a γ : ℂ) * (fact b : ℂ) = (factor (adjoint h) b (γ - o) : ℂ) * (fact a : ℂ) := by
    exact_mod_cast hbal
  have hc : ((fact b : ℂ))⁻¹ * (factor (adjoint h) b (γ - o) : ℂ) = ((fact a : ℂ))⁻¹ * (factor h a γ : ℂ) := by
    field_simp
    linear_combination -hbal'
  unfold vLink
  have e1 : (adjoint h).phi.tw - (adjoint h).psi.tw - 2 * (γ - o) = h.phi.tw - 2 * γ + 2 * o := by
    simp only [adjoint]; ring
  have e2 : (adjoint h).phi.tw - 2 * (γ - o) + 2 * -o = h.phi.tw - h.psi.tw - 2 * γ := by
    simp only [adjoint]; ring
  rw [e1, e2, show (adjoint h).coupling = h.coupling from rfl]
  simp only [map_mul, map_inv₀, Complex.conj_conj, Complex.conj_ofReal, ph_conj]
  rw [show conj (fact a : ℂ) = (fact a : ℂ) from Complex.conj_natCast _,
    show conj ((factor h a γ : ℤ) : ℂ) = ((factor h a γ : ℤ) : ℂ) from by simp]
  rw [show -(2 * -o) = - -(2 * o) by ring]
  linear_combination (h.coupling : ℂ) * ph m p (- -(2 * o)) *
    conj (psi m L p P U b (h.phi.tw - 2 * γ + 2 * o)) * psi m L p P U a (h.phi.tw - h.psi.tw - 2 * γ) * hc

theorem Setting.total_adjoint (S : Setting m ae L c p) (hU : Solves m ae L p P r U) {h : SingleTerm ℝ}
    (hh : h ∈ m.ham.terms) (hh' : adjoint h ∈ m.ham.terms) :
    total m ae L p P U (adjoint h) = conj (total m ae L p P U h) := by
  classical
  have hsum : ∀ h, h ∈ m.ham.terms → total m ae L p P U h =
      ∑ y ∈ ((nodesIn m L P).sigma (fun a => links m ae a h)).filter (fun y => P y.2.2.1),
        ((fact y.1 : ℂ))⁻¹ * vLink m L p P U y.1 h y.2.1 y.2.2.1 y.2.2.2 := by
    intro h hh
    unfold total
    rw [Finset.sum_sigma', Finset.sum_filter_of_ne]
    rintro ⟨a, γ, b, o⟩ hy hne
    by_contra hP
    apply hne
    obtain ⟨h1, h2⟩ := Finset.mem_sigma.1 hy
    have hb := ((S.links_spec (S.mem_nodesIn.1 h1).1 hh _).1 h2).1
    simp only [vLink]
    rw [S.psi_outside hU hb hP, mul_zero, mul_zero]
  rw [hsum _ hh, hsum _ hh', map_sum]
  have hmem : ∀ {h : SingleTerm ℝ}, h ∈ m.ham.terms → ∀ a γ b o,
      ((⟨a, (γ, b, o)⟩ : Sigma (fun _ : Arr => ℤ × Arr × ℤ)) ∈
        ((nodesIn m L P).sigma (fun a => links m ae a h)).filter (fun y => P y.2.2.1)) ↔
      (Node m ae a ∧ P a) ∧ (Node m ae b ∧ P b) ∧ Link m h a γ b o := by
    intro h hh a γ b o
    rw [Finset.mem_filter, Finset.mem_sigma, S.mem_nodesIn]
    constructor
    · rintro ⟨⟨k1, k2⟩, k3⟩
      have := (S.links_spec k1.1 hh _).1 k2
      exact ⟨k1, ⟨this.1, k3⟩, this.2⟩
    · rintro ⟨k1, k2, k3⟩
      exact ⟨⟨k1, (S.links_spec k1.1 hh _).2 ⟨k2.1, k3⟩⟩, k2.2⟩
  refine Finset.sum_bij' (fun y _ => ⟨y.2.2.1, (y.2.1 - y.2.2.2, y.1, -y.2.2.2)⟩)
    (fun y _ => ⟨y.2.2.1, (y.2.1 - y.2.2.2, y.1, -y.2.2.2)⟩) ?_ ?_ ?_ ?_ ?_
  · rintro ⟨a, γ, b, o⟩ hy
    obtain ⟨k1, k2, k3⟩ := (hmem hh' _ _ _ _).1 hy
    have := k3.symm
    rw [adjoint_adjoint] at this
    exact (hmem hh _ _ _ _).2 ⟨k2, k1, this⟩
  · rintro ⟨a, γ, b, o⟩ hy
    obtain ⟨k1, k2, k3⟩ := (hmem hh _ _ _ _).1 hy
    exact (hmem hh' _ _ _ _).2 ⟨k2, k1, k3.symm⟩
  · rintro ⟨a, γ, b, o⟩ hy; simp
  · rintro ⟨a, γ, b, o⟩ hy; simp
  · rintro ⟨a, γ, b, o⟩ hy
    obtain ⟨k1, k2, k3⟩ := (hmem hh' _ _ _ _).1 hy
    have := k3.symm
    rw [adjoint_adjoint] at this
    have h2 := vLink_symm (L := L) (p := p) (P := P) (U := U) k2.1.proper k1.1.proper this
    simp only [sub_neg_eq_add, sub_add_cancel, neg_neg] at h2
    exact h2

/-- Energy identity: `η` times a weighted sum of squares of all unknowns is the imaginary part of the
source term. -/
theorem Setting.identity (S : Setting m ae L c p) (hU : Solves m ae L p P r U) :
    p.eta * ∑ a ∈ nodesIn m L P, ((fact a : ℝ))⁻¹ * weightS m L p P U c a =
      open Classical in if P (vac m) then (conj (U "{G}[0.0]".toList) * r).im else 0 := by
  classical
  have hQ : ∑ a ∈ nodesIn m L P, ((fact a : ℂ))⁻¹ * ((L.eqn a).terms.map (qTerm m L p P U a)).sum =
      (m.ham.terms.map (total m ae L p P U)).sum := by
    have h1 : ∀ a ∈ nodesIn m L P, ((fact a : ℂ))⁻¹ * ((L.eqn a).terms.map (qTerm m L p P U a)).sum =
        (m.ham.terms.map (fun h => ∑ x ∈ links m ae a h,
          ((fact a : ℂ))⁻¹ * vLink m L p P U a h x.1 x.2.1 x.2.2)).sum := by
      intro a ha
      have ha := (S.mem_nodesIn.1 ha).1
      rw [S.hL.sum_terms S.hm.toShaped ha (qTerm m L p P U a) (vLink m L p P U a) ?_,
        ← List.sum_map_mul_left]
      · congr 1
        apply List.map_congr_left
        intro h _
        rw [Finset.mul_sum]
      · intro h hh γ t ht hf
        exact S.qTerm_eq hU ha ht hh hf
    rw [Finset.sum_congr rfl h1]
    unfold total
    generalize m.ham.terms = hs
    induction hs with
    | nil => simp
    | cons h hs ih => simp only [List.map_cons, List.sum_cons, Finset.sum_add_distrib, ih]
  have hreal : (m.ham.terms.map (total m ae L p P U)).sum.im = 0 := by
    have h1 : conj (m.ham.terms.map (total m ae L p P U)).sum = (m.ham.terms.map (total m ae L p P U)).sum := by
      have h2 : (m.ham.terms.map (total m ae L p P U)).sum =
          ((m.ham.terms.map adjoint).map (total m ae L p P U)).sum := ((S.adj.map _).sum_eq).symm
      rw [h2, List.map_map]
      have h3 : m.ham.terms.map (total m ae L p P U ∘ adjoint) =
          m.ham.terms.map (fun h => conj (total m ae L p P U h)) := by
        apply List.map_congr_left
        intro h hh
        exact S.total_adjoint hU hh (S.adj.subset (List.mem_map_of_mem hh))
      rw [h3, map_list_sum, List.map_map]
      have h4 : m.ham.terms.map ((fun x => conj x) ∘ fun h => conj (total m ae L p P U h)) =
          m.ham.terms.map (total m ae L p P U) := by
        apply List.map_congr_left
        intro h _
        simp
      have h5 : (m.ham.terms.map (fun h => conj (total m ae L p P U h))).sum =
          (m.ham.terms.map (total m ae L p P U)).sum := by
        rw [← h3, ← List.map_map]; exact h2.symm
      rw [h5]
      exact congrArg List.sum h4
    exact Complex.conj_eq_iff_im.1 h1
  have hnode : ∀ a ∈ nodesIn m L P, p.eta * (((fact a : ℝ))⁻¹ * weightS m L p P U c a) +
      (((fact a : ℂ))⁻¹ * ((L.eqn a).terms.map (qTerm m L p P U a)).sum).im =
      if a = vac m then (conj (U "{G}[0.0]".toList) * r).im else 0 := by
    intro a ha
    obtain ⟨ha, hP⟩ := S.mem_nodesIn.1 ha
    have him : (((fact a : ℂ))⁻¹ * ((L.eqn a).terms.map (qTerm m L p P U a)).sum).im =
        ((fact a : ℝ))⁻¹ * ((L.eqn a).terms.map (qTerm m L p P U a)).sum.im := by
      rw [show ((fact a : ℂ))⁻¹ = ((((fact a : ℝ))⁻¹ : ℝ) : ℂ) by push_cast; rfl, Complex.im_ofReal_mul]
    rw [him]
    by_cases hv : a = vac m
    · subst hv
      rw [if_pos rfl, ← S.vac_node hU hP]
      have : fact (vac m) = 1 := by
        unfold fact
        rw [finprod_congr (g := fun _ => 1) (fun q => by rw [chain_vac]; rfl), finprod_one]
      rw [this]; simp
    · rw [if_neg hv]
      have := (S.cloud_node (U := U) (ha.resolve_left hv) hP).2
      linear_combination ((fact a : ℝ))⁻¹ * this
  have hall := Finset.sum_congr rfl hnode
  rw [Finset.sum_add_distrib, ← Finset.mul_sum] at hall
  have him : ∑ a ∈ nodesIn m L P, (((fact a : ℂ))⁻¹ * ((L.eqn a).terms.map (qTerm m L p P U a)).sum).im = 0 := by
    rw [← Complex.im_sum, hQ, hreal]
  rw [him, add_zero] at hall
  rw [hall, Finset.sum_ite_eq']
  have : vac m ∈ nodesIn m L P ↔ P (vac m) := by
    rw [S.mem_nodesIn]; exact ⟨fun h => h.2, fun h => ⟨Or.inl rfl, h⟩⟩
  simp only [this]

end

end GGCE
