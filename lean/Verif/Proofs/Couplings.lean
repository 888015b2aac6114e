import Verif.Spec.Couplings
import Verif.Spec.Residual
import Verif.Spec.Rounding
import Verif.Props.Size
import Verif.Proofs.Blueprint

/-!
Models whose couplings are close to those of another model (`CouplingsNear`), and models assembled with inexact
conversions of the coupling strengths (`PrimsNear`).
-/

namespace GGCE
open Spec

/-- two terms with everything equal but the coupling, which is close -/
def TermNear (ε : ℝ) (h h' : SingleTerm ℝ) : Prop :=
  (h'.psi = h.psi ∧ h'.phi = h.phi ∧ h'.dag = h.dag ∧ h'.phononIndex = h.phononIndex) ∧
    |h'.coupling - h.coupling| ≤ ε * |h.coupling|

/-- two modes with everything equal but the coupling, which is close -/
def PartNear (ε : ℝ) (d d' : Part ℝ) : Prop :=
  d'.ctype = d.ctype ∧ d'.freq = d.freq ∧ d'.M = d.M ∧ d'.N = d.N ∧ |d'.g - d.g| ≤ ε * |d.g|

theorem forall₂_and {α β : Type} {R S : α → β → Prop} {l : List α} {l' : List β} (h : List.Forall₂ R l l')
    (h' : List.Forall₂ S l l') : List.Forall₂ (fun a b => R a b ∧ S a b) l l' := by
  induction h with
  | nil => exact .nil
  | cons hab _ ih =>
    cases h' with
    | cons hab' ht => exact .cons ⟨hab, hab'⟩ (ih ht)

theorem Spec.CouplingsNear.terms {ε : ℝ} {m m' : Model ℝ} (h : CouplingsNear ε m m') :
    List.Forall₂ (TermNear ε) m.ham.terms m'.ham.terms := forall₂_and h.shape.terms h.near

theorem forall₂_right {α β : Type} {R : α → β → Prop} {l : List α} {l' : List β} (h : List.Forall₂ R l l') :
    ∀ b ∈ l', ∃ a ∈ l, R a b := by
  induction h with
  | nil => simp
  | cons hab _ ih =>
    intro b hb
    rcases List.mem_cons.1 hb with rfl | hb
    · exact ⟨_, List.mem_cons_self, hab⟩
    · obtain ⟨a, ha, r⟩ := ih b hb
      exact ⟨a, List.mem_cons_of_mem _ ha, r⟩

/-- the size of a coupling that is off by at most its own size -/
theorem near_abs {ε g g' : ℝ} (hε : ε ≤ 1) (h : |g' - g| ≤ ε * |g|) : |g'| ≤ 2 * |g| := by
  have h1 : |g'| ≤ |g| + |g' - g| := by
    have := abs_add_le g (g' - g)
    rwa [add_sub_cancel] at this
  have h2 := mul_le_mul_of_nonneg_right hε (abs_nonneg g)
  linarith

theorem Spec.CouplingsNear.maxNumber_eq {ε : ℝ} {m m' : Model ℝ} (h : CouplingsNear ε m m') (t : ℕ) :
    maxNumber m' t = maxNumber m t := by
  unfold Spec.maxNumber
  rw [h.shape.number]

theorem Spec.CouplingsNear.energyScale_eq {ε : ℝ} {m m' : Model ℝ} (h : CouplingsNear ε m m') (p : Point ℝ) :
    energyScale m' p = energyScale m p := by
  unfold Spec.energyScale topEnergy
  rw [h.hopping, h.freqs, h.shape.nTypes]
  simp only [h.maxNumber_eq]

theorem Spec.CouplingsNear.factorials_eq {ε : ℝ} {m m' : Model ℝ} (h : CouplingsNear ε m m') : factorials m' = factorials m := by
  unfold Spec.factorials
  rw [h.shape.nTypes, h.shape.number]

theorem Spec.CouplingsNear.dagCount_eq {ε : ℝ} {m m' : Model ℝ} (h : CouplingsNear ε m m') (d : Dag) :
    dagCount m' d = dagCount m d := by
  unfold Spec.dagCount
  have := h.terms
  generalize m.ham.terms = l at this
  generalize m'.ham.terms = l' at this
  induction this with
  | nil => rfl
  | cons hab _ ih =>
    rw [List.filter_cons, List.filter_cons, hab.1.2.2.1]
    split
    · rw [List.length_cons, List.length_cons, ih]
    · exact ih

theorem Spec.CouplingsNear.rowBound_eq {ε : ℝ} {m m' : Model ℝ} (h : CouplingsNear ε m m') (ae : Int) :
    rowBound m' ae = rowBound m ae := by
  unfold Spec.rowBound
  rw [h.dagCount_eq, h.dagCount_eq]

theorem Spec.CouplingsNear.argSet_eq {ε : ℝ} {m m' : Model ℝ} (h : CouplingsNear ε m m') (ae : Int) :
    argSet m' ae = argSet m ae := by
  unfold Spec.argSet
  have : m'.ham.terms.map (fun h => h.phi.tw) = m.ham.terms.map (fun h => h.phi.tw) := by
    have := h.terms
    generalize m.ham.terms = l at this
    generalize m'.ham.terms = l' at this
    induction this with
    | nil => rfl
    | cons hab _ ih => rw [List.map_cons, List.map_cons, ih, hab.1.2.1]
  rw [this]

theorem Spec.CouplingsNear.truncation {ε : ℝ} {m m' : Model ℝ} (h : CouplingsNear ε m m') (ae : Int) (a : Arr) :
    InTruncation m' ae a ↔ InTruncation m ae a := by
  unfold InTruncation
  rw [h.shape.nTypes, h.shape.cap, h.shape.extent, h.shape.number]

/-- the clouds of the truncated space, as a list -/
theorem exists_clouds {R : Type} [Field R] [LinearOrder R] (σ : SetOrder) {m : Model R} {ae : Int} (hm : WellFormed m ae) :
    ∃ cs : List Arr, cs.Nodup ∧ ∀ a, a ∈ cs ↔ InTruncation m ae a := by
  obtain ⟨b, L, -, hL, -⟩ := buildSystem_ok σ hm
  refine ⟨(L.nodes m).filter (fun a => decide (a ≠ vac m)), hL.nodes_nodup.filter _, ?_⟩
  intro a
  rw [List.mem_filter, Layout.mem_nodes hm.toListsOk hL, decide_eq_true_iff]
  constructor
  · rintro ⟨h1 | h1, h2⟩
    · exact absurd h1 h2
    · exact h1
  · intro h
    exact ⟨Or.inr h, fun e => not_truncation_vac (e ▸ h)⟩

/-- the interaction of the two models -/
theorem Spec.CouplingsNear.interaction_le {ε : ℝ} {m m' : Model ℝ} (h : CouplingsNear ε m m') (hε : ε ≤ 1) :
    interaction m' ≤ 2 * interaction m := by
  unfold Spec.interaction
  simp only [h.maxNumber_eq]
  have := h.terms
  generalize m.ham.terms = l at this
  generalize m'.ham.terms = l' at this
  induction this with
  | nil => simp
  | @cons x y _ _ hab _ ih =>
    rw [List.map_cons, List.map_cons, List.sum_cons, List.sum_cons, hab.1.2.2.2]
    have := mul_le_mul_of_nonneg_right (near_abs hε hab.2) (Real.sqrt_nonneg (maxNumber m x.phononIndex))
    linarith

/-- the distance of the two models -/
theorem Spec.CouplingsNear.distance_le {ε : ℝ} {m m' : Model ℝ} (h : CouplingsNear ε m m') :
    distance m m' ≤ ε * interaction m := by
  unfold Spec.distance Spec.interaction
  rw [h.hopping, h.freqs]
  simp only [sub_self, abs_zero, zero_mul, mul_zero, Finset.sum_const_zero, zero_add]
  have := h.terms
  generalize m.ham.terms = l at this
  generalize m'.ham.terms = l' at this
  induction this with
  | nil => simp
  | @cons x y _ _ hab _ ih =>
    rw [List.zipWith_cons_cons, List.map_cons, List.sum_cons, List.sum_cons, abs_sub_comm]
    have := mul_le_mul_of_nonneg_right hab.2 (Real.sqrt_nonneg (maxNumber m x.phononIndex))
    rw [mul_add, ← mul_assoc]
    exact add_le_add this ih

/-! ### assembled models -/

theorem termsOf_near {ε : ℝ} {d d' : Part ℝ} (h : PartNear ε d d') (i : ℕ) :
    List.Forall₂ (TermNear ε) (termsOf d.ctype d.g i d.freq) (termsOf d'.ctype d'.g i d'.freq) := by
  obtain ⟨h1, h2, -, -, h5⟩ := h
  unfold termsOf
  rw [h1]
  generalize (termShapes d.ctype).getD [] = l
  induction l with
  | nil => exact .nil
  | cons x l ih =>
    refine .cons ⟨⟨rfl, rfl, rfl, rfl⟩, ?_⟩ ih
    simp only
    split
    · exact h5
    · rwa [neg_sub_neg, abs_sub_comm, abs_neg]

theorem partTerms_near {ε : ℝ} {ds ds' : List (Part ℝ)} (h : List.Forall₂ (PartNear ε) ds ds') (i : ℕ) :
    List.Forall₂ (TermNear ε) (partTerms ds i) (partTerms ds' i) := by
  induction h generalizing i with
  | nil => exact .nil
  | cons hab _ ih =>
    unfold partTerms at ih ⊢
    rw [List.zipIdx_cons, List.zipIdx_cons, List.flatMap_cons, List.flatMap_cons]
    exact List.rel_append (termsOf_near hab i) (ih (i + 1))

theorem map_near {ε : ℝ} {ds ds' : List (Part ℝ)} (h : List.Forall₂ (PartNear ε) ds ds') {β : Type} (f : Part ℝ → β)
    (hf : ∀ d d', PartNear ε d d' → f d' = f d) : ds'.map f = ds.map f := by
  induction h with
  | nil => rfl
  | cons hab _ ih => rw [List.map_cons, List.map_cons, ih, hf _ _ hab]

theorem blueprint_near {ε : ℝ} {ds ds' : List (Part ℝ)} (h : List.Forall₂ (PartNear ε) ds ds') (hopping lattice T : ℝ)
    (cap : Option Int) : CouplingsNear ε (blueprint hopping lattice T cap ds) (blueprint hopping lattice T cap ds') where
  shape :=
    { nTypes := h.length_eq.symm
      extent := map_near h _ (fun _ _ r => r.2.2.1)
      number := map_near h _ (fun _ _ r => r.2.2.2.1)
      cap := rfl
      lattice := rfl
      terms := (partTerms_near h 0).imp (fun _ _ r => r.1) }
  hopping := rfl
  freqs := map_near h _ (fun _ _ r => r.2.1)
  near := (partTerms_near h 0).imp (fun _ _ r => r.2)

/-- products of numbers that are close -/
theorem mul_near {ε x x' y y' : ℝ} (hε : 0 ≤ ε) (hε1 : ε ≤ 1) (hx : |x' - x| ≤ ε * |x|) (hy : |y' - y| ≤ ε * |y|) :
    |x' * y' - x * y| ≤ 3 * ε * |x * y| := by
  have e : x' * y' - x * y = (x' - x) * y' + x * (y' - y) := by ring
  rw [e]
  refine (abs_add_le _ _).trans ?_
  rw [abs_mul, abs_mul, abs_mul]
  have h1 := mul_le_mul hx (near_abs hε1 hy) (abs_nonneg _) (by positivity)
  have h2 := mul_le_mul_of_nonneg_left hy (abs_nonneg x)
  calc _ ≤ ε * |x| * (2 * |y|) + |x| * (ε * |y|) := add_le_add h1 h2
    _ = _ := by ring

theorem strengthD_near {ε hopping T : ℝ} {as : List (AddArgs ℝ)} {P : Prims ℝ} (hε : 0 ≤ ε) (h : PrimsNear ε hopping T as P)
    {a : AddArgs ℝ} (ha : a ∈ as) (hd : Defined realPrims hopping a) {w : ℝ} (hw : w = a.freq ∨ w = -a.freq) :
    |strengthD P hopping a w - strengthD realPrims hopping a w| ≤ ε * |strengthD realPrims hopping a w| := by
  unfold strengthD Hamiltonian.strength
  cases hl : a.lam with
  | none =>
    cases hg : a.g with
    | some g => simp only [sub_self, abs_zero]; positivity
    | none => simp
  | some l =>
    obtain ⟨g, hg⟩ : ∃ g, realPrims.couplingMap a.ctype hopping w l = .ok g := by
      rcases hw with rfl | rfl
      · exact (hd l hl).1
      · exact (hd l hl).2
    obtain ⟨g', hg', hn⟩ := h.map a ha l hl w hw g hg
    simp only [hg, hg']
    exact hn

theorem partsAt_near {ε hopping T : ℝ} {as : List (AddArgs ℝ)} {P : Prims ℝ} (hε : 0 ≤ ε) (hε1 : ε ≤ 1)
    (h : PrimsNear ε hopping T as P) {a : AddArgs ℝ} (ha : a ∈ as) (hd : Defined realPrims hopping a) :
    List.Forall₂ (PartNear (3 * ε)) (partsAt realPrims hopping T a) (partsAt P hopping T a) := by
  unfold partsAt
  split
  · rename_i hT
    obtain ⟨t1, t2⟩ := h.tfd hT a ha
    exact .cons ⟨rfl, rfl, rfl, rfl, mul_near hε hε1 (strengthD_near hε h ha hd (Or.inl rfl)) t1⟩
      (.cons ⟨rfl, rfl, rfl, rfl, mul_near hε hε1 (strengthD_near hε h ha hd (Or.inr rfl)) t2⟩ .nil)
  · exact .cons ⟨rfl, rfl, rfl, rfl, mul_near hε hε1 (strengthD_near hε h ha hd (Or.inl rfl)) (by simp; positivity)⟩ .nil

theorem parts_near {ε hopping T : ℝ} {P : Prims ℝ} (hε : 0 ≤ ε) (hε1 : ε ≤ 1) (as : List (AddArgs ℝ))
    (h : PrimsNear ε hopping T as P) (hd : ∀ a ∈ as, Defined realPrims hopping a) :
    List.Forall₂ (PartNear (3 * ε)) (parts realPrims hopping T as) (parts P hopping T as) := by
  have key : ∀ bs : List (AddArgs ℝ), (∀ a ∈ bs, a ∈ as) →
      List.Forall₂ (PartNear (3 * ε)) (parts realPrims hopping T bs) (parts P hopping T bs) := by
    intro bs hbs
    induction bs with
    | nil => exact .nil
    | cons a bs ih =>
      have ha := hbs a List.mem_cons_self
      rw [parts_cons, parts_cons]
      exact List.rel_append (partsAt_near hε hε1 h ha (hd a ha)) (ih (fun x hx => hbs x (List.mem_cons_of_mem _ hx)))
  exact key as (fun _ h => h)

/-- inexact conversions are defined for the same calls -/
theorem Spec.PrimsNear.clean {ε hopping T : ℝ} {as : List (AddArgs ℝ)} {P : Prims ℝ} (h : PrimsNear ε hopping T as P)
    (hc : Clean realPrims hopping T as) : Clean P hopping T as where
  valid := hc.valid
  known := hc.known
  noOverride := hc.noOverride
  defined := by
    intro a ha l hl
    obtain ⟨⟨g, hg⟩, ⟨g', hg'⟩⟩ := hc.defined a ha l hl
    obtain ⟨x, hx, -⟩ := h.map a ha l hl _ (Or.inl rfl) g hg
    obtain ⟨y, hy, -⟩ := h.map a ha l hl _ (Or.inr rfl) g' hg'
    exact ⟨⟨x, hx⟩, ⟨y, hy⟩⟩

end GGCE
