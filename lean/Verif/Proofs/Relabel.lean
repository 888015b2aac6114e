import Verif.Proofs.Blueprint
import Verif.Spec.Resolvent
import Mathlib.Logic.Equiv.Nat

/-! The order of the modes of a model does not matter. -/

set_option linter.unusedSectionVars false

namespace GGCE
open Spec Complex

/-- the shift of a permutation of the positions by one -/
def consEquiv (π : ℕ ≃ ℕ) : ℕ ≃ ℕ where
  toFun i := match i with | 0 => 0 | i + 1 => π i + 1
  invFun i := match i with | 0 => 0 | i + 1 => π.symm i + 1
  left_inv i := by cases i <;> simp
  right_inv i := by cases i <;> simp

theorem perm_equiv {α : Type} {l l' : List α} (h : l.Perm l') : ∃ π : ℕ ≃ ℕ, ∀ i, l'[π i]? = l[i]? := by
  induction h with
  | nil => exact ⟨Equiv.refl _, fun _ => rfl⟩
  | cons x _ ih =>
    obtain ⟨π, h⟩ := ih
    refine ⟨consEquiv π, fun i => ?_⟩
    cases i with
    | zero => rfl
    | succ i => simpa [consEquiv] using h i
  | swap x y l =>
    refine ⟨Equiv.swap 0 1, fun i => ?_⟩
    match i with
    | 0 => simp
    | 1 => simp
    | i + 2 => rw [Equiv.swap_apply_of_ne_of_ne (by omega) (by omega)]; rfl
  | trans _ _ ih1 ih2 =>
    obtain ⟨π, h⟩ := ih1
    obtain ⟨ρ, k⟩ := ih2
    exact ⟨π.trans ρ, fun i => by rw [Equiv.trans_apply, k, h]⟩

/-- the occupations with the types renamed -/
def Spec.Occ.rename (π : ℕ ≃ ℕ) (n : Occ) : Occ := fun t => n (π t)

theorem rename_shift (π : ℕ ≃ ℕ) (n : Occ) (s : ℤ) : (n.shift s).rename π = (n.rename π).shift s := rfl

theorem rename_act (π : ℕ ≃ ℕ) (n : Occ) (d : Dag) (t : ℕ) (x : ℤ) :
    (n.act d (π t) x).rename π = (n.rename π).act d t x := by
  funext t' y
  show n (π t') y + _ = n (π t') y + _
  simp

theorem rename_eq_zero {π : ℕ ≃ ℕ} {n : Occ} : n.rename π = 0 ↔ n = 0 := by
  constructor
  · intro h
    funext t
    have := congrFun h (π.symm t)
    unfold Occ.rename at this
    simpa using this
  · rintro rfl; rfl

variable {hopping lattice T : ℝ} {cap : Option Int} {ds ds' : List (Part ℝ)} {π : ℕ ≃ ℕ}

theorem equiv_lt {α : Type} {l l' : List α} (h : ∀ i, l'[π i]? = l[i]?) (i : ℕ) :
    π i < l'.length ↔ i < l.length := by
  have := h i
  constructor
  · intro hi
    rw [List.getElem?_eq_getElem hi] at this
    exact (List.getElem?_eq_some_iff.1 this.symm).1
  · intro hi
    rw [List.getElem?_eq_getElem hi] at this
    exact (List.getElem?_eq_some_iff.1 this).1

theorem equiv_length {α : Type} {l l' : List α} (h : ∀ i, l'[π i]? = l[i]?) : l'.length = l.length := by
  have h1 : (Finset.range l.length).map π.toEmbedding = Finset.range l'.length := by
    ext j
    simp only [Finset.mem_map, Finset.mem_range, Equiv.coe_toEmbedding]
    constructor
    · rintro ⟨i, hi, rfl⟩; exact (equiv_lt h i).2 hi
    · intro hj; exact ⟨π.symm j, (equiv_lt h _).1 (by simpa using hj), by simp⟩
  have := congrArg Finset.card h1
  simpa using this.symm

theorem map_equiv {α β : Type} {l l' : List α} (f : α → β) (h : ∀ i, l'[π i]? = l[i]?) (i : ℕ) :
    (l'.map f)[π i]? = (l.map f)[i]? := by
  rw [List.getElem?_map, List.getElem?_map, h]

theorem allowed_rename (h : ∀ i, ds'[π i]? = ds[i]?) (ae : ℤ) (n : Occ) :
    Allowed (blueprint hopping lattice T cap ds) ae (n.rename π) ↔
      Allowed (blueprint hopping lattice T cap ds') ae n := by
  have hn : ∀ t, n.rename π (π.symm t) = n t := fun t => by unfold Occ.rename; simp
  constructor
  · rintro ⟨a1, a2, a3, a4, a5, a6⟩
    refine ⟨?_, ?_, ?_, ?_, ?_, ?_⟩
    · intro t x; rw [← hn]; exact a1 _ _
    · intro t x hx
      rw [← hn] at hx
      have : π.symm t < ds.length := a2 _ _ hx
      have := (equiv_lt h _).2 this
      show t < ds'.length
      simpa using this
    · intro c hc t x; rw [← hn]; exact a3 c hc _ _
    · intro t x t' y hx hy
      rw [← hn] at hx hy
      exact a4 _ _ _ _ hx hy
    · intro t M hM x y hx hy
      rw [← hn] at hx hy
      refine a5 (π.symm t) M ?_ x y hx hy
      show (ds.map (·.M))[π.symm t]? = _
      rw [← map_equiv _ h]; simpa [blueprint] using hM
    · intro t N hN
      rw [← hn]
      refine a6 (π.symm t) N ?_
      show (ds.map (·.N))[π.symm t]? = _
      rw [← map_equiv _ h]; simpa [blueprint] using hN
  · rintro ⟨a1, a2, a3, a4, a5, a6⟩
    refine ⟨fun t x => a1 _ _, ?_, fun c hc t x => a3 c hc _ _, fun t x t' y hx hy => a4 _ _ _ _ hx hy, ?_, ?_⟩
    · intro t x hx
      have : π t < ds'.length := a2 _ _ hx
      exact (equiv_lt h _).1 this
    · intro t M hM x y hx hy
      refine a5 (π t) M ?_ x y hx hy
      show (ds'.map (·.M))[π t]? = _
      rw [map_equiv _ h]; exact hM
    · intro t N hN
      refine a6 (π t) N ?_
      show (ds'.map (·.N))[π t]? = _
      rw [map_equiv _ h]; exact hN

theorem energy_rename (h : ∀ i, ds'[π i]? = ds[i]?) (n : Occ) :
    occEnergy (blueprint hopping lattice T cap ds) (n.rename π) = occEnergy (blueprint hopping lattice T cap ds') n := by
  unfold occEnergy
  refine Finset.sum_equiv π ?_ ?_
  · intro t
    simp only [Finset.mem_range]
    exact (equiv_lt h t).symm
  · intro t _
    congr 1
    show (ds.map (·.freq)).getD t 0 = (ds'.map (·.freq)).getD (π t) 0
    rw [List.getD_eq_getElem?_getD, List.getD_eq_getElem?_getD, map_equiv _ h]

/-- a term of another type -/
def retype (π : ℕ ≃ ℕ) (h : SingleTerm ℝ) : SingleTerm ℝ := { h with phononIndex := π h.phononIndex }

theorem zipIdx_perm {α : Type} {l l' : List α} (h : ∀ i, l'[π i]? = l[i]?) :
    (l'.zipIdx).Perm ((l.zipIdx).map (fun q => (q.1, π q.2))) := by
  have hnd : ∀ l : List α, l.zipIdx.Nodup := by
    intro l
    refine List.Nodup.of_map Prod.snd ?_
    rw [List.zipIdx_map_snd]
    exact List.nodup_range'
  rw [List.perm_ext_iff_of_nodup (hnd l')]
  · rintro ⟨x, j⟩
    simp only [List.mem_map, Prod.mk.injEq, Prod.exists]
    constructor
    · intro hx
      refine ⟨x, π.symm j, ?_, rfl, by simp⟩
      rw [List.mem_zipIdx_iff_getElem?] at hx ⊢
      simp only at hx ⊢
      rw [← h]; simpa using hx
    · rintro ⟨y, i, hy, rfl, rfl⟩
      rw [List.mem_zipIdx_iff_getElem?] at hy ⊢
      simp only at hy ⊢
      rw [h]; exact hy
  · refine List.Nodup.map ?_ (hnd l)
    rintro ⟨x, i⟩ ⟨y, j⟩ e
    simp only [Prod.mk.injEq, EmbeddingLike.apply_eq_iff_eq] at e
    rw [e.1, e.2]

theorem terms_rename (h : ∀ i, ds'[π i]? = ds[i]?) :
    (partTerms ds' 0).Perm ((partTerms ds 0).map (retype π)) := by
  unfold partTerms
  refine ((zipIdx_perm h).flatMap_right _).trans ?_
  rw [List.flatMap_map, List.map_flatMap]
  refine List.Perm.of_eq ?_
  congr 1
  funext q
  unfold termsOf
  rw [List.map_map]
  rfl

theorem resolvent_rename (h : ∀ i, ds'[π i]? = ds[i]?) {ae : ℤ} {p : Point ℝ} {Ψ : Occ → ℤ → ℂ}
    (hΨ : Resolvent (blueprint hopping lattice T cap ds) ae p Ψ) :
    Resolvent (blueprint hopping lattice T cap ds') ae p (fun n e => Ψ (n.rename π) e) where
  bloch n e s := hΨ.bloch (n.rename π) e s
  bounded n := hΨ.bounded (n.rename π)
  outside n hn e := hΨ.outside _ (fun hc => hn ((allowed_rename h ae n).1 hc)) e
  motion n hn e := by
    have h1 := hΨ.motion (n.rename π) ((allowed_rename h ae n).2 hn) e
    have h2 : (((blueprint hopping lattice T cap ds').ham.terms.map (fun h : SingleTerm ℝ => (h.coupling : ℂ) *
        (occFactor h.dag n h.phononIndex (bosonSite h e) : ℂ) *
        Ψ ((n.act h.dag h.phononIndex (bosonSite h e)).rename π) (electronSite h e))).sum) =
      (((blueprint hopping lattice T cap ds).ham.terms.map (fun h : SingleTerm ℝ => (h.coupling : ℂ) *
        (occFactor h.dag (n.rename π) h.phononIndex (bosonSite h e) : ℂ) *
        Ψ ((n.rename π).act h.dag h.phononIndex (bosonSite h e)) (electronSite h e))).sum) := by
      refine (((terms_rename h).map _).sum_eq).trans ?_
      rw [List.map_map]
      congr 1
      apply List.map_congr_left
      intro h _
      simp only [Function.comp]
      show (h.coupling : ℂ) * (occFactor h.dag n (π h.phononIndex) (bosonSite h e) : ℂ) *
        Ψ ((n.act h.dag (π h.phononIndex) (bosonSite h e)).rename π) (electronSite h e) = _
      rw [rename_act]
      congr 2
    rw [h2, ← energy_rename h]
    rw [show (blueprint hopping lattice T cap ds').ham.hopping = (blueprint hopping lattice T cap ds).ham.hopping
      from rfl]
    rw [h1]
    by_cases h0 : n = 0
    · rw [if_pos h0, if_pos (rename_eq_zero.2 h0)]; rfl
    · rw [if_neg h0, if_neg (fun hc => h0 (rename_eq_zero.1 hc))]

end GGCE
