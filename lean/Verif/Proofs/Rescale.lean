import Verif.Proofs.Blueprint
import Verif.Spec.Resolvent

/-! Changing the unit of energy, and adding modes without coupling. -/

set_option linter.unusedSectionVars false

namespace GGCE
open Spec Complex

variable {hopping lattice T : ℝ} {cap : Option Int} {ds es : List (Part ℝ)}

/-! ### Units -/

/-- a mode in another unit of energy -/
def scalePart (s : ℝ) (d : Part ℝ) : Part ℝ := { d with freq := s * d.freq, g := s * d.g }

/-- a term in another unit of energy -/
def unitTerm (s : ℝ) (h : SingleTerm ℝ) : SingleTerm ℝ :=
  { h with coupling := s * h.coupling, phononFrequency := s * h.phononFrequency }

theorem partTerms_scale (s : ℝ) (ds : List (Part ℝ)) (i : ℕ) :
    partTerms (ds.map (scalePart s)) i = (partTerms ds i).map (unitTerm s) := by
  unfold partTerms
  rw [List.zipIdx_map, List.flatMap_map, List.map_flatMap]
  congr 1
  funext q
  unfold termsOf
  rw [List.map_map]
  apply List.map_congr_left
  intro x _
  simp only [Function.comp, unitTerm, scalePart, Prod.map]
  congr 1
  split
  · rfl
  · simp

theorem allowed_scale (s T' : ℝ) (ae : ℤ) (n : Occ) :
    Allowed (blueprint (s * hopping) lattice T' cap (ds.map (scalePart s))) ae n ↔
      Allowed (blueprint hopping lattice T cap ds) ae n := by
  have e1 : (ds.map (scalePart s)).map (·.M) = ds.map (·.M) := by rw [List.map_map]; rfl
  have e2 : (ds.map (scalePart s)).map (·.N) = ds.map (·.N) := by rw [List.map_map]; rfl
  constructor
  · rintro ⟨a1, a2, a3, a4, a5, a6⟩
    refine ⟨a1, fun t x h => ?_, a3, a4, fun t M hM => a5 t M ?_, fun t N hN => a6 t N ?_⟩
    · have : t < (ds.map (scalePart s)).length := a2 t x h
      show t < ds.length
      simpa using this
    · show ((ds.map (scalePart s)).map (·.M))[t]? = _
      rw [e1]; exact hM
    · show ((ds.map (scalePart s)).map (·.N))[t]? = _
      rw [e2]; exact hN
  · rintro ⟨a1, a2, a3, a4, a5, a6⟩
    refine ⟨a1, fun t x h => ?_, a3, a4, fun t M hM => a5 t M ?_, fun t N hN => a6 t N ?_⟩
    · have : t < ds.length := a2 t x h
      show t < (ds.map (scalePart s)).length
      simpa using this
    · show (ds.map (·.M))[t]? = _
      rw [← e1]; exact hM
    · show (ds.map (·.N))[t]? = _
      rw [← e2]; exact hN

theorem energy_scale (s T' : ℝ) (n : Occ) :
    occEnergy (blueprint (s * hopping) lattice T' cap (ds.map (scalePart s))) n =
      s * occEnergy (blueprint hopping lattice T cap ds) n := by
  unfold occEnergy
  rw [Finset.mul_sum]
  have hl : (blueprint (s * hopping) lattice T' cap (ds.map (scalePart s))).nTypes =
      (blueprint hopping lattice T cap ds).nTypes := by simp [blueprint]
  rw [hl]
  refine Finset.sum_congr rfl (fun t _ => ?_)
  rw [← mul_assoc]
  congr 1
  show ((ds.map (scalePart s)).map (·.freq)).getD t 0 = s * (ds.map (·.freq)).getD t 0
  rw [List.map_map]
  rw [List.getD_eq_getElem?_getD, List.getD_eq_getElem?_getD, List.getElem?_map, List.getElem?_map]
  cases ds[t]? <;> simp [scalePart]

theorem resolvent_scale {s : ℝ} (hs : s ≠ 0) (T' : ℝ) {ae : ℤ} {k w eta : ℝ} {Ψ : Occ → ℤ → ℂ}
    (hΨ : Resolvent (blueprint hopping lattice T cap ds) ae ⟨k, w, eta⟩ Ψ) :
    Resolvent (blueprint (s * hopping) lattice T' cap (ds.map (scalePart s))) ae ⟨k, s * w, s * eta⟩
      (fun n e => Ψ n e / s) where
  bloch n e x := by
    simp only
    rw [hΨ.bloch n e x, mul_div_assoc]; rfl
  bounded n := by
    obtain ⟨C, hC⟩ := hΨ.bounded n
    refine ⟨C / ‖(s : ℂ)‖, fun e => ?_⟩
    rw [norm_div]
    exact div_le_div_of_nonneg_right (hC e) (norm_nonneg _)
  outside n hn e := by
    rw [hΨ.outside n (fun hc => hn ((allowed_scale s T' ae n).2 hc)) e, zero_div]
  motion n hn e := by
    have h1 := hΨ.motion n ((allowed_scale s T' ae n).1 hn) e
    have hs' : (s : ℂ) ≠ 0 := by exact_mod_cast hs
    have h2 : (((blueprint (s * hopping) lattice T' cap (ds.map (scalePart s))).ham.terms.map
        (fun h : SingleTerm ℝ => (h.coupling : ℂ) * (occFactor h.dag n h.phononIndex (bosonSite h e) : ℂ) *
        (Ψ (n.act h.dag h.phononIndex (bosonSite h e)) (electronSite h e) / s))).sum) =
      (((blueprint hopping lattice T cap ds).ham.terms.map (fun h : SingleTerm ℝ => (h.coupling : ℂ) *
        (occFactor h.dag n h.phononIndex (bosonSite h e) : ℂ) *
        Ψ (n.act h.dag h.phononIndex (bosonSite h e)) (electronSite h e))).sum) := by
      show ((partTerms (ds.map (scalePart s)) 0).map _).sum = _
      rw [partTerms_scale, List.map_map]
      congr 1
      apply List.map_congr_left
      intro h _
      simp only [Function.comp]
      show ((s * h.coupling : ℝ) : ℂ) * (occFactor h.dag n h.phononIndex (bosonSite h e) : ℂ) *
        (Ψ (n.act h.dag h.phononIndex (bosonSite h e)) (electronSite h e) / s) = _
      push_cast
      field_simp
    simp only
    rw [h2, energy_scale s T']
    rw [show (blueprint (s * hopping) lattice T' cap (ds.map (scalePart s))).ham.hopping = s * hopping from rfl]
    rw [show (blueprint (s * hopping) lattice T' cap (ds.map (scalePart s))).latticeConstant =
      (blueprint hopping lattice T cap ds).latticeConstant from rfl]
    rw [← h1]
    push_cast
    rw [show (blueprint hopping lattice T cap ds).ham.hopping = hopping from rfl]
    field_simp

/-! ### Modes without coupling -/

/-- no phonons of the types from `N` on -/
def Without (N : ℕ) (n : Occ) : Prop := ∀ t, N ≤ t → n t = 0

theorem index_partTerms {ds : List (Part ℝ)} {i : ℕ} {h : SingleTerm ℝ} (hh : h ∈ partTerms ds i) :
    i ≤ h.phononIndex ∧ h.phononIndex < i + ds.length := by
  unfold partTerms at hh
  obtain ⟨q, h1, h2⟩ := List.mem_flatMap.1 hh
  rw [(mem_termsOf h2).1]
  have := List.mem_zipIdx h1
  omega

theorem coupling_partTerms {ds : List (Part ℝ)} (hz : ∀ d ∈ ds, d.g = 0) {i : ℕ} {h : SingleTerm ℝ}
    (hh : h ∈ partTerms ds i) : h.coupling = 0 := by
  unfold partTerms at hh
  obtain ⟨q, h1, h2⟩ := List.mem_flatMap.1 hh
  have hg : q.1.g = 0 := hz _ (List.fst_mem_of_mem_zipIdx h1)
  unfold termsOf at h2
  obtain ⟨x, -, rfl⟩ := List.mem_map.1 h2
  simp [hg]

theorem without_act {N : ℕ} {n : Occ} (d : Dag) {t : ℕ} (ht : t < N) (x : ℤ) :
    Without N (n.act d t x) ↔ Without N n := by
  have h1 : ∀ t', N ≤ t' → n.act d t x t' = n t' := by
    intro t' ht'
    funext y
    show n t' y + _ = n t' y
    rw [if_neg (fun h => by omega), add_zero]
  constructor
  · intro h t' ht'; rw [← h1 t' ht']; exact h t' ht'
  · intro h t' ht'; rw [h1 t' ht']; exact h t' ht'

theorem without_shift {N : ℕ} {n : Occ} (s : ℤ) : Without N (n.shift s) ↔ Without N n := by
  constructor
  · intro h t ht
    funext x
    have := congrFun (h t ht) (x + s)
    unfold Occ.shift at this
    simpa using this
  · intro h t ht
    funext x
    show n t (x - s) = 0
    rw [h t ht]; rfl

/-- the limits of further modes do not matter for occupations without their phonons, if the window is that of
the model without them -/
theorem allowed_without (hpos : ∀ d ∈ es, 0 ≤ d.N) {ae ae' : ℤ} {n : Occ} (hn : Without ds.length n)
    (hw : ae' = ae ∨ (ds.length = 1 ∧ ∀ d ∈ ds, d.M = ae) ∧ ae ≤ ae') :
    Allowed (blueprint hopping lattice T cap (ds ++ es)) ae' n ↔
      Allowed (blueprint hopping lattice T cap ds) ae n := by
  have hlt : ∀ t x, n t x ≠ 0 → t < ds.length := by
    intro t x h
    by_contra hc
    exact h (by rw [hn t (by omega)]; rfl)
  have hM : ∀ t, t < ds.length → ((ds ++ es).map (·.M))[t]? = (ds.map (·.M))[t]? := by
    intro t ht
    rw [List.map_append, List.getElem?_append_left (by simpa using ht)]
  have hN : ∀ t, t < ds.length → ((ds ++ es).map (·.N))[t]? = (ds.map (·.N))[t]? := by
    intro t ht
    rw [List.map_append, List.getElem?_append_left (by simpa using ht)]
  constructor
  · rintro ⟨a1, a2, a3, a4, a5, a6⟩
    refine ⟨a1, fun t x h => hlt t x h, a3, ?_, fun t M hm x y hx hy => a5 t M ?_ x y hx hy, fun t N hm => a6 t N ?_⟩
    · intro t x t' y hx hy
      rcases hw with rfl | ⟨⟨h1, h2⟩, h3⟩
      · exact a4 t x t' y hx hy
      · obtain rfl : t = 0 := by have := hlt t x hx; omega
        obtain rfl : t' = 0 := by have := hlt t' y hy; omega
        obtain ⟨d, rfl⟩ := List.length_eq_one_iff.1 h1
        refine a5 0 ae ?_ x y hx hy
        show (([d] ++ es).map (·.M))[0]? = some ae
        simp [h2 d (by simp)]
    · show ((ds ++ es).map (·.M))[t]? = some M
      rw [hM t (hlt t x hx)]; exact hm
    · have : t < ds.length := by
        have := (List.getElem?_eq_some_iff.1 (show (ds.map (·.N))[t]? = some N from hm)).1
        simpa using this
      show ((ds ++ es).map (·.N))[t]? = some N
      rw [hN t this]; exact hm
  · rintro ⟨a1, a2, a3, a4, a5, a6⟩
    refine ⟨a1, fun t x h => ?_, a3, ?_, fun t M hm x y hx hy => a5 t M ?_ x y hx hy, fun t N hm => ?_⟩
    · show t < (ds ++ es).length
      have := hlt t x h
      rw [List.length_append]; omega
    · intro t x t' y hx hy
      have := a4 t x t' y hx hy
      rcases hw with rfl | ⟨-, h3⟩ <;> omega
    · show (ds.map (·.M))[t]? = some M
      rw [← hM t (hlt t x hx)]; exact hm
    · by_cases ht : t < ds.length
      · refine a6 t N ?_
        show (ds.map (·.N))[t]? = some N
        rw [← hN t ht]; exact hm
      · rw [hn t (by omega)]
        have hm' : ((ds ++ es).map (·.N))[t]? = some N := hm
        rw [List.map_append, List.getElem?_append_right (by simp; omega)] at hm'
        obtain ⟨d, hd, rfl⟩ := List.mem_map.1 (List.mem_of_getElem? hm')
        simpa using hpos d hd

theorem energy_without {n : Occ} (hn : Without ds.length n) :
    occEnergy (blueprint hopping lattice T cap (ds ++ es)) n = occEnergy (blueprint hopping lattice T cap ds) n := by
  unfold occEnergy
  rw [show (blueprint hopping lattice T cap (ds ++ es)).nTypes = ds.length + es.length by
    simp [blueprint]]
  rw [show (blueprint hopping lattice T cap ds).nTypes = ds.length from rfl]
  rw [Finset.sum_range_add]
  rw [Finset.sum_eq_zero (s := Finset.range es.length), add_zero]
  · refine Finset.sum_congr rfl (fun t ht => ?_)
    congr 1
    show ((ds ++ es).map (·.freq)).getD t 0 = (ds.map (·.freq)).getD t 0
    rw [List.getD_eq_getElem?_getD, List.getD_eq_getElem?_getD, List.map_append,
      List.getElem?_append_left (by simpa using ht)]
  · intro t _
    rw [hn (ds.length + t) (by omega)]
    simp

open Classical in
theorem resolvent_without (hz : ∀ d ∈ es, d.g = 0) (hpos : ∀ d ∈ es, 0 ≤ d.N) {ae ae' : ℤ}
    (hw : ae' = ae ∨ (ds.length = 1 ∧ ∀ d ∈ ds, d.M = ae) ∧ ae ≤ ae') {p : Point ℝ} {Ψ : Occ → ℤ → ℂ}
    (hΨ : Resolvent (blueprint hopping lattice T cap ds) ae p Ψ) :
    Resolvent (blueprint hopping lattice T cap (ds ++ es)) ae' p
      (fun n e => if Without ds.length n then Ψ n e else 0) where
  bloch n e s := by
    by_cases h : Without ds.length n
    · rw [if_pos h, if_pos ((without_shift s).2 h)]; exact hΨ.bloch n e s
    · rw [if_neg h, if_neg (fun hc => h ((without_shift s).1 hc)), mul_zero]
  bounded n := by
    obtain ⟨C, hC⟩ := hΨ.bounded n
    refine ⟨C, fun e => ?_⟩
    split
    · exact hC e
    · rw [norm_zero]; exact (norm_nonneg _).trans (hC e)
  outside n hn e := by
    by_cases h : Without ds.length n
    · rw [if_pos h]; exact hΨ.outside n (fun hc => hn ((allowed_without hpos h hw).2 hc)) e
    · rw [if_neg h]
  motion n hn e := by
    have h2 : (((blueprint hopping lattice T cap (ds ++ es)).ham.terms.map (fun h : SingleTerm ℝ => (h.coupling : ℂ) *
        (occFactor h.dag n h.phononIndex (bosonSite h e) : ℂ) *
        (if Without ds.length (n.act h.dag h.phononIndex (bosonSite h e)) then
          Ψ (n.act h.dag h.phononIndex (bosonSite h e)) (electronSite h e) else 0))).sum) =
      if Without ds.length n then
        (((blueprint hopping lattice T cap ds).ham.terms.map (fun h : SingleTerm ℝ => (h.coupling : ℂ) *
        (occFactor h.dag n h.phononIndex (bosonSite h e) : ℂ) *
        Ψ (n.act h.dag h.phononIndex (bosonSite h e)) (electronSite h e))).sum) else 0 := by
      show ((partTerms (ds ++ es) 0).map _).sum = _
      rw [partTerms_append, List.map_append, List.sum_append]
      have hz2 : ((partTerms es (0 + ds.length)).map (fun h : SingleTerm ℝ => (h.coupling : ℂ) *
        (occFactor h.dag n h.phononIndex (bosonSite h e) : ℂ) *
        (if Without ds.length (n.act h.dag h.phononIndex (bosonSite h e)) then
          Ψ (n.act h.dag h.phononIndex (bosonSite h e)) (electronSite h e) else 0))).sum = 0 := by
        apply List.sum_eq_zero
        intro x hx
        obtain ⟨h, hh, rfl⟩ := List.mem_map.1 hx
        rw [coupling_partTerms hz hh]; simp
      rw [hz2, add_zero]
      by_cases h : Without ds.length n
      · rw [if_pos h]
        show _ = ((partTerms ds 0).map _).sum
        congr 1
        apply List.map_congr_left
        intro t ht
        rw [if_pos ((without_act t.dag (by have := (index_partTerms ht).2; omega) _).2 h)]
      · rw [if_neg h]
        apply List.sum_eq_zero
        intro x hx
        obtain ⟨t, ht, rfl⟩ := List.mem_map.1 hx
        rw [if_neg (fun hc => h ((without_act t.dag (by have := (index_partTerms ht).2; omega) _).1 hc)), mul_zero]
    rw [h2]
    by_cases h : Without ds.length n
    · simp only [if_pos h]
      rw [energy_without h]
      exact hΨ.motion n ((allowed_without hpos h hw).1 hn) e
    · simp only [if_neg h]
      have h0 : n ≠ 0 := by rintro rfl; exact h (fun _ _ => rfl)
      rw [if_neg h0]
      simp

end GGCE
