import Verif.Spec.Resolvent
import Verif.Proofs.Links
import Mathlib.Algebra.Order.BigOperators.Group.Finset
import Mathlib.Algebra.BigOperators.Intervals

/-! Occupations of the infinite chain and clouds: an allowed occupation is a cloud of the truncated space
(or the vacuum) placed somewhere on the chain. -/

set_option linter.unusedSectionVars false

namespace GGCE
open Spec Arr

/-- the cloud `a` with its first site at chain site `s` -/
def placed (a : Arr) (s : ℤ) : Occ := fun t x => chain a t (x - s)

section
variable {R : Type} [Field R] [LinearOrder R] {m : Model R} {ae : ℤ} {a b : Arr} {s s' : ℤ} {n : Occ}

theorem placed_shift (a : Arr) (s s' : ℤ) : (placed a s).shift s' = placed a (s + s') := by
  funext t x
  show chain a t (x - s' - s) = chain a t (x - (s + s'))
  congr 1; ring

theorem placed_vac (s : ℤ) : placed (vac m) s = 0 := by
  funext t x; exact chain_vac m t _

theorem finsum_placed (h : a.WF) (t : ℕ) (s : ℤ) : ∑ᶠ x, placed a s t x = typeTotal a t := by
  rw [typeTotal_eq_sum h t (lo := 0) (hi := a.len) le_rfl le_rfl]
  rw [finsum_eq_sum_of_support_subset (s := Finset.Ico s (s + a.len))]
  · refine Finset.sum_bij (fun x _ => x - s) ?_ ?_ ?_ ?_
    · intro x hx; rw [Finset.mem_Ico] at hx ⊢; omega
    · intro x _ y _ e; simpa using e
    · intro y hy; rw [Finset.mem_Ico] at hy; exact ⟨y + s, by rw [Finset.mem_Ico]; omega, by omega⟩
    · intro x _; rfl
  · intro x hx
    rw [Function.mem_support] at hx
    by_contra hc
    apply hx
    apply chain_outside h
    rintro ⟨-, h1, h2⟩
    apply hc
    rw [Finset.mem_coe, Finset.mem_Ico]
    omega

theorem placed_inj (ha : InTruncation m ae a) (hb : InTruncation m ae b)
    (h : placed a s = placed b s') : a = b ∧ s = s' := by
  obtain ⟨h1, h2⟩ := cloud_unique (d := s - s') ha.2.2.toCloud hb.2.2.toCloud
    (by show a.rows.length = b.rows.length; rw [ha.2.1, hb.2.1]) (by
      intro t y
      have := congrFun (congrFun h t) (y + s)
      unfold placed at this
      rw [show y + s - s = y by ring, show y + s - s' = y + (s - s') by ring] at this
      exact this.symm)
  exact ⟨h2, by omega⟩

theorem placed_ne_zero (ha : InTruncation m ae a) : placed a s ≠ 0 := by
  intro h
  obtain ⟨t, ht⟩ := ha.2.2.left
  apply ht
  have := congrFun (congrFun h t) s
  unfold placed at this
  rwa [sub_self] at this

theorem allowed_zero (hm : Shaped m ae) : Allowed m ae 0 where
  nonneg _ _ := le_refl _
  types _ _ h := absurd rfl h
  cap c hc _ _ := by have := hm.capPos c hc; simp only [Pi.zero_apply]; omega
  window _ _ _ _ h := absurd rfl h
  extent _ _ _ _ _ h := absurd rfl h
  number t N hN := by
    have := hm.numPos N (List.mem_of_getElem? hN)
    simp only [Pi.zero_apply, finsum_zero]
    omega

theorem allowed_placed (hm : Shaped m ae) (ha : Node m ae a) : Allowed m ae (placed a s) := by
  rcases ha with rfl | ha
  · rw [placed_vac]; exact allowed_zero hm
  · have hwf := ha.2.2.wf
    have hin : ∀ t x, placed a s t x ≠ 0 → t < a.rows.length ∧ 0 ≤ x - s ∧ x - s < a.len := by
      intro t x hx
      by_contra hc
      exact hx (chain_outside hwf hc)
    refine ⟨fun t x => chain_nonneg ha.2.2.toProper t _, ?_, ?_, ?_, ?_, ?_⟩
    · intro t x hx
      rw [← ha.2.1]; exact (hin t x hx).1
    · intro c hc t x; exact ha.2.2.capOk c hc t _
    · intro t x t' y hx hy
      have h1 := hin t x hx
      have h2 := hin t' y hy
      have := ha.1
      omega
    · intro t M hM x y hx hy
      obtain ⟨M', h1, h2⟩ := ha.2.2.extentOk _ rfl t (hin t x hx).1
      rw [hM] at h1; cases h1
      have := h2.2 _ _ hx hy
      omega
    · intro t N hN
      rw [finsum_placed hwf]
      have ht : t < a.rows.length := by
        rw [ha.2.1, ← hm.num]; exact (List.getElem?_eq_some_iff.1 hN).1
      obtain ⟨N', h1, h2⟩ := ha.2.2.numberOk _ rfl t ht
      rw [hN] at h1; cases h1
      exact h2

/-- the array with given occupations -/
def ofOcc (k : ℕ) (l : ℕ) (n : Occ) (s : ℤ) : Arr :=
  ⟨(List.range k).map (fun t => (List.range l).map (fun i : ℕ => n t (s + i))), l⟩

theorem ofOcc_wf (k l : ℕ) (n : Occ) (s : ℤ) : (ofOcc k l n s).WF := by
  intro r hr
  obtain ⟨t, -, rfl⟩ := List.mem_map.1 hr
  simp [ofOcc]

theorem chain_ofOcc {k l : ℕ} {n : Occ} {s : ℤ} (h : ∀ t x, n t x ≠ 0 → t < k ∧ s ≤ x ∧ x < s + l) (t : ℕ) (x : ℤ) :
    chain (ofOcc k l n s) t x = n t (x + s) := by
  by_cases hc : n t (x + s) = 0
  · rw [hc]
    by_cases hin : t < k ∧ 0 ≤ x ∧ x < l
    · unfold chain
      rw [if_pos hin.2.1]
      have h1 : (ofOcc k l n s).rows[t]? = some ((List.range l).map (fun i : ℕ => n t (s + i))) := by
        simp [ofOcc, hin.1]
      have h2 : x.toNat < l := by omega
      rw [h1]
      simp only [List.getElem?_map, List.getElem?_range h2, Option.map_some]
      rw [show s + (x.toNat : ℤ) = x + s by omega]
      exact hc
    · apply chain_outside (ofOcc_wf k l n s)
      simpa [ofOcc] using hin
  · obtain ⟨h1, h2, h3⟩ := h t _ hc
    unfold chain
    rw [if_pos (by omega)]
    have e1 : (ofOcc k l n s).rows[t]? = some ((List.range l).map (fun i : ℕ => n t (s + i))) := by
      simp [ofOcc, h1]
    have e2 : x.toNat < l := by omega
    rw [e1]
    simp only [List.getElem?_map, List.getElem?_range e2, Option.map_some]
    rw [show s + (x.toNat : ℤ) = x + s by omega]

theorem exists_placed (hm : Shaped m ae) (hn : Allowed m ae n) : ∃ a s, Node m ae a ∧ n = placed a s := by
  by_cases h0 : n = 0
  · exact ⟨vac m, 0, Or.inl rfl, by rw [h0, placed_vac]⟩
  obtain ⟨t0, x0, hx0⟩ : ∃ t x, n t x ≠ 0 := by
    by_contra hc
    push Not at hc
    exact h0 (funext fun t => funext fun x => hc t x)
  have hb : ∀ t x, n t x ≠ 0 → x0 - ae < x ∧ x < x0 + ae := by
    intro t x hx
    have h1 := hn.window _ _ _ _ hx0 hx
    have h2 := hn.window _ _ _ _ hx hx0
    omega
  obtain ⟨l, ⟨tl, hl⟩, hlmin⟩ := Int.exists_least_of_bdd (P := fun x => ∃ t, n t x ≠ 0)
    ⟨x0 - ae, fun x ⟨t, hx⟩ => (hb t x hx).1.le⟩ ⟨x0, t0, hx0⟩
  obtain ⟨r, ⟨tr, hr⟩, hrmax⟩ := Int.exists_greatest_of_bdd (P := fun x => ∃ t, n t x ≠ 0)
    ⟨x0 + ae, fun x ⟨t, hx⟩ => (hb t x hx).2.le⟩ ⟨x0, t0, hx0⟩
  have hlr : l ≤ r := hlmin r ⟨tr, hr⟩
  obtain ⟨k, hk⟩ : ∃ k : ℕ, (k : ℤ) = r - l + 1 := ⟨(r - l + 1).toNat, by omega⟩
  have hsup : ∀ t x, n t x ≠ 0 → t < m.nTypes ∧ l ≤ x ∧ x < l + k := by
    intro t x hx
    have := hlmin x ⟨t, hx⟩
    have := hrmax x ⟨t, hx⟩
    exact ⟨hn.types t x hx, by omega, by omega⟩
  have hch := fun t x => chain_ofOcc hsup t x
  set a := ofOcc m.nTypes k n l with ha
  have hwf : a.WF := ofOcc_wf _ _ _ _
  have hlen : (a.len : ℤ) = k := rfl
  have hrows : a.rows.length = m.nTypes := by simp [ha, ofOcc]
  have hpl : n = placed a l := by
    funext t x
    unfold placed
    rw [hch]; congr 1; ring
  refine ⟨a, l, Or.inr ⟨?_, hrows, ⟨⟨⟨hwf, ?_⟩, ?_, ?_, ?_⟩, ?_, ?_, ?_⟩⟩, hpl⟩
  · have := hn.window _ _ _ _ hl hr; omega
  · exact (nonneg_iff_get a).2 (fun t x => by rw [get_of_chain, hch]; exact hn.nonneg _ _)
  · omega
  · exact ⟨tl, by rw [hch, zero_add]; exact hl⟩
  · exact ⟨tr, by rw [hch, hlen, show (k : ℤ) - 1 + l = r by omega]; exact hr⟩
  · intro c hc t x; rw [hch]; exact hn.cap c hc _ _
  · intro M hM t ht
    cases hM
    rw [hrows, ← hm.ext] at ht
    refine ⟨m.extent[t], List.getElem?_eq_getElem ht, ?_, ?_⟩
    · have := hm.extPos _ (List.getElem_mem ht); omega
    · intro x y hx hy
      rw [hch] at hx hy
      have := hn.extent t _ (List.getElem?_eq_getElem ht) _ _ hx hy
      omega
  · intro N hN t ht
    cases hN
    rw [hrows, ← hm.num] at ht
    refine ⟨m.number[t], List.getElem?_eq_getElem ht, ?_⟩
    have := hn.number t _ (List.getElem?_eq_getElem ht)
    rw [hpl, finsum_placed hwf] at this
    exact this

end

theorem energy_placed {m : Model ℝ} {ae : ℤ} {a : Arr} (ha : Node m ae a) (s : ℤ) :
    occEnergy m (placed a s) = energy m a := by
  have hr : a.rows.length = m.nTypes := by
    rcases ha with rfl | ha
    · simp [vac, Arr.zeros]
    · exact ha.2.1
  unfold occEnergy energy
  rw [hr, ← Finset.sum_map_val]
  simp only [finsum_placed ha.wf]
  rfl

end GGCE
