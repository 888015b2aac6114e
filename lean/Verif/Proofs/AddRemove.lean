import Verif.Proofs.Config

/-! The effect of `add_phonon_` and `remove_phonon_` on the infinite chain. -/

namespace GGCE
open Spec

namespace Arr

theorem Proper.get_nonneg {a : Arr} (h : Proper a) (t x : Nat) : 0 ≤ a.get t x :=
  (nonneg_iff_get a).1 h.nonneg t x

theorem proper_of_get {a : Arr} (h : a.WF) (hn : ∀ t x, 0 ≤ a.get t x) : Proper a :=
  ⟨h, (nonneg_iff_get a).2 hn⟩

theorem occupied_nat (a : Arr) (x : Nat) : Occupied a (x : Int) ↔ ∃ t, a.get t x ≠ 0 := by
  simp [Occupied, get_eq_chain]

theorem Proper.colSum_pos_iff {a : Arr} (h : Proper a) (x : Nat) :
    0 < a.colSum x ↔ ∃ t, a.get t x ≠ 0 := by
  obtain ⟨h1, h2⟩ := colSum_nonneg_iff (a := a) (Proper.get_nonneg h) x
  constructor
  · intro hp
    by_contra hc
    push Not at hc
    have := h2.2 hc
    omega
  · rintro ⟨t, ht⟩
    have : a.colSum x ≠ 0 := fun e => ht (h2.1 e t)
    omega

theorem Proper.total_eq_zero_iff {a : Arr} (h : Proper a) :
    a.total = 0 ↔ ∀ t x, a.get t x = 0 :=
  (total_nonneg_iff (a := a) (Proper.get_nonneg h)).2

theorem Cloud.left' {a : Arr} (h : Cloud a) : ∃ t, a.get t 0 ≠ 0 := by
  have := h.left
  rwa [show (0 : Int) = ((0 : Nat) : Int) from rfl, occupied_nat] at this

theorem Cloud.right' {a : Arr} (h : Cloud a) : ∃ t, a.get t (a.len - 1) ≠ 0 := by
  have := h.right
  have hp := h.pos
  rwa [show ((a.len : Int) - 1) = ((a.len - 1 : Nat) : Int) by omega, occupied_nat] at this

theorem cloud_of_get {a : Arr} (h : Proper a) (hp : 0 < a.len) (hl : ∃ t, a.get t 0 ≠ 0)
    (hr : ∃ t, a.get t (a.len - 1) ≠ 0) : Cloud a where
  toProper := h
  pos := hp
  left := by rwa [show (0 : Int) = ((0 : Nat) : Int) from rfl, occupied_nat]
  right := by
    rwa [show ((a.len : Int) - 1) = ((a.len - 1 : Nat) : Int) by omega, occupied_nat]

theorem total_ne_zero_of_cloud {a : Arr} (h : Cloud a) : a.total ≠ 0 := by
  intro e
  obtain ⟨t, ht⟩ := Cloud.left' h
  exact ht ((Proper.total_eq_zero_iff h.toProper).1 e t 0)

/-! #### take / drop / pad of all rows -/

theorem get_take (a : Arr) (n : Nat) (t x : Nat) :
    (Arr.mk (a.rows.map (List.take n)) n).get t x = if x < n then a.get t x else 0 := by
  rw [get_mapRows _ _ _ _ _ (by simp)]
  unfold get
  simp only [List.getD_eq_getElem?_getD, List.getElem?_take]
  split <;> rfl

theorem get_drop (a : Arr) (n m : Nat) (t x : Nat) :
    (Arr.mk (a.rows.map (List.drop n)) m).get t x = a.get t (n + x) := by
  rw [get_mapRows _ _ _ _ _ (by simp)]
  unfold get
  simp only [List.getD_eq_getElem?_getD, List.getElem?_drop]

theorem wf_take {a : Arr} (h : a.WF) {n : Nat} (hn : n ≤ a.len) :
    (Arr.mk (a.rows.map (List.take n)) n).WF := by
  intro r hr
  simp only [List.mem_map] at hr
  obtain ⟨r', hr', rfl⟩ := hr
  simp [h r' hr', hn]

theorem wf_drop {a : Arr} (h : a.WF) (n : Nat) :
    (Arr.mk (a.rows.map (List.drop n)) (a.len - n)).WF := by
  intro r hr
  simp only [List.mem_map] at hr
  obtain ⟨r', hr', rfl⟩ := hr
  simp [h r' hr']

/-- pad all rows with `p` zeros on the left and `q` on the right -/
def padded (a : Arr) (p q : Nat) : Arr :=
  ⟨a.rows.map (fun r => List.replicate p 0 ++ r ++ List.replicate q 0), a.len + p + q⟩

theorem wf_padded {a : Arr} (h : a.WF) (p q : Nat) : (a.padded p q).WF := by
  intro r hr
  simp only [padded, List.mem_map] at hr
  obtain ⟨r', hr', rfl⟩ := hr
  simp [padded, h r' hr']; omega

theorem getD_append_replicate (l : List Int) (q x : Nat) :
    (l ++ List.replicate q 0).getD x 0 = l.getD x 0 := by
  simp only [List.getD_eq_getElem?_getD, List.getElem?_append, List.getElem?_replicate]
  by_cases h : x < l.length
  · simp [h]
  · simp only [h, if_false, List.getElem?_eq_none (Nat.le_of_not_lt h)]
    split <;> rfl

theorem getD_replicate_append (l : List Int) (p x : Nat) :
    (List.replicate p 0 ++ l).getD x 0 = if p ≤ x then l.getD (x - p) 0 else 0 := by
  simp only [List.getD_eq_getElem?_getD, List.getElem?_append, List.getElem?_replicate,
    List.length_replicate]
  by_cases h : x < p
  · have : ¬ p ≤ x := by omega
    simp [h, this]
  · have : p ≤ x := by omega
    simp [h, this]

theorem get_padded (a : Arr) (p q t x : Nat) :
    (a.padded p q).get t x = if p ≤ x then a.get t (x - p) else 0 := by
  unfold padded
  rw [get_mapRows _ _ _ _ _ (by
    rw [getD_append_replicate, List.append_nil]
    have := getD_replicate_append [] p x
    rw [List.append_nil] at this
    rw [this]; split <;> simp)]
  rw [getD_append_replicate, getD_replicate_append]
  rfl

theorem nTypes_padded (a : Arr) (p q : Nat) : (a.padded p q).nTypes = a.nTypes := by
  simp [padded, nTypes]

end Arr

open Arr

namespace Config

/-- full effect of `add_phonon_` -/
theorem addPhonon_spec {c : Config} (hwf : c.arr.WF) (hm : c.mods < c.maxMods) {t : Nat}
    (ht : t < c.arr.nTypes) (x : Int) :
    ∃ c' s, c.addPhonon t x = .ok (c', s) ∧ c'.arr.WF ∧ c'.arr.nTypes = c.arr.nTypes ∧
      c'.maxMods = c.maxMods ∧ c'.mods = c.mods + 1 ∧ s = max 0 (-x) ∧
      (c'.arr.len : Int) = max (c.arr.len : Int) (x + 1) - min 0 x ∧
      ∀ t' y, chain c'.arr t' (y + s) = chain c.arr t' y + if t' = t ∧ y = x then 1 else 0 := by
  have h1 : ¬ c.maxMods ≤ c.mods := by omega
  have h2 : ¬ ((t : Int) < 0 ∨ (t : Int) > (c.arr.nTypes : Int) - 1) := by omega
  by_cases hx : 0 ≤ x ∧ x < (c.arr.len : Int)
  · refine ⟨⟨c.arr.bump t x.toNat 1, c.maxMods, c.mods + 1⟩, 0, ?_, hwf.bump _ _ _,
      nTypes_bump _ _ _ _, rfl, rfl, by omega, ?_, ?_⟩
    · simp only [addPhonon, if_neg h1, if_neg h2, if_pos hx, Int.toNat_natCast]
    · simp only [len_bump]; omega
    · intro t' y
      rw [chain_eq, chain_eq, Int.add_zero]
      by_cases hy : 0 ≤ y
      · rw [if_pos hy, if_pos hy, get_bump hwf ht (by omega)]
        congr 1
        have : (y.toNat = x.toNat) = (y = x) := by apply propext; omega
        simp only [this]
      · rw [if_neg hy, if_neg hy, if_neg (by omega)]; simp
  · have e : c.addPhonon t x = .ok (⟨(c.arr.padded (-x).toNat (x - c.arr.len + 1).toNat).bump t
        x.toNat 1, c.maxMods, c.mods + 1⟩, max 0 (-x)) := by
      simp only [addPhonon, if_neg h1, if_neg h2, if_neg hx, Int.toNat_natCast]
      by_cases h0 : x < 0
      · have a1 : ¬ (0 ≤ x ∧ x < (c.arr.len : Int) - 1) := by omega
        have a2 : (x - c.arr.len + 1).toNat = 0 := by omega
        have a3 : (max x 0).toNat = x.toNat := by omega
        have a4 : ¬ x > 0 := by omega
        have a5 : max 0 (-x) = -x := by omega
        simp only [if_neg a1, if_pos h0, padded, a2, a3, if_neg a4, a5, Int.toNat_zero]
      · have a1 : ¬ (0 ≤ x ∧ x < (c.arr.len : Int) - 1) := by omega
        have a2 : (-x).toNat = 0 := by omega
        have a3 : (max x 0).toNat = x.toNat := by omega
        have a5 : max 0 (-x) = 0 := by omega
        have a6 : -(if x > 0 then (0 : Int) else x) = 0 := by split <;> omega
        simp only [if_neg a1, if_neg h0, padded, a2, a3, a6, a5, Int.toNat_zero]
    refine ⟨_, _, e, (wf_padded hwf _ _).bump _ _ _, ?_, rfl, rfl, rfl, ?_, ?_⟩
    · rw [nTypes_bump, nTypes_padded]
    · simp only [len_bump, padded]; omega
    · intro t' y
      have hlen : x.toNat < (c.arr.padded (-x).toNat (x - c.arr.len + 1).toNat).len := by
        simp only [padded]; omega
      rw [chain_eq, chain_eq]
      by_cases hy : 0 ≤ y + max 0 (-x)
      · rw [if_pos hy, get_bump (wf_padded hwf _ _) (by rw [nTypes_padded]; exact ht) hlen,
          get_padded]
        have b1 : ((y + max 0 (-x)).toNat = x.toNat) = (y = x) := by apply propext; omega
        simp only [b1]
        congr 1
        by_cases hy0 : 0 ≤ y
        · rw [if_pos (by omega), if_pos hy0]
          congr 1; omega
        · rw [if_neg (by omega), if_neg hy0]
      · rw [if_neg hy, if_neg (by omega), if_neg (by omega)]; simp

theorem npIndex_nat {n i : Nat} (h : i < n) : npIndex n (i : Int) = some i := by
  unfold npIndex
  rw [if_pos (by omega)]; simp

/-- full effect of `remove_phonon_` on an occupied site of a cloud -/
theorem removePhonon_spec {c : Config} (hc : Cloud c.arr) (hm : c.mods < c.maxMods) {t x : Nat}
    (hocc : 1 ≤ c.arr.get t x) :
    ∃ c' s, c.removePhonon t x = .ok (c', s) ∧ (Cloud c'.arr ∨ Vacuum c'.arr) ∧
      c'.arr.nTypes = c.arr.nTypes ∧ c'.maxMods = c.maxMods ∧ c'.mods = c.mods + 1 ∧ 0 ≤ s ∧
      ∀ t' y, chain c'.arr t' (y - s) = chain c.arr t' y - if t' = t ∧ y = x then 1 else 0 := by
  have hwf := hc.wf
  have ht : t < c.arr.nTypes := by
    by_contra h; rw [get_type_oob (by omega)] at hocc; omega
  have hx : x < c.arr.len := by
    by_contra h; rw [hwf.get_oob _ (by omega)] at hocc; omega
  have h1 : ¬ c.maxMods ≤ c.mods := by omega
  obtain ⟨a, mm, md⟩ := c
  simp only at *
  set b := a.bump t x (-1) with hb
  have hbget : ∀ t' x', b.get t' x' = a.get t' x' + if t' = t ∧ x' = x then -1 else 0 :=
    fun t' x' => get_bump hwf ht hx _ t' x'
  have hbwf : b.WF := hwf.bump _ _ _
  have hbn : b.nTypes = a.nTypes := nTypes_bump _ _ _ _
  have hbl : b.len = a.len := rfl
  have hnn : ∀ t' x', 0 ≤ b.get t' x' := by
    intro t' x'
    rw [hbget]
    split
    · rename_i h; rw [h.1, h.2]; omega
    · have := Proper.get_nonneg hc.toProper t' x'; omega
  have hbp : Proper b := proper_of_get hbwf hnn
  have hguard : ¬ b.get t x < 0 := by have := hnn t x; omega
  -- the chain of b
  have hbchain : ∀ t' y, chain b t' y = chain a t' y - if t' = t ∧ y = x then 1 else 0 := by
    intro t' y
    rw [chain_eq, chain_eq]
    by_cases hy : 0 ≤ y
    · rw [if_pos hy, if_pos hy, hbget]
      have : (y.toNat = x) = (y = (x : Int)) := by apply propext; omega
      simp only [this]; split <;> omega
    · rw [if_neg hy, if_neg hy, if_neg (by omega)]; simp
  -- emptied sites can only be x
  have hkeep : ∀ x', x' ≠ x → (∃ t', a.get t' x' ≠ 0) → ∃ t', b.get t' x' ≠ 0 := by
    rintro x' hne ⟨t', h'⟩
    exact ⟨t', by rw [hbget, if_neg (by omega)]; simpa using h'⟩
  obtain hleft := Cloud.left' hc
  obtain hright := Cloud.right' hc
  have hpos := hc.pos
  have hstart : (Config.mk a mm md).removePhonon t x =
      (b.reduce >>= fun p => pure (⟨p.1, mm, md + 1⟩, p.2)) := by
    simp only [removePhonon, if_neg h1, npIndex_nat ht, npIndex_nat hx]
    rw [← hb, if_neg hguard]
  by_cases htot : b.total = 0
  · have hz := (Proper.total_eq_zero_iff hbp).1 htot
    refine ⟨⟨b, mm, md + 1⟩, 0, ?_, Or.inr ⟨hbwf, ?_, ?_⟩, hbn, rfl, rfl, le_refl _, ?_⟩
    · rw [hstart]; simp [reduce, htot, bind, Except.bind, pure, Except.pure]
    · by_contra hne
      have h2 : 1 < a.len := by simp only [hbl] at hne; omega
      by_cases hx0 : x = 0
      · obtain ⟨t', h'⟩ := hkeep (a.len - 1) (by omega) hright
        exact h' (hz _ _)
      · obtain ⟨t', h'⟩ := hkeep 0 (by omega) hleft
        exact h' (hz _ _)
    · intro t' y
      rw [chain_eq]; split
      · exact hz _ _
      · rfl
    · intro t' y; rw [Int.sub_zero]; exact hbchain t' y
  · -- some site of b is occupied
    obtain ⟨t0, x0, h0⟩ : ∃ t' x', b.get t' x' ≠ 0 := by
      by_contra hcon
      push Not at hcon
      exact htot ((Proper.total_eq_zero_iff hbp).2 hcon)
    have hx0 : x0 < b.len := by
      by_contra h; exact h0 (hbwf.get_oob _ (by omega))
    set present := (List.range b.len).filter (fun x => decide (0 < b.colSum x)) with hpres
    have hmem : ∀ y, y ∈ present ↔ y < b.len ∧ ∃ t', b.get t' y ≠ 0 := by
      intro y
      simp only [hpres, List.mem_filter, List.mem_range, decide_eq_true_eq,
        Proper.colSum_pos_iff hbp]
    have hx0p : x0 ∈ present := (hmem x0).2 ⟨hx0, t0, h0⟩
    cases hmin : present.min? with
    | none => rw [List.min?_eq_none_iff] at hmin; rw [hmin] at hx0p; simp at hx0p
    | some left =>
    cases hmax : present.max? with
    | none => rw [List.max?_eq_none_iff] at hmax; rw [hmax] at hx0p; simp at hx0p
    | some right =>
    obtain ⟨hl1, hl2⟩ := List.min?_eq_some_iff.1 hmin
    obtain ⟨hr1, hr2⟩ := List.max?_eq_some_iff.1 hmax
    obtain ⟨hl3, hl4⟩ := (hmem left).1 hl1
    obtain ⟨hr3, hr4⟩ := (hmem right).1 hr1
    by_cases hcase : right < b.len - 1
    · -- right trim; only possible if x is the last site
      have hxlast : x = a.len - 1 := by
        by_contra hne
        have := (hmem (b.len - 1)).2 ⟨by omega, hkeep _ (by omega) hright⟩
        have := hr2 _ this
        omega
      refine ⟨⟨⟨b.rows.map (List.take (right + 1)), right + 1⟩, mm, md + 1⟩, 0, ?_,
        Or.inl ?_, ?_, rfl, rfl, le_refl _, ?_⟩
      · rw [hstart]
        simp only [reduce, htot, if_false, ← hpres, hmin, hmax, hcase, if_true]
        rfl
      · apply cloud_of_get
        · apply proper_of_get (wf_take hbwf (by omega))
          intro t' y; rw [get_take]; split
          · exact hnn _ _
          · exact le_refl _
        · simp
        · obtain ⟨t', h'⟩ := hkeep 0 (by omega) hleft
          exact ⟨t', by rw [get_take, if_pos (by omega)]; exact h'⟩
        · obtain ⟨t', h'⟩ := hr4
          exact ⟨t', by simp only [get_take]; rw [if_pos (by omega)]; simpa using h'⟩
      · simp [nTypes]; exact hbn
      · intro t' y
        rw [Int.sub_zero, ← hbchain, chain_eq, chain_eq]
        split
        · rw [get_take]
          split
          · rfl
          · rename_i hy hlt
            by_contra hne
            have : y.toNat < b.len := by
              by_contra h; exact hne (hbwf.get_oob _ (by omega)).symm
            have := hr2 _ ((hmem y.toNat).2 ⟨this, t', fun e => hne e.symm⟩)
            omega
        · rfl
    · by_cases hcase2 : 0 < left
      · have hxfirst : x = 0 := by
          by_contra hne
          have := (hmem 0).2 ⟨by omega, hkeep _ (by omega) hleft⟩
          have := hl2 _ this
          omega
        refine ⟨⟨⟨b.rows.map (List.drop left), b.len - left⟩, mm, md + 1⟩, left, ?_,
          Or.inl ?_, ?_, rfl, rfl, by omega, ?_⟩
        · rw [hstart]
          simp only [reduce, htot, if_false, ← hpres, hmin, hmax, hcase, hcase2, if_true]
          rfl
        · apply cloud_of_get
          · apply proper_of_get (wf_drop hbwf _)
            intro t' y; rw [get_drop]; exact hnn _ _
          · simp only; omega
          · obtain ⟨t', h'⟩ := hl4
            exact ⟨t', by rw [get_drop]; simpa using h'⟩
          · obtain ⟨t', h'⟩ := hr4
            refine ⟨t', ?_⟩
            rw [get_drop]
            have : left + ((b.len - left) - 1) = right := by omega
            simp only [this]; exact h'
        · simp [nTypes]; exact hbn
        · intro t' y
          rw [← hbchain, chain_eq, chain_eq]
          by_cases hy : 0 ≤ y - (left : Int)
          · rw [if_pos hy, if_pos (by omega), get_drop]
            congr 1; omega
          · rw [if_neg hy]
            split
            · by_contra hne
              have hyl : y.toNat < b.len := by omega
              have := hl2 _ ((hmem y.toNat).2 ⟨hyl, t', fun e => hne e.symm⟩)
              omega
            · rfl
      · refine ⟨⟨b, mm, md + 1⟩, 0, ?_, Or.inl ?_, hbn, rfl, rfl, le_refl _, ?_⟩
        · rw [hstart]
          simp only [reduce, htot, if_false, ← hpres, hmin, hmax, hcase, hcase2]
          rfl
        · apply cloud_of_get hbp (by omega)
          · have : left = 0 := by omega
            rw [this] at hl4; exact hl4
          · have : right = b.len - 1 := by omega
            rw [this] at hr4; exact hr4
        · intro t' y; rw [Int.sub_zero]; exact hbchain t' y

end Config
end GGCE
