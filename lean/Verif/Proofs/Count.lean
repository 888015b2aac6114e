import Verif.Model.Combinatorics
import Verif.Proofs.Enum
import Verif.Proofs.Totals
import Mathlib.Data.Nat.Choose.Sum
import Mathlib.Data.Nat.Choose.Basic

/-! Counting the clouds of one phonon type. -/

set_option linter.unusedSectionVars false

namespace GGCE
open Spec Arr

theorem length_configSpaceGen : ∀ n s, (configSpaceGen (n + 1) s).length = Nat.multichoose (n + 1) s
  | 0, s => by simp [configSpaceGen, Nat.multichoose_one]
  | n + 1, s => by
    have key : ∀ s, ((List.range (s + 1)).map (fun v => Nat.multichoose (n + 1) (s - v))).sum =
        Nat.multichoose (n + 2) s := by
      intro s
      induction s with
      | zero => simp
      | succ s ih =>
        rw [List.range_succ_eq_map, List.map_cons, List.sum_cons, List.map_map]
        have : (fun v => Nat.multichoose (n + 1) (s + 1 - v)) ∘ Nat.succ =
            fun v => Nat.multichoose (n + 1) (s - v) := by
          funext v; simp [Nat.succ_eq_add_one]
        rw [this, ih, Nat.multichoose_succ_succ (n + 1) s]
        simp
    simp only [configSpaceGen, List.length_flatMap, List.length_map]
    rw [← key s]
    congr 1
    apply List.map_congr_left
    intro v _
    exact length_configSpaceGen n (s - v)

/-- the number of clouds with one type, `z` sites and `nb` phonons -/
theorem geTerm_eq (z nb : Nat) (hz : 2 ≤ z) : geTerm z nb =
    if nb < 2 then 0 else Nat.multichoose z (nb - 2) := by
  unfold geTerm
  by_cases h2 : nb = 2
  · subst h2; simp
  · rw [if_neg (by omega)]
    unfold combExact
    split
    · rw [if_pos (by omega)]
    · rw [if_neg (by omega), Nat.multichoose_eq]
      congr 1 <;> omega

theorem bump_bump {a : Arr} {t x : Nat} (d : Int) : (a.bump t x d).bump t x (-d) = a := by
  simp only [Arr.bump]
  congr 1
  rw [List.modify_modify_eq]
  have : ((fun r : List Int => r.modify x (· + -d)) ∘ fun r : List Int => r.modify x (· + d)) = id := by
    funext r
    simp only [Function.comp, List.modify_modify_eq]
    have : ((fun v : Int => v + -d) ∘ fun v => v + d) = id := by funext v; simp
    rw [this, List.modify_id]; rfl
  rw [this, List.modify_id]

/-- the row of a one-type array -/
def rowArr (p : List Nat) (z : Nat) : Arr := ⟨[p.map Int.ofNat], z⟩

theorem rowArr_wf {p : List Nat} {z : Nat} (h : p.length = z) : (rowArr p z).WF := by
  intro r hr; simp [rowArr] at hr; subst hr; simpa [rowArr] using h

theorem rowArr_get (p : List Nat) (z t x : Nat) :
    (rowArr p z).get t x = if t = 0 then (p.getD x 0 : Int) else 0 := by
  cases t with
  | zero =>
    simp only [rowArr, Arr.get, List.getD_cons_zero, if_true]
    rw [List.getD_eq_getElem?_getD, List.getElem?_map, List.getD_eq_getElem?_getD]
    cases p[x]? <;> simp
  | succ t => simp [rowArr, Arr.get]

theorem rowArr_phonons (p : List Nat) (z : Nat) : phonons (rowArr p z) = p.sum := by
  simp [phonons, rowArr, sum_map_ofNat]

theorem phonons_bump {a : Arr} (h : a.WF) {t x : Nat} (ht : t < a.rows.length) (hx : x < a.len)
    (d : Int) : phonons (a.bump t x d) = phonons a + d := by
  have h1 : ∀ t', typeTotal (a.bump t x d) t' = typeTotal a t' + if t' = t then d else 0 := by
    intro t'
    rw [typeTotal_eq_sum (h.bump t x d) t' (lo := 0) (hi := a.len) le_rfl (by rw [len_bump]),
      typeTotal_eq_sum h t' (lo := 0) (hi := a.len) le_rfl le_rfl, sum_Ico_zero, sum_Ico_zero,
      Finset.sum_congr rfl (fun y _ => get_eq_chain (a.bump t x d) t' y),
      Finset.sum_congr rfl (fun y _ => get_eq_chain a t' y),
      Finset.sum_congr rfl (fun y _ => get_bump h ht hx d t' y), Finset.sum_add_distrib]
    congr 1
    by_cases e : t' = t
    · simp only [e, true_and, if_true]
      rw [Finset.sum_ite_eq' (Finset.range a.len) x (fun _ => d), if_pos (by simpa using hx)]
    · simp [e]
  rw [phonons_eq_sum, phonons_eq_sum, show (a.bump t x d).rows.length = a.rows.length from
    nTypes_bump a t x d, Finset.sum_congr rfl (fun t' _ => h1 t'), Finset.sum_add_distrib]
  congr 1
  rw [Finset.sum_ite_eq' (Finset.range a.rows.length) t (fun _ => d), if_pos (by simpa using ht)]

variable {R : Type} [Field R] [LinearOrder R]

/-- the clouds of one type with `z ≥ 2` sites are the tuples with one phonon added at each end -/
def endsUp (z : Nat) (p : List Nat) : Arr := ((rowArr p z).bump 0 0 1).bump 0 (z - 1) 1

theorem endsUp_inj {z : Nat} {p q : List Nat} (h : endsUp z p = endsUp z q) : p = q := by
  have h1 : rowArr p z = rowArr q z := by
    have := congrArg (fun a => (Arr.bump a 0 (z - 1) (-1)).bump 0 0 (-1)) h
    simpa only [endsUp, bump_bump] using this
  have h2 : p.map Int.ofNat = q.map Int.ofNat := by
    simpa [rowArr] using h1
  exact List.map_injective_iff.2 (fun a b h => Int.ofNat.inj h) h2

theorem mem_endsUp {z nb : Nat} (hz : 2 ≤ z) (a : Arr) :
    (a.len = z ∧ a.rows.length = 1 ∧ phonons a = nb ∧ Cloud a) ↔
      2 ≤ nb ∧ ∃ p ∈ configSpaceGen z (nb - 2), endsUp z p = a := by
  constructor
  · rintro ⟨h1, h2, h3, h4⟩
    have hrow : ∃ r, a.rows = [r] := List.length_eq_one_iff.1 h2
    obtain ⟨r, hr⟩ := hrow
    have hg0 : ∀ t x, a.get t x ≠ 0 → t = 0 := by
      intro t x h
      by_contra hc
      exact h (get_type_oob (by simp [Arr.nTypes, h2]; omega) x)
    have hl : 1 ≤ a.get 0 0 := by
      obtain ⟨t, ht⟩ := Cloud.left' h4
      have := hg0 t 0 ht; subst this
      have := Proper.get_nonneg h4.toProper 0 0; omega
    have hr' : 1 ≤ a.get 0 (z - 1) := by
      obtain ⟨t, ht⟩ := Cloud.right' h4
      rw [h1] at ht
      have := hg0 t _ ht; subst this
      have := Proper.get_nonneg h4.toProper 0 (z - 1); omega
    have ht0 : 0 < a.rows.length := by omega
    set c := (a.bump 0 (z - 1) (-1)).bump 0 0 (-1) with hc
    have hcwf : c.WF := (h4.wf.bump _ _ _).bump _ _ _
    have hcg : ∀ t x, c.get t x = a.get t x + (if t = 0 ∧ x = z - 1 then -1 else 0) +
        (if t = 0 ∧ x = 0 then -1 else 0) := by
      intro t x
      rw [hc, get_bump (h4.wf.bump _ _ _) (by rw [nTypes_bump]; exact ht0)
        (by rw [len_bump]; omega), get_bump h4.wf ht0 (by omega)]
    have hcn : ∀ t x, 0 ≤ c.get t x := by
      intro t x
      rw [hcg]
      have := Proper.get_nonneg h4.toProper t x
      by_cases e1 : t = 0 ∧ x = z - 1
      · have e2 : ¬ (t = 0 ∧ x = 0) := by omega
        rw [if_pos e1, if_neg e2, e1.1, e1.2]; omega
      · by_cases e2 : t = 0 ∧ x = 0
        · rw [if_neg e1, if_pos e2, e2.1, e2.2]; omega
        · rw [if_neg e1, if_neg e2]; omega
    have hcp : phonons c = nb - 2 := by
      rw [hc, phonons_bump (h4.wf.bump _ _ _) (by
        rw [show (a.bump 0 (z - 1) (-1)).rows.length = _ from nTypes_bump _ _ _ _]; exact ht0)
        (by rw [len_bump]; omega), phonons_bump h4.wf ht0 (by omega), h3]
      omega
    have hcr : ∃ r', c.rows = [r'] := by
      apply List.length_eq_one_iff.1
      rw [hc]; simp only [Arr.bump, List.length_modify]; exact h2
    obtain ⟨r', hr'2⟩ := hcr
    have hcl : c.len = z := by rw [hc, len_bump, len_bump]; exact h1
    have hv : ∀ v ∈ r', 0 ≤ v := (nonneg_iff_get c).2 hcn r' (by rw [hr'2]; simp)
    have hcp' : phonons c = r'.sum := by simp [phonons, hr'2]
    have hsum : ((r'.map Int.toNat).sum : Int) = r'.sum := toNat_sum hv
    refine ⟨by omega, r'.map Int.toNat, ?_, ?_⟩
    · rw [mem_configSpaceGen _ _ (by omega)]
      refine ⟨?_, by omega⟩
      rw [List.length_map, hcwf r' (by rw [hr'2]; simp), hcl]
    · have hrow : rowArr (r'.map Int.toNat) z = c := by
        have : (r'.map Int.toNat).map Int.ofNat = r' := by
          rw [List.map_map]
          conv_rhs => rw [← List.map_id r']
          apply List.map_congr_left
          intro v hv'
          have := hv v hv'
          simp [Int.toNat_of_nonneg this]
        rw [rowArr, this, ← hcl, ← hr'2]
      rw [endsUp, hrow, hc]
      have e1 := bump_bump (a := a.bump 0 (z - 1) (-1)) (t := 0) (x := 0) (-1)
      have e2 := bump_bump (a := a) (t := 0) (x := z - 1) (-1)
      rw [Int.neg_neg] at e1 e2
      rw [e1, e2]
  · rintro ⟨hnb, p, hp, rfl⟩
    obtain ⟨p1, p2⟩ := (mem_configSpaceGen _ _ (by omega) p).1 hp
    have hwf := rowArr_wf p1
    have hlen : (rowArr p z).len = z := rfl
    have hrl : (rowArr p z).rows.length = 1 := rfl
    have hg : ∀ t x, (endsUp z p).get t x = (rowArr p z).get t x +
        (if t = 0 ∧ x = 0 then 1 else 0) + (if t = 0 ∧ x = z - 1 then 1 else 0) := by
      intro t x
      rw [endsUp, get_bump (hwf.bump _ _ _) (by rw [nTypes_bump]; simp [Arr.nTypes, hrl])
        (by rw [len_bump, hlen]; omega),
        get_bump hwf (by simp [Arr.nTypes, hrl]) (by rw [hlen]; omega)]
    have hnn : ∀ t x, 0 ≤ (rowArr p z).get t x := by
      intro t x; rw [rowArr_get]; split <;> simp
    refine ⟨rfl, by simp [endsUp, Arr.bump, rowArr], ?_, ?_⟩
    · rw [endsUp, phonons_bump (hwf.bump _ _ _) (by
        rw [show ((rowArr p z).bump 0 0 1).rows.length = _ from nTypes_bump _ 0 0 1]
        simp [Arr.nTypes, hrl]) (by rw [len_bump, hlen]; omega),
        phonons_bump hwf (by omega) (by rw [hlen]; omega), rowArr_phonons, p2]
      omega
    · refine cloud_of_get (proper_of_get ((hwf.bump _ _ _).bump _ _ _) ?_) ?_ ⟨0, ?_⟩ ⟨0, ?_⟩
      · intro t x
        rw [hg t x]
        have := hnn t x
        split <;> split <;> omega
      · show 0 < z; omega
      · have h2 := hnn 0 0
        rw [hg 0 0]
        simp only [true_and, if_true]
        split <;> omega
      · have h1 := hg 0 (z - 1)
        have h2 := hnn 0 (z - 1)
        have : (endsUp z p).len - 1 = z - 1 := rfl
        rw [this, h1]
        simp only [true_and, if_true]
        split <;> omega

theorem length_eq_of_mem {α : Type _} {l₁ l₂ : List α} (h₁ : l₁.Nodup) (h₂ : l₂.Nodup)
    (h : ∀ a, a ∈ l₁ ↔ a ∈ l₂) : l₁.length = l₂.length :=
  ((List.perm_ext_iff_of_nodup h₁ h₂).2 h).length_eq

/-- the number of one-type clouds with `z` sites and `nb` phonons -/
theorem count_clouds {cs : List Arr} (hn : cs.Nodup) {z nb : Nat} (hz : 1 ≤ z) (hnb : 1 ≤ nb)
    (h : ∀ a, a ∈ cs ↔ a.len = z ∧ a.rows.length = 1 ∧ phonons a = nb ∧ Cloud a) :
    cs.length = geTerm z nb := by
  by_cases h1 : z = 1
  · subst h1
    have : geTerm 1 nb = 1 := by simp [geTerm]
    rw [this]
    have hm : ∀ a, a ∈ cs ↔ a ∈ [Arr.mk [[(nb : Int)]] 1] := by
      intro a
      rw [h, List.mem_singleton]
      constructor
      · rintro ⟨k1, k2, k3, k4⟩
        obtain ⟨r, hr⟩ := List.length_eq_one_iff.1 k2
        have hl : r.length = 1 := by rw [← k1]; exact k4.wf r (by rw [hr]; simp)
        obtain ⟨v, rfl⟩ := List.length_eq_one_iff.1 hl
        have : v = nb := by simpa [phonons, hr] using k3
        subst this
        cases a; simp_all
      · rintro rfl
        refine ⟨rfl, rfl, by simp [phonons], ?_⟩
        refine cloud_of_get ⟨by simp [Arr.WF], by simp⟩ (by simp) ⟨0, ?_⟩ ⟨0, ?_⟩ <;>
          simp [Arr.get] <;> omega
    exact length_eq_of_mem hn (by simp) hm
  · rw [geTerm_eq z nb (by omega)]
    split
    · rw [List.length_eq_zero_iff, List.eq_nil_iff_forall_not_mem]
      intro a ha
      have := ((mem_endsUp (by omega : 2 ≤ z) a).1 ((h a).1 ha)).1
      omega
    · obtain ⟨z', rfl⟩ : ∃ z', z = z' + 1 := ⟨z - 1, by omega⟩
      rw [← length_configSpaceGen, ← List.length_map (f := endsUp (z' + 1))]
      apply length_eq_of_mem hn
      · exact (nodup_configSpaceGen _ _).map (fun p q h => endsUp_inj h)
      · intro a
        rw [h, mem_endsUp (by omega), List.mem_map]
        constructor
        · exact fun h => h.2
        · exact fun h => ⟨by omega, h⟩

theorem legal_one {m : Model R} {M N : Int} (hM : m.extent = [M]) (hN : m.number = [N])
    (hc : m.maxPerSite = none) {a : Arr} (hl : a.rows.length = 1) (hlen : (a.len : Int) ≤ M)
    (hp : phonons a ≤ N) :
    Legal m.maxPerSite (some m.extent) (some m.number) a ↔ Cloud a := by
  constructor
  · exact fun h => h.toCloud
  · intro h
    refine ⟨h, by rw [hc]; simp, ?_, ?_⟩
    · intro M' hM' t ht
      cases hM'
      have : t = 0 := by omega
      subst this
      refine ⟨M, by rw [hM]; rfl, by omega, ?_⟩
      have hin : ∀ y, chain a 0 y ≠ 0 → 0 ≤ y ∧ y < a.len := by
        intro y hy
        rw [chain_eq] at hy
        split at hy
        · refine ⟨by assumption, ?_⟩
          by_contra hc
          exact hy (WF.get_oob h.wf _ (by omega))
        · exact absurd rfl hy
      intro x y hx hy
      have := hin x hx; have := hin y hy; omega
    · intro N' hN' t ht
      cases hN'
      have : t = 0 := by omega
      subst this
      refine ⟨N, by rw [hN]; rfl, ?_⟩
      rw [phonons_eq_sum, hl] at hp
      simpa using hp

theorem length_by_len (n : Nat) : ∀ l : List Arr, (∀ a ∈ l, 1 ≤ a.len ∧ a.len ≤ n) →
    l.length = ((List.range n).map (fun z => (l.filter (fun a => a.len = z + 1)).length)).sum
  | [], _ => by simp
  | a :: l, h => by
    have ih := length_by_len n l (fun b hb => h b (List.mem_cons_of_mem _ hb))
    have h0 := h a (by simp)
    have e : ∀ z, ((a :: l).filter (fun a => a.len = z + 1)).length =
        (l.filter (fun a => a.len = z + 1)).length + if z = a.len - 1 then 1 else 0 := by
      intro z
      rw [List.filter_cons]
      by_cases hz : a.len = z + 1
      · rw [if_pos (by simpa using hz), if_pos (by omega)]; rfl
      · rw [if_neg (by simpa using hz), if_neg (by omega)]; rfl
    have e2 : ((List.range n).map (fun z => if z = a.len - 1 then 1 else 0)).sum = 1 := by
      have : ∀ k n, k < n → ((List.range n).map (fun z => if z = k then 1 else 0)).sum = 1 := by
        intro k n hk
        induction n with
        | zero => omega
        | succ n ih =>
          rw [List.range_succ, List.map_append, List.sum_append]
          by_cases hkn : k < n
          · rw [ih hkn]; simp; omega
          · have : k = n := by omega
            subst this
            have : (List.range k).map (fun z => if z = k then 1 else 0) =
                (List.range k).map (fun _ => 0) := by
              apply List.map_congr_left
              intro z hz
              rw [List.mem_range] at hz
              rw [if_neg (by omega)]
            simp [this]
      exact this _ _ (by omega)
    simp only [e, List.sum_map_add, e2, List.length_cons, ih]

theorem sum_swap (f : Nat → Nat → Nat) (n : Nat) : ∀ m,
    ((List.range m).map (fun i => ((List.range n).map (fun j => f i j)).sum)).sum =
      ((List.range n).map (fun j => ((List.range m).map (fun i => f i j)).sum)).sum
  | 0 => by simp
  | m + 1 => by
    simp only [List.range_succ, List.map_append, List.sum_append, List.map_cons, List.map_nil,
      List.sum_cons, List.sum_nil, Nat.add_zero, List.sum_map_add, sum_swap f n m]

theorem count_generateAll {m : Model R} (hd : m.ham.dimension ≤ 1) (ht : m.nTypes = 1) {M N : Int}
    (hM : m.extent = [M]) (hN : m.number = [N]) (hc : m.maxPerSite = none)
    (ha : m.absExtentOpt = none) :
    ∃ confs, generateAll m = .ok confs ∧
      totalGeneralized m.extent m.number m.nTypes =
        .ok (confs.map (fun kv => kv.2.length)).sum := by
  have hl : ListsOk m := ⟨by rw [hM, ht]; rfl, by rw [hN, ht]; rfl⟩
  have hae : m.absExtent = some M := by simp [Model.absExtent, ha, hM]
  obtain ⟨f, hf, hf2⟩ := generateAll_ok hl (by omega) hd hae
  refine ⟨_, hf, ?_⟩
  have hlen : ∀ j, j < N.toNat → (f (j + 1)).length =
      ((List.range M.toNat).map (fun i => geTerm (i + 1) (j + 1))).sum := by
    intro j hj
    obtain ⟨h1, h2⟩ := hf2 (j + 1)
    rw [length_by_len M.toNat (f (j + 1))]
    · congr 1
      apply List.map_congr_left
      intro z hz
      rw [List.mem_range] at hz
      refine count_clouds (h1.filter _) (by omega) (by omega) (fun a => ?_)
      rw [List.mem_filter, h2]
      simp only [InSpace, InTruncation, decide_eq_true_eq, ht]
      constructor
      · rintro ⟨⟨⟨k1, k2, k3⟩, k4⟩, k5⟩
        exact ⟨k5, k2, k4, k3.toCloud⟩
      · rintro ⟨k1, k2, k3, k4⟩
        refine ⟨⟨⟨by omega, k2, ?_⟩, k3⟩, k1⟩
        exact (legal_one hM hN hc k2 (by omega) (by omega)).2 k4
    · intro a hm
      have := (h2 a).1 hm
      have h3 := this.1.2.2.toCloud.pos
      have h4 := this.1.1
      omega
  have : totalGeneralized m.extent m.number m.nTypes = .ok (geSum M N) := by
    simp only [totalGeneralized, ht, hM, hN]
    show Except.ok [geSum M N].prod = _
    simp
  rw [this, List.map_map]
  congr 1
  rw [geSum, sum_swap]
  congr 1
  rw [hN]
  simp only [List.sum_cons, List.sum_nil, Int.add_zero]
  apply List.map_congr_left
  intro j hj
  rw [List.mem_range] at hj
  exact (hlen j hj).symm

end GGCE
