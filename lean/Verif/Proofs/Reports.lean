import Verif.Model.Reports
import Verif.Proofs.Count
import Verif.Proofs.Build
import Verif.Proofs.Modes

/-! Lemmas for what the objects report about themselves. -/

set_option linter.unusedSectionVars false

namespace GGCE
open Spec Arr

variable {R : Type} [Field R] [LinearOrder R]

/-! ### counting the generated equations -/

/-- the number of one-type clouds within an absolute extent -/
theorem Layout.Ok.count_one {m : Model R} {ae : Int} {L : Layout R} (hL : L.Ok m ae)
    (ht : m.nTypes = 1) {M N : Int} (hM : m.extent = [M]) (hN : m.number = [N])
    (hc : m.maxPerSite = none) :
    ((List.range m.number.sum.toNat).map (fun i => (L.clouds (i + 1)).length)).sum =
      geSum (min ae M) N := by
  have hlen : ∀ j, j < N.toNat → (L.clouds (j + 1)).length =
      ((List.range (min ae M).toNat).map (fun i => geTerm (i + 1) (j + 1))).sum := by
    intro j hj
    have h1 := hL.nodup (j + 1)
    have h2 := hL.mem (j + 1)
    rw [length_by_len (min ae M).toNat (L.clouds (j + 1))]
    · congr 1
      apply List.map_congr_left
      intro z hz
      rw [List.mem_range] at hz
      refine count_clouds (h1.filter _) (by omega) (by omega) (fun a => ?_)
      rw [List.mem_filter, h2]
      simp only [InSpace, InTruncation, decide_eq_true_eq, ht]
      constructor
      · rintro ⟨⟨⟨k1, k2, k3⟩, k4⟩, k5⟩
        exact ⟨k5, k2, k4, k3.toCloud⟩
      · rintro ⟨k1, k2, k3, k4⟩
        refine ⟨⟨⟨by omega, k2, ?_⟩, k3⟩, k1⟩
        exact (legal_one hM hN hc k2 (by omega) (by omega)).2 k4
    · intro a hm
      have h := (h2 a).1 hm
      have h3 := h.1.2.2.toCloud.pos
      have h4 := h.1.1
      have h5 : (a.len : Int) ≤ M := by
        have hrow : a.rows.length = 1 := by rw [h.1.2.1, ht]
        obtain ⟨M', hM', -, hw⟩ := h.1.2.2.extentOk m.extent rfl 0 (by omega)
        rw [hM] at hM'
        obtain rfl : M = M' := by simpa using hM'
        obtain ⟨t, hl⟩ := Cloud.left' h.1.2.2.toCloud
        obtain ⟨t', hr⟩ := Cloud.right' h.1.2.2.toCloud
        have e : ∀ t x, a.get t x ≠ 0 → t = 0 := by
          intro t x hne
          by_contra hcon
          exact hne (get_type_oob (by simp [Arr.nTypes, hrow]; omega) x)
        obtain rfl := e t _ hl
        obtain rfl := e t' _ hr
        have := hw 0 (a.len - 1 : Nat) (by
          have := get_eq_chain a 0 0
          simp only [Nat.cast_zero] at this
          rw [this]; exact hl) (by rw [get_eq_chain]; exact hr)
        omega
      omega
  rw [geSum, sum_swap, hN]
  simp only [List.sum_cons, List.sum_nil, Int.add_zero]
  congr 1
  apply List.map_congr_left
  intro j hj
  rw [List.mem_range] at hj
  exact hlen j hj

theorem geTerm_one (z : Nat) (hz : 2 ≤ z) : geTerm z 1 = 0 := by
  rw [geTerm_eq z 1 hz]; simp

theorem geSum_split (K M : Nat) (N : Int) (h : K ≤ M) : geSum M N = geSum K N +
    ((List.range (M - K)).map (fun i =>
      ((List.range N.toNat).map (fun j => geTerm (K + i + 1) (j + 1))).sum)).sum := by
  obtain ⟨d, rfl⟩ := Nat.exists_eq_add_of_le h
  simp only [geSum, Int.toNat_natCast, List.range_add, List.map_append, List.sum_append, List.map_map,
    Nat.add_sub_cancel_left]
  rfl

/-- the formula for a smaller extent gives the same number only in trivial cases -/
theorem geSum_eq_iff {K M : Int} {N : Int} (hK : 1 ≤ K) (hKM : K ≤ M) (hN : 1 ≤ N) :
    geSum K N = geSum M N ↔ K = M ∨ N = 1 := by
  obtain ⟨K, rfl⟩ := Int.eq_ofNat_of_zero_le (by omega : 0 ≤ K)
  obtain ⟨M, rfl⟩ := Int.eq_ofNat_of_zero_le (by omega : 0 ≤ M)
  rw [geSum_split K M N (by omega)]
  constructor
  · intro h
    by_contra hc
    push Not at hc
    have h0 : ((List.range (M - K)).map (fun i =>
      ((List.range N.toNat).map (fun j => geTerm (K + i + 1) (j + 1))).sum)).sum = 0 := by omega
    have h1 := List.sum_eq_zero_iff.1 h0
      ((List.range N.toNat).map (fun j => geTerm (K + 0 + 1) (j + 1))).sum
      (List.mem_map.2 ⟨0, List.mem_range.2 (by omega), rfl⟩)
    have h2 := List.sum_eq_zero_iff.1 h1 (geTerm (K + 0 + 1) (1 + 1))
      (List.mem_map.2 ⟨1, List.mem_range.2 (by omega), rfl⟩)
    rw [geTerm_eq _ _ (by omega)] at h2
    simp at h2
  · rintro (h | rfl)
    · have : M - K = 0 := by omega
      simp [this]
    · have : ((List.range (M - K)).map (fun i =>
        ((List.range (1 : Int).toNat).map (fun j => geTerm (K + i + 1) (j + 1))).sum)).sum = 0 := by
        apply List.sum_eq_zero
        intro x hx
        obtain ⟨i, -, rfl⟩ := List.mem_map.1 hx
        have : (1 : Int).toNat = 1 := rfl
        simp [this, geTerm_one (K + i + 1) (by omega)]
      omega

/-! ### the terms by phonon type -/

theorem dictRep_vals (ts : List (SingleTerm R)) (d : Dict Nat (List (SingleTerm R))) (k : Nat) :
    (ts.foldl (fun d t => d.push t.phononIndex t) d).vals k =
      d.vals k ++ ts.filter (fun t => t.phononIndex = k) := by
  induction ts generalizing d with
  | nil => simp
  | cons t ts ih =>
    rw [List.foldl_cons, ih, Dict.vals_push, List.filter_cons]
    by_cases h : t.phononIndex = k <;> simp [h]

theorem dictRep_keys_same (ts : List (SingleTerm R)) (d : Dict Nat (List (SingleTerm R))) (n : Nat)
    (h : ∀ t ∈ ts, t.phononIndex = n) (hn : n ∈ d.map Prod.fst) :
    (ts.foldl (fun d t => d.push t.phononIndex t) d).map Prod.fst = d.map Prod.fst := by
  induction ts generalizing d with
  | nil => rfl
  | cons t ts ih =>
    have ht : t.phononIndex = n := h t (by simp)
    have hk : (d.push t.phononIndex t).map Prod.fst = d.map Prod.fst := by
      rw [Dict.keys_push, if_pos (by rw [ht]; exact hn)]
    rw [List.foldl_cons, ih _ (fun u hu => h u (by simp [hu])) (by rw [hk]; exact hn), hk]

theorem dictRep_keys_new {ts : List (SingleTerm R)} {d : Dict Nat (List (SingleTerm R))} {n : Nat}
    (hne : ts ≠ []) (h : ∀ t ∈ ts, t.phononIndex = n) (hn : n ∉ d.map Prod.fst) :
    (ts.foldl (fun d t => d.push t.phononIndex t) d).map Prod.fst = d.map Prod.fst ++ [n] := by
  obtain ⟨t, ts, rfl⟩ := List.exists_cons_of_ne_nil hne
  have ht : t.phononIndex = n := h t (by simp)
  have hk : (d.push t.phononIndex t).map Prod.fst = d.map Prod.fst ++ [n] := by
    rw [Dict.keys_push, ht, if_neg hn]
  rw [List.foldl_cons, dictRep_keys_same ts _ n (fun u hu => h u (by simp [hu])) (by rw [hk]; simp), hk]

/-- the entries of the dictionary -/
theorem dictRep_entry (H : Hamiltonian R) (h : (H.dictRep.map Prod.fst).Nodup) :
    H.dictRep = (H.dictRep.map Prod.fst).map
      (fun k => (k, H.terms.filter (fun t => t.phononIndex = k))) := by
  have key : ∀ d : Dict Nat (List (SingleTerm R)), (d.map Prod.fst).Nodup →
      d = (d.map Prod.fst).map (fun k => (k, d.vals k)) := by
    intro d
    induction d with
    | nil => simp
    | cons p d ih =>
      intro hd
      rw [List.map_cons, List.nodup_cons] at hd
      rw [List.map_cons, List.map_cons]
      congr 1
      · simp [Dict.vals, Dict.get?]
      · conv_lhs => rw [ih hd.2]
        apply List.map_congr_left
        intro k hk
        have : p.1 ≠ k := fun e => hd.1 (e ▸ hk)
        simp [Dict.vals, Dict.get?, this]
  conv_lhs => rw [key _ h]
  apply List.map_congr_left
  intro k _
  have := dictRep_vals H.terms [] k
  rw [Hamiltonian.dictRep, this]
  simp [Dict.vals, Dict.get?]

theorem termsOf_ne_nil {ct : String} (h : Known ct) (g : R) (i : Nat) (w : R) : termsOf ct g i w ≠ [] := by
  rcases h with rfl | rfl | rfl | rfl <;> simp [termsOf, termShapes]

theorem termsOf_phononIndex {ct : String} {g : R} {i : Nat} {w : R} {t : SingleTerm R}
    (h : t ∈ termsOf ct g i w) : t.phononIndex = i := by
  obtain ⟨s, -, rfl⟩ := List.mem_map.1 h; rfl

/-- a call with a known coupling type adds the new type at the end -/
theorem ham_add_keys {P : Prims R} (hP : Names P) {H H' : Hamiltonian R} {ct : String} {n : Nat} {freq : R}
    {g? lam? : Option R} {mult : R} (hk : Known ct)
    (h : H.add P ct (n : Int) freq g? lam? mult = .ok H')
    (hn : H.dictRep.map Prod.fst = List.range n) :
    H'.dictRep.map Prod.fst = List.range (n + 1) := by
  have hnew : n ∉ H.dictRep.map Prod.fst := by rw [hn]; simp
  obtain ⟨s, hs⟩ := (known_iff ct).1 hk
  have hcase : ∃ g, H' = { H with freqs := insertFreq H.freqs freq
                                  terms := H.terms ++ termsOf ct (g * mult) n freq } := by
    unfold Hamiltonian.add at h
    split at h
    · cases h
    · split at h
      · rename_i hg
        exfalso
        unfold Hamiltonian.strength at hg
        split at hg
        · exact hP.known _ _ _ _ hk hg
        · split at hg <;> cases hg
      · cases h
      · rename_i g hg
        rw [getSingleTerms_ok hs _ (Int.natCast_nonneg n)] at h
        exact ⟨g, by cases h; rfl⟩
  obtain ⟨g, rfl⟩ := hcase
  show (List.foldl _ [] (H.terms ++ _)).map Prod.fst = _
  rw [List.foldl_append]
  have := dictRep_keys_new (d := H.dictRep) (n := n) (termsOf_ne_nil hk (g * mult) n freq)
    (fun t ht => termsOf_phononIndex ht) hnew
  rw [hn, ← List.range_succ] at this
  exact this

/-- the invariant behind the display -/
def Tidy (m : Model R) : Prop :=
  m.ham.dictRep.map Prod.fst = List.range m.nTypes ∧ m.extent.length = m.nTypes ∧
    m.number.length = m.nTypes

theorem tidy_add {P : Prims R} (hP : Names P) {m m' : Model R} {a : AddArgs R} (hk : Known a.ctype)
    (ho : a.override = none) (hm : Tidy m) (h : m.add P a = .ok m') : Tidy m' := by
  obtain ⟨h1, h2, h3⟩ := hm
  have hidx : m.callIndex a = (m.nTypes : Int) := by simp [Model.callIndex, ho]
  rcases add_cases h with ⟨-, rfl⟩ | ⟨-, H1, hH1, ⟨-, rfl⟩ | ⟨-, H2, Mt, Nt, -, -, hH2, rfl⟩⟩
  · exact ⟨h1, h2, h3⟩
  · rw [hidx] at hH1
    exact ⟨ham_add_keys hP hk hH1 h1, by simp [h2], by simp [h3]⟩
  · rw [hidx] at hH1 hH2
    have k1 := ham_add_keys hP hk hH1 h1
    have k2 := ham_add_keys (n := m.nTypes + 1) hP hk (by exact_mod_cast hH2) k1
    exact ⟨k2, by simp [h2], by simp [h3]⟩

theorem tidy_adds {P : Prims R} (hP : Names P) (as : List (AddArgs R)) {m m' : Model R}
    (hk : ∀ a ∈ as, Known a.ctype) (ho : ∀ a ∈ as, a.override = none) (hm : Tidy m)
    (h : m.adds P as = .ok m') : Tidy m' := by
  induction as generalizing m with
  | nil => cases h; exact hm
  | cons a as ih =>
    unfold Model.adds at h
    split at h
    · cases h
    · rename_i m1 h1
      exact ih (fun b hb => hk b (by simp [hb])) (fun b hb => ho b (by simp [hb]))
        (tidy_add hP (hk a (by simp)) (ho a (by simp)) hm h1) h

theorem shownLoop_ok (m : Model R) (f : Nat → List (SingleTerm R)) : ∀ (n i : Nat),
    i + n ≤ m.extent.length → i + n ≤ m.number.length →
    m.shownLoop i ((List.range n).map (fun j => (i + j, f (i + j)))) =
      .ok ((List.range n).map (fun j => (⟨i + j, m.extent.getD (i + j) 0, m.number.getD (i + j) 0,
        f (i + j)⟩ : Shown R)))
  | 0, i, _, _ => by simp [Model.shownLoop]
  | n + 1, i, h1, h2 => by
    have ih := shownLoop_ok m f n (i + 1) (by omega) (by omega)
    rw [List.range_succ_eq_map, List.map_cons, List.map_cons, List.map_map, List.map_map]
    have e1 : ((fun j => (i + j, f (i + j))) ∘ Nat.succ) = fun j => (i + 1 + j, f (i + 1 + j)) := by
      funext j; simp only [Function.comp, Nat.succ_eq_add_one]
      rw [show i + (j + 1) = i + 1 + j by omega]
    have e2 : ((fun j => (⟨i + j, m.extent.getD (i + j) 0, m.number.getD (i + j) 0,
        f (i + j)⟩ : Shown R)) ∘ Nat.succ) = fun j => ⟨i + 1 + j, m.extent.getD (i + 1 + j) 0,
          m.number.getD (i + 1 + j) 0, f (i + 1 + j)⟩ := by
      funext j; simp only [Function.comp, Nat.succ_eq_add_one]
      rw [show i + (j + 1) = i + 1 + j by omega]
    rw [e1, e2, Model.shownLoop, ih]
    have hx : m.extent[i]? = some m.extent[i] := List.getElem?_eq_getElem (by omega)
    have hy : m.number[i]? = some m.number[i] := List.getElem?_eq_getElem (by omega)
    simp [hx, hy, bind, Except.bind, pure, Except.pure, List.getD_eq_getElem?_getD]

theorem tidy_shown {m : Model R} (h : Tidy m) : m.shown = .ok (if m.nTypes = 0 then none else
    some ((List.range m.nTypes).map (fun i => ⟨i, m.extent.getD i 0, m.number.getD i 0,
      m.ham.terms.filter (fun t => t.phononIndex = i)⟩))) := by
  obtain ⟨h1, h2, h3⟩ := h
  unfold Model.shown
  by_cases h0 : m.nTypes = 0
  · rw [if_pos (by rw [← List.length_eq_zero_iff]; omega), if_pos h0]
  · rw [if_neg (by rw [← List.length_eq_zero_iff]; omega), if_neg h0]
    have hd := dictRep_entry m.ham (by rw [h1]; exact List.nodup_range)
    rw [h1] at hd
    have := shownLoop_ok m (fun k => m.ham.terms.filter (fun t => t.phononIndex = k)) m.nTypes 0
      (by omega) (by omega)
    simp only [Nat.zero_add] at this
    rw [hd, this]
    rfl

end GGCE
