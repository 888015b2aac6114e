import Verif.Proofs.FArgs
import Verif.Model.Disk

/-! Merging the required arguments a second time, into a dictionary that already has them (system.py:142-155 after a
reload): only the order of the arguments can change. -/

set_option linter.unusedSectionVars false

namespace GGCE
open Dict

section
variable {κ ν : Type} [DecidableEq κ]

/-- many appends -/
def pushes (ps : List (κ × ν)) (d : Dict κ (List ν)) : Dict κ (List ν) := ps.foldl (fun d p => d.push p.1 p.2) d

/-- what is appended under a key -/
def sel (k : κ) (ps : List (κ × ν)) : List ν := (ps.filter (fun p => p.1 = k)).map Prod.snd

theorem push_of_mem {d : Dict κ (List ν)} (hd : (d.map Prod.fst).Nodup) {k : κ} (hk : k ∈ d.map Prod.fst) (v : ν) :
    d.push k v = d.map (fun kv => (kv.1, kv.2 ++ if kv.1 = k then [v] else [])) := by
  induction d with
  | nil => simp at hk
  | cons p d ih =>
    simp only [List.map_cons, List.nodup_cons] at hd
    simp only [push]
    by_cases h : p.1 = k
    · simp only [h, if_true, List.map_cons]
      congr 1
      subst h
      symm
      refine (List.map_congr_left (g := id) (fun kv hkv => ?_)).trans (List.map_id d)
      have : kv.1 ≠ p.1 := fun e => hd.1 (by rw [← e]; exact List.mem_map_of_mem hkv)
      simp [this]
    · have hk' : k ∈ d.map Prod.fst := by
        rcases List.mem_cons.1 hk with e | e
        · exact absurd e.symm h
        · exact e
      simp only [h, if_false, List.map_cons, ih hd.2 hk', List.append_nil]

theorem pushes_of_mem (ps : List (κ × ν)) {d : Dict κ (List ν)} (hd : (d.map Prod.fst).Nodup)
    (hk : ∀ p ∈ ps, p.1 ∈ d.map Prod.fst) : pushes ps d = d.map (fun kv => (kv.1, kv.2 ++ sel kv.1 ps)) := by
  induction ps generalizing d with
  | nil => simp [pushes, sel]
  | cons p ps ih =>
    have hkeys : (d.push p.1 p.2).map Prod.fst = d.map Prod.fst := by
      rw [push_of_mem hd (hk p (by simp)), List.map_map]
      rfl
    have : pushes (p :: ps) d = pushes ps (d.push p.1 p.2) := rfl
    rw [this, ih (by rw [hkeys]; exact hd) (fun q hq => by rw [hkeys]; exact hk q (by simp [hq])),
      push_of_mem hd (hk p (by simp)), List.map_map]
    refine List.map_congr_left (fun kv _ => ?_)
    by_cases h : kv.1 = p.1
    · simp [sel, h]
    · simp [sel, h, Ne.symm h]

theorem keys_pushes_mono (ps : List (κ × ν)) (d : Dict κ (List ν)) {k : κ} (h : d.get? k ≠ none) :
    (pushes ps d).get? k ≠ none := by
  induction ps generalizing d with
  | nil => exact h
  | cons p ps ih =>
    refine ih (d.push p.1 p.2) ?_
    rw [get?_push]
    split
    · simp
    · exact h

theorem keys_pushes (ps : List (κ × ν)) (d : Dict κ (List ν)) : ∀ p ∈ ps, (pushes ps d).get? p.1 ≠ none := by
  induction ps generalizing d with
  | nil => simp
  | cons q ps ih =>
    intro p hp
    rcases List.mem_cons.1 hp with rfl | hp
    · refine keys_pushes_mono ps (d.push p.1 p.2) ?_
      rw [get?_push]
      simp
    · exact ih _ p hp

theorem vals_pushes (ps : List (κ × ν)) (d : Dict κ (List ν)) (k : κ) : (pushes ps d).vals k = d.vals k ++ sel k ps := by
  induction ps generalizing d with
  | nil => simp [pushes, sel]
  | cons p ps ih =>
    have : pushes (p :: ps) d = pushes ps (d.push p.1 p.2) := rfl
    rw [this, ih, vals_push]
    by_cases h : p.1 = k <;> simp [sel, h]

theorem nodup_pushes (ps : List (κ × ν)) {d : Dict κ (List ν)} (h : (d.map Prod.fst).Nodup) :
    ((pushes ps d).map Prod.fst).Nodup := by
  induction ps generalizing d with
  | nil => exact h
  | cons p ps ih => exact ih (keys_nodup_push h _ _)

/-- appending the same again to a changed dictionary -/
theorem pushes_again (ps : List (κ × ν)) (f : List ν → List ν) :
    pushes ps ((pushes ps []).map (fun kv => (kv.1, f kv.2))) =
      (pushes ps []).map (fun kv => (kv.1, f kv.2 ++ kv.2)) := by
  have hn := nodup_pushes ps (d := []) (by simp)
  have hkeys : ((pushes ps []).map (fun kv => (kv.1, f kv.2))).map Prod.fst = (pushes ps []).map Prod.fst := by
    rw [List.map_map]; rfl
  rw [pushes_of_mem ps (by rw [hkeys]; exact hn), List.map_map]
  · refine List.map_congr_left (fun kv hkv => ?_)
    have h1 := vals_pushes ps [] kv.1
    rw [show (pushes ps []).vals kv.1 = kv.2 from by
      unfold vals
      rw [get?_of_mem hn hkv]
      rfl] at h1
    simp only [Function.comp, h1]
    simp [vals, get?]
  · intro p hp
    rw [hkeys]
    by_contra h
    exact keys_pushes ps [] p hp ((get?_eq_none_iff _ _).2 h)

end

theorem dedup_append {a : List Num} (ha : (a.map Num.tw).Nodup) (b : List Num) :
    dedupNum (a ++ b) = a ++ (dedupNum b).filter (fun y => y.tw ∉ a.map Num.tw) := by
  induction a with
  | nil => simp
  | cons x a ih =>
    simp only [List.map_cons, List.nodup_cons] at ha
    rw [List.cons_append, dedupNum, ih ha.2, List.filter_append, List.filter_filter, List.cons_append]
    congr 1
    congr 1
    · rw [List.filter_eq_self]
      intro y hy
      have : y.tw ≠ x.tw := fun e => ha.1 (by rw [← e]; exact List.mem_map_of_mem hy)
      simpa using this
    · refine List.filter_congr (fun y _ => ?_)
      simp

theorem dedup_again (σ : SetOrder) (l : List Num) : dedupNum (σ.order (dedupNum l) ++ l) = σ.order (dedupNum l) := by
  rw [dedup_append ((((σ.perm _).map Num.tw).nodup_iff).2 (dedupNum_nodup l)), List.filter_eq_nil_iff.2, List.append_nil]
  intro y hy
  simp only [decide_not, Bool.not_eq_eq_eq_not, Bool.not_true, decide_eq_false_iff_not, not_not]
  exact ((σ.perm _).map Num.tw).mem_iff.2 (List.mem_map_of_mem hy)

/-- one order after the other -/
def SetOrder.after (σ σ' : SetOrder) : SetOrder :=
  ⟨fun l => σ.order (σ'.order l), fun l => (σ.perm _).trans (σ'.perm l)⟩

variable {R : Type} [Field R] [LinearOrder R]

theorem merge_pushes (es : List (Equation R)) (d : Dict PyStr (List Num)) :
    es.foldl (fun d (e : Equation R) => mergeFArgs d e.fArgTerms) d =
      pushes (es.flatMap (fun e => e.fArgTerms.flatMap (fun kv => kv.2.map (fun x => (kv.1, x))))) d := by
  have h1 : ∀ (e d : Dict PyStr (List Num)), mergeFArgs d e = pushes (e.flatMap (fun kv => kv.2.map (fun x => (kv.1, x)))) d := by
    intro e
    unfold mergeFArgs pushes
    induction e with
    | nil => intro d; rfl
    | cons kv e ih =>
      intro d
      rw [List.foldl_cons, ih, List.flatMap_cons, List.foldl_append, List.foldl_map]
  induction es generalizing d with
  | nil => rfl
  | cons e es ih =>
    rw [List.foldl_cons, ih, h1, List.flatMap_cons]
    unfold pushes
    rw [List.foldl_append]

/-- the merged arguments are those of a first construction with another order of sets -/
theorem merge_again (σ σ' : SetOrder) (es : List (Equation R)) :
    uniqueDict σ (es.foldl (fun d (e : Equation R) => mergeFArgs d e.fArgTerms)
        (uniqueDict σ' (es.foldl (fun d (e : Equation R) => mergeFArgs d e.fArgTerms) []))) =
      uniqueDict (σ.after σ') (es.foldl (fun d (e : Equation R) => mergeFArgs d e.fArgTerms) []) := by
  simp only [merge_pushes]
  unfold uniqueDict
  rw [pushes_again _ (fun l => σ'.order (dedupNum l)), List.map_map]
  refine List.map_congr_left (fun kv _ => ?_)
  simp only [Function.comp, dedup_again]
  rfl

/-- `initGeneralizedFrom` on arguments of an earlier construction -/
theorem initGeneralizedFrom_again (σ σ' : SetOrder) {m : Model R} {confs : Dict Nat (List Arr)} {g : EqDict R} {f : FArgs}
    (h : initGeneralized σ' m confs = .ok (g, f)) :
    Sys.initGeneralizedFrom σ m confs f = initGeneralized (σ.after σ') m confs := by
  unfold Sys.initGeneralizedFrom
  unfold initGeneralized at h ⊢
  simp only [bind, Except.bind] at h ⊢
  split at h
  · cases h
  · rename_i gens hg
    split at h
    · cases h
    · rename_i green hgr
      simp only [pure, Except.pure, Except.ok.injEq, Prod.mk.injEq] at h
      obtain ⟨rfl, rfl⟩ := h
      simp only [pure, Except.pure, Except.ok.injEq, Prod.mk.injEq, true_and]
      rw [show allEqs (gens ++ [(0, [green])]) = gens.flatMap (fun kv => kv.2) ++ [green] from by
        simp [allEqs]]
      exact merge_again σ σ' _

end GGCE
