import Verif.Model.Engine
import Verif.Proofs.Basic

/-! The dictionaries of required arguments: what they contain after populating, merging and
deduplicating. -/

set_option linter.unusedSectionVars false

namespace GGCE

namespace Dict
variable {κ ν : Type _} [DecidableEq κ]

/-- the list stored under `k`, empty if absent -/
def vals (d : Dict κ (List ν)) (k : κ) : List ν := (d.get? k).getD []

/-- no key maps to the empty list -/
def Full (d : Dict κ (List ν)) : Prop := ∀ k, d.get? k ≠ some []

theorem vals_push (d : Dict κ (List ν)) (k k' : κ) (v : ν) :
    (d.push k v).vals k' = d.vals k' ++ if k = k' then [v] else [] := by
  unfold vals
  rw [get?_push]
  by_cases h : k = k'
  · subst h; simp
  · simp [h]

theorem full_push {d : Dict κ (List ν)} (h : d.Full) (k : κ) (v : ν) : (d.push k v).Full := by
  intro k'
  rw [get?_push]
  split
  · simp
  · exact h k'

theorem get?_of_vals {d : Dict κ (List ν)} {k : κ} (h : d.vals k ≠ []) :
    d.get? k = some (d.vals k) := by
  unfold vals at *
  cases hd : d.get? k with
  | none => simp [hd] at h
  | some l => simp

theorem full_nil : Full ([] : Dict κ (List ν)) := by intro k; simp [get?]

theorem vals_pushAll (d : Dict κ (List ν)) (k k' : κ) (vs : List ν) :
    (vs.foldl (fun d x => push d k x) d).vals k' = d.vals k' ++ if k = k' then vs else [] := by
  induction vs generalizing d with
  | nil => simp
  | cons v vs ih =>
    rw [List.foldl_cons, ih, vals_push]
    by_cases h : k = k' <;> simp [h]

theorem full_pushAll {d : Dict κ (List ν)} (h : d.Full) (k : κ) (vs : List ν) :
    (vs.foldl (fun d x => push d k x) d).Full := by
  induction vs generalizing d with
  | nil => exact h
  | cons v vs ih => exact ih (full_push h k v)

theorem keys_nodup_pushAll {d : Dict κ (List ν)} (h : (d.map Prod.fst).Nodup) (k : κ)
    (vs : List ν) : ((vs.foldl (fun d x => push d k x) d).map Prod.fst).Nodup := by
  induction vs generalizing d with
  | nil => exact h
  | cons v vs ih => exact ih (keys_nodup_push h k v)

end Dict

open Dict

theorem vals_mergeFArgs (d e : Dict PyStr (List Num)) (he : (e.map Prod.fst).Nodup) (k : PyStr) :
    (mergeFArgs d e).vals k = d.vals k ++ e.vals k := by
  unfold mergeFArgs
  induction e generalizing d with
  | nil => simp [vals, get?]
  | cons p e ih =>
    simp only [List.map_cons, List.nodup_cons] at he
    rw [List.foldl_cons, ih _ he.2, vals_pushAll]
    by_cases h : p.1 = k
    · subst h
      have h2 := (get?_eq_none_iff e p.1).2 he.1
      simp [vals, get?, h2]
    · simp [vals, get?, h]

theorem full_mergeFArgs {d : Dict PyStr (List Num)} (h : d.Full) (e : Dict PyStr (List Num)) :
    (mergeFArgs d e).Full := by
  unfold mergeFArgs
  induction e generalizing d with
  | nil => exact h
  | cons p e ih => exact ih (full_pushAll h _ _)

theorem keys_nodup_mergeFArgs {d : Dict PyStr (List Num)} (h : (d.map Prod.fst).Nodup)
    (e : Dict PyStr (List Num)) : ((mergeFArgs d e).map Prod.fst).Nodup := by
  unfold mergeFArgs
  induction e generalizing d with
  | nil => exact h
  | cons p e ih => exact ih (keys_nodup_pushAll h _ _)

variable {R : Type} [Field R] [LinearOrder R]

theorem populate_aux (ts : List (Term R)) (d : Dict PyStr (List Num)) (k : PyStr) :
    (ts.foldl (fun d t => push d (configId t.config) t.fArg) d).vals k =
      d.vals k ++ (ts.filter (fun t => configId t.config = k)).map Term.fArg := by
  induction ts generalizing d with
  | nil => simp
  | cons t ts ih =>
    rw [List.foldl_cons, ih, vals_push]
    by_cases h : configId t.config = k <;> simp [h]

theorem vals_populate (ts : List (Term R)) (k : PyStr) :
    (populate ts).vals k = (ts.filter (fun t => configId t.config = k)).map Term.fArg := by
  unfold populate; rw [populate_aux]; simp [vals, get?]

theorem keys_nodup_populate (ts : List (Term R)) : ((populate ts).map Prod.fst).Nodup := by
  unfold populate
  have : ∀ (ts : List (Term R)) (d : Dict PyStr (List Num)), (d.map Prod.fst).Nodup →
      ((ts.foldl (fun d t => push d (configId t.config) t.fArg) d).map Prod.fst).Nodup := by
    intro ts
    induction ts with
    | nil => exact fun d h => h
    | cons t ts ih => exact fun d h => ih _ (keys_nodup_push h _ _)
  exact this ts [] (by simp)

/-- the merged dictionary of a list of equations -/
def allFArgs (es : List (Equation R)) : Dict PyStr (List Num) :=
  es.foldl (fun d (e : Equation R) => mergeFArgs d e.fArgTerms) []

theorem vals_allFArgs {es : List (Equation R)} (h : ∀ e ∈ es, e.fArgTerms = populate e.terms)
    (k : PyStr) : (allFArgs es).vals k =
      es.flatMap (fun e => (e.terms.filter (fun t => configId t.config = k)).map Term.fArg) := by
  have : ∀ (es : List (Equation R)) (d : Dict PyStr (List Num)),
      (∀ e ∈ es, e.fArgTerms = populate e.terms) →
      (es.foldl (fun d (e : Equation R) => mergeFArgs d e.fArgTerms) d).vals k = d.vals k ++
        es.flatMap (fun e => (e.terms.filter (fun t => configId t.config = k)).map Term.fArg) := by
    intro es
    induction es with
    | nil => intro d _; simp
    | cons e es ih =>
      intro d h
      rw [List.foldl_cons, ih _ (fun x hx => h x (List.mem_cons_of_mem _ hx)),
        h e List.mem_cons_self, vals_mergeFArgs _ _ (keys_nodup_populate _), vals_populate]
      simp
  unfold allFArgs
  rw [this es [] h]
  simp [vals, get?]

theorem full_allFArgs (es : List (Equation R)) : (allFArgs es).Full := by
  have : ∀ (es : List (Equation R)) (d : Dict PyStr (List Num)), d.Full →
      (es.foldl (fun d (e : Equation R) => mergeFArgs d e.fArgTerms) d).Full := by
    intro es
    induction es with
    | nil => exact fun d h => h
    | cons e es ih => exact fun d h => ih _ (full_mergeFArgs h _)
  exact this es [] full_nil

theorem keys_nodup_allFArgs (es : List (Equation R)) : ((allFArgs es).map Prod.fst).Nodup := by
  have : ∀ (es : List (Equation R)) (d : Dict PyStr (List Num)), (d.map Prod.fst).Nodup →
      ((es.foldl (fun d (e : Equation R) => mergeFArgs d e.fArgTerms) d).map Prod.fst).Nodup := by
    intro es
    induction es with
    | nil => exact fun d h => h
    | cons e es ih => exact fun d h => ih _ (keys_nodup_mergeFArgs h _)
  exact this es [] (by simp)

/-! #### deduplication -/

theorem mem_dedupNum_of {l : List Num} : ∀ {x}, x ∈ dedupNum l → x ∈ l := by
  induction l with
  | nil => simp [dedupNum]
  | cons y ys ih =>
    intro x hx
    simp only [dedupNum, List.mem_cons, List.mem_filter] at hx
    rcases hx with rfl | hx
    · exact List.mem_cons_self
    · exact List.mem_cons_of_mem _ (ih hx.1)

theorem dedupNum_covers {l : List Num} : ∀ {x}, x ∈ l → ∃ y ∈ dedupNum l, y.tw = x.tw := by
  induction l with
  | nil => simp
  | cons z zs ih =>
    intro x hx
    by_cases h : x.tw = z.tw
    · exact ⟨z, by simp [dedupNum], h.symm⟩
    · rcases List.mem_cons.1 hx with rfl | hx
      · exact absurd rfl h
      · obtain ⟨y, hy1, hy2⟩ := ih hx
        refine ⟨y, ?_, hy2⟩
        simp only [dedupNum, List.mem_cons, List.mem_filter]
        exact Or.inr ⟨hy1, by simp [hy2, h]⟩

theorem dedupNum_nodup (l : List Num) : ((dedupNum l).map Num.tw).Nodup := by
  induction l with
  | nil => simp [dedupNum]
  | cons z zs ih =>
    simp only [dedupNum, List.map_cons, List.nodup_cons]
    constructor
    · simp
    · exact (ih.sublist (List.Sublist.map _ List.filter_sublist))

theorem get?_uniqueDict (σ : SetOrder) (d : Dict PyStr (List Num)) (k : PyStr) :
    (uniqueDict σ d).get? k = (d.get? k).map (fun l => σ.order (dedupNum l)) := by
  unfold uniqueDict
  induction d with
  | nil => simp [get?]
  | cons p d ih =>
    simp only [List.map_cons, get?]
    split
    · simp
    · exact ih

end GGCE
