import Verif.Spec.Scale
import Verif.Spec.WellFormed
import Verif.Proofs.Basic

/-! Building the system commutes with multiplying all couplings by a number. -/

set_option linter.unusedSectionVars false

namespace GGCE
open Spec Arr Dict

variable {R : Type} [Field R] [LinearOrder R]

def scaleTerm (s : R) (t : Term R) : Term R :=
  { t with
    hterm := scaleH s t.hterm
    pref := s * t.pref }

def scaleEq (s : R) (e : Equation R) : Equation R := { e with terms := e.terms.map (scaleTerm s) }

def scaleEqs (s : R) (d : Dict Nat (List (Equation R))) : Dict Nat (List (Equation R)) :=
  d.map (fun kv => (kv.1, kv.2.map (scaleEq s)))

def scaleBuilt (s : R) (b : Built R) : Built R := ⟨scaleEqs s b.gens, b.fargs, scaleEqs s b.eqs⟩

theorem collectM_map {α β γ : Type _} {f : α → Py (Option β)} {f' : α → Py (Option γ)} (g : β → γ)
    (xs : List α) (h : ∀ x ∈ xs, f' x = (f x).map (Option.map g)) :
    collectM f' xs = (collectM f xs).map (List.map g) := by
  induction xs with
  | nil => rfl
  | cons x xs ih =>
    have hx := h x List.mem_cons_self
    rw [collectM, collectM, hx, ih (fun y hy => h y (List.mem_cons_of_mem _ hy))]
    cases f x with
    | error e => rfl
    | ok o =>
      cases collectM f xs with
      | error e => cases o <;> rfl
      | ok ys => cases o <;> rfl

theorem collectM_mapIn {α α' β : Type _} {f : α → Py (Option β)} (g : α' → α) (xs : List α') :
    collectM f (xs.map g) = collectM (fun x => f (g x)) xs := by
  induction xs with
  | nil => rfl
  | cons x xs ih => rw [List.map_cons, collectM, collectM, ih]

theorem mkNonIndex_scale (s : R) (m : Model R) (k : Kind) (a : Arr) (h : SingleTerm R) (p : R) :
    mkNonIndex (scaleModel s m) k a (scaleH s h) (s * p) =
      (mkNonIndex m k a h p).map (scaleTerm s) := by
  unfold mkNonIndex
  cases a.validate with
  | error e => rfl
  | ok u =>
    show (freqShift m.ham.freqs a.totalPerType >>= _) = _
    cases freqShift m.ham.freqs a.totalPerType <;> rfl

theorem step_scale (s : R) (t : Term R) (loc : Int) :
    step (scaleTerm s t) loc = (step t loc).map (scaleTerm s) := by
  obtain ⟨k, c, h, p, e, f, g, w⟩ := t
  unfold step scaleTerm
  cases g with
  | none => rfl
  | some g =>
    simp only
    cases g.iadd (.int loc) with
    | error e => rfl
    | ok g' =>
      simp only [bind, Except.bind]
      cases f.isub (.int loc) with
      | error e => rfl
      | ok f' =>
        cases k with
        | eom => rfl
        | ann =>
          simp only [scaleH]
          cases Config.removePhonon ⟨c, 1, 0⟩ h.phononIndex loc with
          | error e => rfl
          | ok q =>
            simp only
            cases e.isub (.int q.2) with
            | error e => rfl
            | ok e' =>
              simp only
              cases f'.iadd (.int q.2) <;> rfl
        | cre =>
          simp only [scaleH]
          cases Config.addPhonon ⟨c, 1, 0⟩ h.phononIndex loc with
          | error e => rfl
          | ok q =>
            simp only
            cases f'.isub (.int q.2) <;> rfl

theorem simplifyGreen_scale (s : R) (t : Term R) :
    simplifyGreen (scaleTerm s t) = (simplifyGreen t).map (scaleTerm s) := by
  unfold simplifyGreen
  by_cases hc : configId t.config = ['{', 'G', '}'] ∧ t.fArg.tw ≠ 0
  · rw [if_pos hc, if_pos (show configId (scaleTerm s t).config = ['{', 'G', '}'] ∧
      (scaleTerm s t).fArg.tw ≠ 0 from hc)]
    show (t.expShift.iadd t.fArg >>= _) = _
    cases t.expShift.iadd t.fArg <;> rfl
  · rw [if_neg hc, if_neg (show ¬ (configId (scaleTerm s t).config = ['{', 'G', '}'] ∧
      (scaleTerm s t).fArg.tw ≠ 0) from hc)]
    rfl

theorem finishTerm_scale (s : R) (m : Model R) (t : Term R) :
    finishTerm (scaleModel s m) (scaleTerm s t) = (finishTerm m t).map (Option.map (scaleTerm s)) := by
  unfold finishTerm
  rw [simplifyGreen_scale]
  cases simplifyGreen t with
  | error e => rfl
  | ok t' =>
    simp only [Except.map, bind, Except.bind]
    show Except.bind (t'.config.validate) _ = _
    cases t'.config.validate with
    | error e => rfl
    | ok u =>
      simp only [Except.bind]
      show Except.bind (t'.config.configLegal m.maxPerSite (some m.extent) none true) _ = _
      cases t'.config.configLegal m.maxPerSite (some m.extent) none true with
      | error e => rfl
      | ok b => cases b <;> rfl

theorem make_scale (s : R) (m : Model R) (k : Kind) (a : Arr) (h : SingleTerm R) (p : R) (loc : Int) :
    (do
      let t ← mkNonIndex (scaleModel s m) k a (scaleH s h) (s * p)
      let t ← step t loc
      finishTerm (scaleModel s m) t) =
    (do
      let t ← mkNonIndex m k a h p
      let t ← step t loc
      finishTerm m t : Py (Option (Term R))).map (Option.map (scaleTerm s)) := by
  rw [mkNonIndex_scale]
  cases mkNonIndex m k a h p with
  | error e => rfl
  | ok t =>
    simp only [Except.map, bind, Except.bind]
    rw [step_scale]
    cases step t loc with
    | error e => rfl
    | ok t' =>
      simp only [Except.map]
      rw [finishTerm_scale]
      rfl

theorem annTerms_scale (s : R) (m : Model R) (a : Arr) (h : SingleTerm R) (row : List Int) :
    annTerms (scaleModel s m) a (scaleH s h) row = (annTerms m a h row).map (List.map (scaleTerm s)) := by
  unfold annTerms
  refine collectM_map _ _ ?_
  intro loc _
  simp only
  split
  · rfl
  · have := make_scale s m .ann a h (h.coupling * ((row.getD loc 0 : Int) : R)) (loc : Int)
    rw [show s * (h.coupling * ((row.getD loc 0 : Int) : R)) =
      (scaleH s h).coupling * ((row.getD loc 0 : Int) : R) by rw [scaleH, mul_assoc]] at this
    exact this

theorem creTerms_scale (s : R) (m : Model R) (a : Arr) (h : SingleTerm R) (row : List Int) :
    creTerms (scaleModel s m) a (scaleH s h) row = (creTerms m a h row).map (List.map (scaleTerm s)) := by
  unfold creTerms
  show (match m.number[h.phononIndex]? with
    | none => _
    | some cap => _) = _
  cases m.number[h.phononIndex]? with
  | none => rfl
  | some cap =>
    simp only
    split
    · rfl
    · show (match m.absExtent with
        | none => _
        | some ae => _) = _
      cases m.absExtent with
      | none => rfl
      | some ae =>
        simp only
        split
        · rfl
        · refine collectM_map _ _ ?_
          intro i _
          exact make_scale s m .cre a h h.coupling _

theorem initTerms_scale (s : R) (m : Model R) (a : Arr) (hs : List (SingleTerm R)) :
    initTerms (scaleModel s m) a (hs.map (scaleH s)) = (initTerms m a hs).map (List.map (scaleTerm s)) := by
  induction hs with
  | nil => rfl
  | cons h hs ih =>
    rw [List.map_cons, initTerms, initTerms]
    show (match a.rows[h.phononIndex]? with
      | none => _
      | some row => _) = _
    cases a.rows[h.phononIndex]? with
    | none => rfl
    | some row =>
      simp only
      have key : ∀ (X : Py (List (Term R))),
          (X.map (List.map (scaleTerm s)) >>= fun ts =>
            initTerms (scaleModel s m) a (hs.map (scaleH s)) >>= fun rest => pure (ts ++ rest)) =
          Except.map (List.map (scaleTerm s)) (X >>= fun ts => initTerms m a hs >>= fun rest =>
            pure (ts ++ rest)) := by
        intro X
        rw [ih]
        cases X with
        | error e => rfl
        | ok ts =>
          simp only [Except.map, bind, Except.bind]
          cases initTerms m a hs with
          | error e => rfl
          | ok rest => simp [pure, Except.pure]
      cases hd : h.dag with
      | minus =>
        have := key (annTerms m a h row)
        rw [← annTerms_scale] at this
        simp only [scaleH, hd] at this ⊢
        exact this
      | plus =>
        have := key (creTerms m a h row)
        rw [← creTerms_scale] at this
        simp only [scaleH, hd] at this ⊢
        exact this

theorem populate_scale (s : R) (ts : List (Term R)) : populate (ts.map (scaleTerm s)) = populate ts := by
  unfold populate
  rw [List.foldl_map]
  rfl

theorem mkEquation_scale (s : R) (m : Model R) (a : Arr) :
    mkEquation (scaleModel s m) a = (mkEquation m a).map (scaleEq s) := by
  unfold mkEquation
  cases a.validate with
  | error e => rfl
  | ok u =>
    show (initTerms (scaleModel s m) a (m.ham.terms.map (scaleH s)) >>= _) = _
    rw [initTerms_scale]
    cases initTerms m a m.ham.terms with
    | error e => rfl
    | ok ts =>
      simp only [Except.map, bind, Except.bind, pure, Except.pure, populate_scale]
      rfl

theorem mkEOM_scale (s : R) (m : Model R) (h : SingleTerm R) :
    mkEOM (scaleModel s m) (scaleH s h) = (mkEOM m h).map (Option.map (scaleTerm s)) := by
  obtain ⟨ct, psi, phi, dag, g, i, f⟩ := h
  unfold mkEOM scaleH
  cases dag with
  | minus => rfl
  | plus =>
    simp only
    by_cases hi : i < m.nTypes
    · rw [if_pos hi, if_pos (show i < (scaleModel s m).nTypes from hi)]
      show (Arr.validate ⟨(Arr.zeros m.nTypes 1).rows.set i [1], 1⟩ >>= _) = _
      cases Arr.validate ⟨(Arr.zeros m.nTypes 1).rows.set i [1], 1⟩ <;> rfl
    · rw [if_neg hi, if_neg (show ¬ i < (scaleModel s m).nTypes from hi)]
      rfl

theorem mkGreen_scale (s : R) (m : Model R) : mkGreen (scaleModel s m) = (mkGreen m).map (scaleEq s) := by
  unfold mkGreen
  simp only
  show (Arr.validate (Arr.zeros m.nTypes 1) >>= _) = _
  cases Arr.validate (Arr.zeros m.nTypes 1) with
  | error e => rfl
  | ok u =>
    show (collectM (mkEOM (scaleModel s m)) (m.ham.terms.map (scaleH s)) >>= _) = _
    rw [collectM_mapIn, collectM_map (f := mkEOM m) (scaleTerm s) _ (fun h _ => mkEOM_scale s m h)]
    cases collectM (mkEOM m) m.ham.terms with
    | error e => rfl
    | ok ts =>
      simp only [Except.map, bind, Except.bind, pure, Except.pure, populate_scale]
      rfl

theorem generateAll_scale (s : R) (m : Model R) : generateAll (scaleModel s m) = generateAll m := rfl

theorem foldl_fArgs_scale (s : R) (l : List (Equation R)) (d : Dict PyStr (List Num)) :
    (l.map (scaleEq s)).foldl (fun d (e : Equation R) => mergeFArgs d e.fArgTerms) d =
      l.foldl (fun d (e : Equation R) => mergeFArgs d e.fArgTerms) d := by
  rw [List.foldl_map]; rfl

theorem initGeneralized_scale (σ : SetOrder) (s : R) (m : Model R) (confs : Dict Nat (List Arr)) :
    initGeneralized σ (scaleModel s m) confs =
      (initGeneralized σ m confs).map (fun q => (scaleEqs s q.1, q.2)) := by
  unfold initGeneralized
  rw [collectM_map (f := fun kv : Nat × List Arr => do
    let eqs ← collectM (fun a => some <$> mkEquation m a) kv.2
    pure (some (kv.1, eqs))) (fun kv : Nat × List (Equation R) => (kv.1, kv.2.map (scaleEq s)))]
  · cases collectM (fun kv : Nat × List Arr => do
      let eqs ← collectM (fun a => some <$> mkEquation m a) kv.2
      pure (some (kv.1, eqs))) confs with
    | error e => rfl
    | ok gens =>
      simp only [Except.map, bind, Except.bind]
      rw [mkGreen_scale]
      cases mkGreen m with
      | error e => rfl
      | ok g =>
        simp only [Except.map, pure, Except.pure]
        congr 2
        · simp [scaleEqs]
        · rw [show (gens.map (fun kv => (kv.1, kv.2.map (scaleEq s)))).flatMap (fun kv => kv.2) ++
            [scaleEq s g] = (gens.flatMap (fun kv => kv.2) ++ [g]).map (scaleEq s) by
              simp [List.flatMap_map, List.map_flatMap]]
          rw [foldl_fArgs_scale]
  · intro kv _
    rw [collectM_map (f := fun a => some <$> mkEquation m a) (scaleEq s)]
    · cases collectM (fun a => some <$> mkEquation m a) kv.2 <;> rfl
    · intro a _
      rw [mkEquation_scale]
      cases mkEquation m a <;> rfl

theorem incrementG_scale (s : R) (d : Num) (t : Term R) :
    incrementG d (scaleTerm s t) = (incrementG d t).map (scaleTerm s) := by
  obtain ⟨k, c, h, p, e, f, g, w⟩ := t
  unfold incrementG scaleTerm
  cases k with
  | eom => rfl
  | ann =>
    cases g with
    | none => rfl
    | some g => simp only; cases g.iadd d <;> rfl
  | cre =>
    cases g with
    | none => rfl
    | some g => simp only; cases g.iadd d <;> rfl

theorem initFull_scale (s : R) (e : Equation R) (d : Num) :
    initFull (scaleEq s e) d = (initFull e d).map (scaleEq s) := by
  unfold initFull
  show (collectM _ (e.terms.map (scaleTerm s)) >>= _) = _
  rw [collectM_mapIn, collectM_map (f := fun t => some <$> incrementG d t) (scaleTerm s)]
  · cases collectM (fun t => some <$> incrementG d t) e.terms <;> rfl
  · intro t _
    rw [incrementG_scale]
    cases incrementG d t <;> rfl

theorem expandEq_scale (s : R) (fargs : Dict PyStr (List Num)) (e : Equation R) :
    expandEq fargs (scaleEq s e) = (expandEq fargs e).map (List.map (scaleEq s)) := by
  unfold expandEq
  show (match fargs.get? (configId e.config) with
    | none => _
    | some ds => _) = _
  cases fargs.get? (configId e.config) with
  | none => rfl
  | some ds =>
    simp only
    refine collectM_map _ _ ?_
    intro d _
    rw [initFull_scale]
    cases initFull e d <;> rfl

theorem initEquations_scale (s : R) (gens : Dict Nat (List (Equation R)))
    (fargs : Dict PyStr (List Num)) :
    initEquations (scaleEqs s gens) fargs = (initEquations gens fargs).map (scaleEqs s) := by
  unfold initEquations
  rw [show scaleEqs s gens = gens.map (fun kv => (kv.1, kv.2.map (scaleEq s))) from rfl, collectM_mapIn]
  refine collectM_map _ _ ?_
  intro kv _
  simp only
  rw [collectM_mapIn, collectM_map (f := fun e => some <$> expandEq fargs e) (List.map (scaleEq s))]
  · cases collectM (fun e => some <$> expandEq fargs e) kv.2 with
    | error e => rfl
    | ok l => simp [Except.map, bind, Except.bind, pure, Except.pure]
  · intro e _
    rw [expandEq_scale]
    cases expandEq fargs e <;> rfl

theorem allEqs_scale (s : R) (eqs : Dict Nat (List (Equation R))) :
    allEqs (scaleEqs s eqs) = (allEqs eqs).map (scaleEq s) := by
  unfold allEqs scaleEqs
  rw [List.flatMap_map, List.map_flatMap]

theorem finalChecks_scale (s : R) (eqs : Dict Nat (List (Equation R))) :
    finalChecks (scaleEqs s eqs) = finalChecks eqs := by
  unfold finalChecks
  rw [allEqs_scale]
  have h1 : ((allEqs eqs).map (scaleEq s)).map Equation.id = (allEqs eqs).map Equation.id := by
    rw [List.map_map]; rfl
  have h2 : ((allEqs eqs).map (scaleEq s)).flatMap (fun e => e.terms.map Term.id) =
      (allEqs eqs).flatMap (fun e => e.terms.map Term.id) := by
    rw [List.flatMap_map]
    congr 1
    funext e
    show (e.terms.map (scaleTerm s)).map Term.id = _
    rw [List.map_map]; rfl
  rw [h1, h2]

/-- Building the system of the rescaled model gives the rescaled system, or fails in the same way. -/
theorem buildSystem_scale (σ : SetOrder) (s : R) (m : Model R) :
    buildSystem σ (scaleModel s m) = (buildSystem σ m).map (scaleBuilt s) := by
  unfold buildSystem
  rw [generateAll_scale]
  cases generateAll m with
  | error e => rfl
  | ok confs =>
    simp only [bind, Except.bind]
    rw [initGeneralized_scale]
    cases initGeneralized σ m confs with
    | error e => rfl
    | ok q =>
      simp only [Except.map]
      rw [initEquations_scale]
      cases initEquations q.1 q.2 with
      | error e => rfl
      | ok eqs =>
        simp only [Except.map]
        rw [finalChecks_scale]
        cases finalChecks eqs <;> rfl

theorem Spec.WellFormed.scale {m : Model R} {ae : Int} (h : WellFormed m ae) (s : R) :
    WellFormed (scaleModel s m) ae where
  ext := h.ext
  num := h.num
  absExtent := h.absExtent
  freqs := h.freqs
  index := by
    intro t ht
    obtain ⟨t', ht', rfl⟩ := List.mem_map.1 ht
    exact h.index t' ht'
  dim := h.dim
  types := h.types
  aePos := h.aePos
  extPos := h.extPos
  numPos := h.numPos
  capPos := h.capPos
  plus := by
    intro t ht
    obtain ⟨t', ht', h1, h2⟩ := h.plus t ht
    exact ⟨_, List.mem_map.2 ⟨t', ht', rfl⟩, h1, h2⟩
  minus := by
    obtain ⟨t', ht', h1⟩ := h.minus
    exact ⟨_, List.mem_map.2 ⟨t', ht', rfl⟩, h1⟩
  dtype := by
    intro t ht hf t1 ht1
    obtain ⟨t', ht', rfl⟩ := List.mem_map.1 ht
    obtain ⟨t1', ht1', rfl⟩ := List.mem_map.1 ht1
    exact h.dtype t' ht' hf t1' ht1'

end GGCE
