import Verif.Proofs.DenseSolve
import Verif.Proofs.Scale

/-! Two systems whose coefficients differ by signs depending on the phonon numbers only have the same
Green's function. -/

set_option linter.unusedSectionVars false

namespace GGCE
open Spec Arr Dict

variable {R K : Type} [Field R] [LinearOrder R] [Field K]

/-- replace every term of an equation -/
def mapEq (τ : Term R → Term R) (e : Equation R) : Equation R := { e with terms := e.terms.map τ }

/-- replace every term of a system -/
def mapEqs (τ : Term R → Term R) (d : Dict Nat (List (Equation R))) : Dict Nat (List (Equation R)) :=
  d.map (fun kv => (kv.1, kv.2.map (mapEq τ)))

theorem mapEqs_id (d : Dict Nat (List (Equation R))) : mapEqs (fun t => t) d = d := by
  unfold mapEqs mapEq
  simp

theorem get?_mapEqs (τ : Term R → Term R) (d : Dict Nat (List (Equation R))) (n : Nat) :
    (mapEqs τ d).get? n = (d.get? n).map (List.map (mapEq τ)) := by
  unfold mapEqs
  induction d with
  | nil => rfl
  | cons p d ih =>
    simp only [List.map_cons, Dict.get?]
    split
    · rfl
    · exact ih

theorem allEqs_mapEqs (τ : Term R → Term R) (d : Dict Nat (List (Equation R))) :
    allEqs (mapEqs τ d) = (allEqs d).map (mapEq τ) := by
  unfold allEqs mapEqs
  rw [List.flatMap_map, List.map_flatMap]

theorem localBasis_mapEqs (τ : Term R → Term R) (d : Dict Nat (List (Equation R))) :
    localBasis (mapEqs τ d) = localBasis d := by
  unfold localBasis mapEqs
  rw [List.map_map]
  apply List.map_congr_left
  intro kv _
  simp only [Function.comp]
  congr 1
  rw [List.zipIdx_map, List.foldl_map]
  rfl

/-- The second system is the first with every term `t` replaced by `τ t`; its coefficient changes by
signs depending on the phonon numbers of equation and term. -/
structure Twin (F : Phys R K) (s : Nat → K) (m m' : Model R) (p p' : Point R) (τ : Term R → Term R)
    (eqs : Dict Nat (List (Equation R))) : Prop where
  sq : ∀ n, s n * s n = 1
  number : m'.number = m.number
  config : ∀ t, (τ t).config = t.config
  fArg : ∀ t, (τ t).fArg = t.fArg
  g0 : F.G0 p'.k p'.w m'.latticeConstant p'.eta m'.ham.hopping =
    F.G0 p.k p.w m.latticeConstant p.eta m.ham.hopping
  coef : ∀ e ∈ allEqs eqs, ∀ t ∈ e.terms, ∀ n n' : Nat, e.config.total = n → t.config.total = n' →
    (τ t).coefficient F m' p' = (t.coefficient F m p).map (fun c => s n * s n' * c)

section
variable {F : Phys R K} {s : Nat → K} {m m' : Model R} {p p' : Point R} {τ : Term R → Term R}
  {eqs : Dict Nat (List (Equation R))}

theorem Twin.id (h : Twin F s m m' p p' τ eqs) (t : Term R) : (τ t).id = t.id := by
  unfold Term.id; rw [h.config, h.fArg]

/-- multiply all values of a coordinate list -/
def mulCoo (x : K) (ts : List (Nat × Nat × K)) : List (Nat × Nat × K) :=
  ts.map (fun q => (q.1, q.2.1, x * q.2.2))

theorem cooEntry_mul (x : K) (ts : List (Nat × Nat × K)) (i j : Nat) :
    cooEntry (mulCoo x ts) i j = x * cooEntry ts i j := by
  unfold mulCoo
  induction ts with
  | nil => simp [cooEntry]
  | cons q ts ih =>
    rw [List.map_cons, cooEntry_cons, cooEntry_cons, ih, mul_add]
    simp

theorem toMatrix_mul (x : K) (ts : List (Nat × Nat × K)) (r c : Nat) :
    toMatrix r c (mulCoo x ts) = x • toMatrix r c ts := by
  ext i j
  simp [toMatrix, cooEntry_mul]

theorem Twin.fill (ht : Twin F s m m' p p' τ eqs) (hr : Ready m eqs)
    (basis : Dict Nat (Dict PyStr Nat)) {n n' : Nat} (hn : n ≤ m.number.sum.toNat) :
    fillMatrix F m' p' basis (mapEqs τ eqs) n n' =
      (fillMatrix F m p basis eqs n n').map (mulCoo (s n * s n')) := by
  unfold fillMatrix
  rw [get?_mapEqs, hr.get hn]
  simp only [Option.map_some]
  cases basis.get? n with
  | none => rfl
  | some row =>
    cases basis.get? n' with
    | none => rfl
    | some col =>
      simp only
      rw [collectM_mapIn, collectM_map (f := fun e : Equation R =>
        match row.get? e.id with
        | none => .error .keyError
        | some i => some <$> fillRow F m p row.length col n' i e.terms) (mulCoo (s n * s n'))]
      · cases collectM (fun e : Equation R =>
          match row.get? e.id with
          | none => (.error .keyError : Py (Option (List (Nat × Nat × K))))
          | some i => some <$> fillRow F m p row.length col n' i e.terms) (eqs.vals n) with
        | error e => rfl
        | ok l =>
          show Except.ok _ = Except.ok _
          congr 1
          rw [mulCoo, List.map_flatten]
          rfl
      · intro e he
        have hev := (hr.mem_vals hn).1 he
        show (match row.get? e.id with
          | none => _
          | some i => _) = _
        cases row.get? e.id with
        | none => rfl
        | some i =>
          simp only
          have : fillRow F m' p' row.length col n' i (mapEq τ e).terms =
              (fillRow F m p row.length col n' i e.terms).map (mulCoo (s n * s n')) := by
            unfold fillRow mulCoo
            show collectM _ (e.terms.map τ) = _
            rw [collectM_mapIn]
            refine collectM_map _ _ ?_
            intro t htm
            simp only [ht.config]
            split
            · rfl
            · rename_i htot
              rw [ht.id]
              cases Dict.get? col t.id with
              | none => rfl
              | some j =>
                simp only
                rw [ht.coef e hev.1 t htm n n' hev.2 (not_not.1 htot)]
                split
                · cases t.coefficient F m p <;> rfl
                · rfl
          rw [this]
          cases fillRow F m p row.length col n' i e.terms <;> rfl

theorem smul_eq_mul_matrix {a b : Nat} (x y : K) (h : x * y = 1) {M : Matrix (Fin a) (Fin b) K} :
    x • y • M = M := by rw [smul_smul, h, one_smul]

theorem Twin.denseR (ht : Twin F s m m' p p' τ eqs) (hr : Ready m eqs)
    (basis : Dict Nat (Dict PyStr Nat)) (k n : Nat) (hk : n + k + 1 ≤ m.number.sum.toNat) :
    GGCE.denseR F m' p' basis (mapEqs τ eqs) k n =
      (GGCE.denseR F m p basis eqs k n).map (fun M => (s (n + 1) * s n) • M) := by
  induction k generalizing n with
  | zero =>
    rw [GGCE.denseR, GGCE.denseR, ht.fill hr basis (by omega)]
    cases fillMatrix F m p basis eqs (n + 1) n with
    | error e => rfl
    | ok ts =>
      show Except.ok _ = Except.ok _
      rw [toMatrix_mul]
  | succ k ih =>
    rw [GGCE.denseR, GGCE.denseR, ih (n + 1) (by omega), ht.fill hr basis (by omega),
      ht.fill hr basis (by omega)]
    cases GGCE.denseR F m p basis eqs k (n + 1) with
    | error e => rfl
    | ok R' =>
      cases fillMatrix F m p basis eqs (n + 1) (n + 2) with
      | error e => rfl
      | ok beta =>
        cases fillMatrix F m p basis eqs (n + 1) n with
        | error e => rfl
        | ok alpha =>
          simp only [Except.map, bind, Except.bind]
          have : toMatrix (blockDim basis (n + 1)) (blockDim basis (n + 1 + 1))
              (mulCoo (s (n + 1) * s (n + 2)) beta) * (s (n + 1 + 1) * s (n + 1)) • R' =
              toMatrix (blockDim basis (n + 1)) (blockDim basis (n + 1 + 1)) beta * R' := by
            rw [toMatrix_mul, Matrix.smul_mul, Matrix.mul_smul, smul_smul]
            have e1 : s (n + 1) * s (n + 2) * (s (n + 1 + 1) * s (n + 1)) = 1 := by
              have h1 := ht.sq (n + 1)
              have h2 := ht.sq (n + 2)
              linear_combination h1 * s (n + 2) * s (n + 2) + h2
            rw [e1, one_smul]
          rw [this, toMatrix_mul]
          by_cases hX : (1 - toMatrix (blockDim basis (n + 1)) (blockDim basis (n + 1 + 1)) beta * R').det = 0
          · rw [if_pos hX, if_pos hX]
          · rw [if_neg hX, if_neg hX]
            simp only [pure, Except.pure]
            rw [Matrix.mul_smul]

theorem Twin.dense (ht : Twin F s m m' p p' τ eqs) (hr : Ready m eqs) :
    denseSolve F m' p' (GGCE.localBasis (mapEqs τ eqs)) (mapEqs τ eqs) =
      denseSolve F m p (GGCE.localBasis eqs) eqs := by
  rw [localBasis_mapEqs]
  generalize GGCE.localBasis eqs = basis
  unfold denseSolve
  rw [ht.number]
  split
  · rfl
  · rename_i h0
    rw [ht.denseR hr basis _ 0 (by omega), ht.fill hr basis (by omega), ht.g0]
    cases GGCE.denseR F m p basis eqs (m.number.sum.toNat - 1) 0 with
    | error e => rfl
    | ok R1 =>
      cases fillMatrix F m p basis eqs 0 1 with
      | error e => rfl
      | ok beta =>
        simp only [Except.map, bind, Except.bind]
        have : toMatrix (blockDim basis 0) (blockDim basis 1) (mulCoo (s 0 * s 1) beta) *
            (s (0 + 1) * s 0) • R1 = toMatrix (blockDim basis 0) (blockDim basis 1) beta * R1 := by
          rw [toMatrix_mul, Matrix.smul_mul, Matrix.mul_smul, smul_smul]
          have e1 : s 0 * s 1 * (s (0 + 1) * s 0) = 1 := by
            have h1 := ht.sq 0
            have h2 := ht.sq 1
            simp only [zero_add]
            linear_combination h1 * s 1 * s 1 + h2
          rw [e1, one_smul]
        rw [this]

/-- the solutions of the first system, with signs, are those of the second -/
theorem Twin.solves (ht : Twin F s m m' p p' τ eqs) (hr : Ready m eqs) (U : PyStr → K) :
    SolvesAll (coefV F m' p') (fun e => e.bias F m' p') (allEqs (mapEqs τ eqs))
      (fun id => s 0 * s (levelOf eqs id) * U id) ↔
    SolvesAll (coefV F m p) (fun e => e.bias F m p) (allEqs eqs) U := by
  unfold SolvesAll
  rw [allEqs_mapEqs]
  rw [List.forall_mem_map]
  refine forall₂_congr ?_
  intro e he
  obtain ⟨n, hn, htot⟩ := hr.total_le he
  have hl : levelOf eqs e.id = n := by rw [hr.level he, htot]; simp
  have hid : (mapEq τ e).id = e.id := rfl
  have hb : (mapEq τ e).bias F m' p' = e.bias F m p := by
    unfold Equation.bias; rw [ht.g0]; rfl
  have hs : ((mapEq τ e).terms.map (fun t => coefV F m' p' t * (s 0 * s (levelOf eqs t.id) * U t.id))).sum =
      s 0 * s n * (e.terms.map (fun t => coefV F m p t * U t.id)).sum := by
    rw [list_sum_mul_left]
    show ((e.terms.map τ).map _).sum = _
    rw [List.map_map]
    congr 1
    apply List.map_congr_left
    intro t htm
    simp only [Function.comp]
    rw [ht.id]
    obtain ⟨e1, he1, k1, k2⟩ := hr.closed e he t htm
    obtain ⟨n1, -, hn1⟩ := hr.total_le he1
    have hl1 : levelOf eqs t.id = n1 := by rw [← k1, hr.level he1, hn1]; simp
    have hc : coefV F m' p' (τ t) = s n * s n1 * coefV F m p t := by
      have := ht.coef e he t htm n n1 htot (by rw [← k2, hn1])
      rw [coefficient_ok (hr.coef e he t htm)] at this
      unfold coefV at this ⊢
      rw [this]; rfl
    rw [hl1, hc]
    have := ht.sq n1
    linear_combination s 0 * s n * coefV F m p t * U t.id * this
  simp only
  rw [hs, hid, hl, hb, ← mul_add]
  rcases Nat.eq_zero_or_pos n with h0 | h0
  · subst h0; rw [ht.sq 0, one_mul]
  · rw [hr.bias_zero F p e he (by omega)]
    have h1 : s 0 * s n ≠ 0 := by
      intro hc
      have := ht.sq 0
      have h2 := ht.sq n
      have h3 : (1 : K) = 0 := by linear_combination -this * s n * s n - h2 + s 0 * s n * hc
      exact one_ne_zero h3
    exact mul_eq_zero_iff_left h1

theorem Twin.signed (ht : Twin F s m m' p p' τ eqs) (U : PyStr → K) :
    (fun id => s 0 * s (levelOf eqs id) * (s 0 * s (levelOf eqs id) * U id)) = U := by
  funext id
  have h0 := ht.sq 0
  have h1 := ht.sq (levelOf eqs id)
  linear_combination U id * s (levelOf eqs id) * s (levelOf eqs id) * h0 + U id * h1

theorem level_mapEqs (ht : Twin F s m m' p p' τ eqs) (id : PyStr) :
    levelOf (mapEqs τ eqs) id = levelOf eqs id := by
  unfold levelOf
  rw [allEqs_mapEqs, List.find?_map]
  show (match Option.map (mapEq τ) ((allEqs eqs).find? (fun e => e.id = id)) with
    | some e => e.config.total.toNat
    | none => 0) = _
  cases (allEqs eqs).find? (fun e => e.id = id) <;> rfl

end

end GGCE
