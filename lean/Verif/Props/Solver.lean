import Verif.Proofs.DenseSolve
import Mathlib.Tactic.NormNum

/-!
Properties C19–C21: the matrices assembled by the solvers, and their agreement.
-/

set_option linter.unusedSectionVars false

namespace GGCE.Props
open Spec Arr Dict

variable {R K : Type} [Field R] [LinearOrder R] [Field K]

/-- A concrete choice of the functions in the coefficients, over the rationals (not the physical
ones), to show that hypotheses can be met. -/
def exPhys : Phys ℚ ℚ :=
  { ofReal := id, expI := fun _ => 1, g0 := fun _ w _ eta _ => w + eta, G0 := fun _ w _ eta _ => w - eta }

theorem foldl_max_le (l : List Nat) (a n : Nat) (ha : a ≤ n) (hl : ∀ x ∈ l, x ≤ n) :
    l.foldl max a ≤ n := by
  induction l generalizing a with
  | nil => exact ha
  | cons x l ih =>
    exact ih _ (max_le ha (hl x List.mem_cons_self)) (fun y hy => hl y (List.mem_cons_of_mem _ hy))

theorem le_foldl_max (l : List Nat) (a : Nat) : a ≤ l.foldl max a ∧ ∀ x ∈ l, x ≤ l.foldl max a := by
  induction l generalizing a with
  | nil => simp
  | cons x l ih =>
    obtain ⟨h1, h2⟩ := ih (max a x)
    refine ⟨le_trans (le_max_left _ _) h1, ?_⟩
    intro y hy
    rcases List.mem_cons.1 hy with rfl | hy
    · exact le_trans (le_max_right _ _) h1
    · exact h2 y hy

/-! ### C19 -/

/-- C19: for every built system and every point, all coefficients are defined (`c`), the assembly
succeeds, no (row, column) pair occurs twice, the inferred shape is `N × N` with `N` the number of
equations, the entry `(i, j)` is the sum of the coefficients in equation `i` of the unknown of
equation `j`, plus 1 on the diagonal, and the right-hand side has the free propagator in the last row
`N - 1`, the row of the Green's function. -/
theorem C19_sparse_matrix (σ : SetOrder) (m : Model R) (ae : Int) (hm : WellFormed m ae) (b : Built R)
    (hb : buildSystem σ m = .ok b) (F : Phys R K) (p : Point R) :
    ∃ (c : Term R → K) (ls : LinSys K),
      (∀ e ∈ allEqs b.eqs, ∀ t ∈ e.terms, t.coefficient F m p = .ok (c t)) ∧
      scaffold F m p (fullBasis b.eqs) b.eqs = .ok ls ∧
      (ls.triples.map (fun q => (q.1, q.2.1))).Nodup ∧
      cooRows ls.triples = (allEqs b.eqs).length ∧ cooCols ls.triples = (allEqs b.eqs).length ∧
      (∀ (i j : Nat) (ei ej : Equation R), (allEqs b.eqs)[i]? = some ei → (allEqs b.eqs)[j]? = some ej →
        cooEntry ls.triples i j = coefOf c ei ej.id + if i = j then 1 else 0) ∧
      ls.rhsRow + 1 = (allEqs b.eqs).length ∧
      ls.rhsVal = F.G0 p.k p.w m.latticeConstant p.eta m.ham.hopping ∧
      ∃ e, (allEqs b.eqs)[ls.rhsRow]? = some e ∧ e.green = true ∧ e.id = "{G}[0.0]".toList := by
  have h := ready_of_built hm hb
  obtain ⟨T, h1, h2, h3, h4, h5⟩ := h.sparse F p
  have hpos := h.length_pos
  obtain ⟨g, hg1, hg2, -, -, hg3⟩ := C18_green_last σ m ae hm b hb
  refine ⟨coefV F m p, _, fun e he t ht => coefficient_ok (h.coef e he t ht), h.scaffold F p h1, h2,
    ?_, ?_, ?_, ?_, rfl, ?_⟩
  · apply le_antisymm
    · refine foldl_max_le _ _ _ (Nat.zero_le _) ?_
      intro x hx
      obtain ⟨q, hq, rfl⟩ := List.mem_map.1 hx
      exact (h3 q hq).1
    · obtain ⟨q, hq, hq'⟩ := List.mem_map.1 (h4 _ (Nat.sub_one_lt_of_lt hpos))
      have := (le_foldl_max (T.map (fun t => t.1 + 1)) 0).2 _ (List.mem_map.2 ⟨q, hq, rfl⟩)
      simp only [Prod.mk.injEq] at hq'
      rw [hq'.1] at this
      unfold cooRows
      simp only at this ⊢
      omega
  · apply le_antisymm
    · refine foldl_max_le _ _ _ (Nat.zero_le _) ?_
      intro x hx
      obtain ⟨q, hq, rfl⟩ := List.mem_map.1 hx
      exact (h3 q hq).2
    · obtain ⟨q, hq, hq'⟩ := List.mem_map.1 (h4 _ (Nat.sub_one_lt_of_lt hpos))
      have := (le_foldl_max (T.map (fun t => t.2.1 + 1)) 0).2 _ (List.mem_map.2 ⟨q, hq, rfl⟩)
      simp only [Prod.mk.injEq] at hq'
      rw [hq'.2] at this
      unfold cooCols
      simp only at this ⊢
      omega
  · intro i j ei ej hi hj
    simp only
    rw [h5 i ei hi j]
    congr 2
    apply List.map_congr_left
    intro t ht
    obtain ⟨e', he', k1, -⟩ := h.closed ei (List.mem_of_getElem? hi) t ht
    have hej := List.mem_of_getElem? hj
    by_cases hid : t.id = ej.id
    · rw [if_pos hid, if_pos]
      rw [hid]; exact h.ix_get hj
    · rw [if_neg hid, if_neg]
      intro hc
      rw [← k1, ← h.ix_get hj] at hc
      exact hid (by rw [← k1, h.ix_inj he' hej hc])
  · simp only; omega
  · refine ⟨g, ?_, hg2, hg3⟩
    rw [List.getLast?_eq_getElem?] at hg1
    exact hg1

example : ∃ b, WellFormed exModel 2 ∧ buildSystem ⟨id, fun l => .refl l⟩ exModel = .ok b := by
  obtain ⟨b, L, h1, -⟩ := buildSystem_ok ⟨id, fun l => .refl l⟩ exModel_wellFormed
  exact ⟨b, exModel_wellFormed, h1⟩

/-- C19, consequence: the solutions of the matrix equation are the solutions of the equations. -/
theorem C19_solutions (σ : SetOrder) (m : Model R) (ae : Int) (hm : WellFormed m ae) (b : Built R)
    (hb : buildSystem σ m = .ok b) (F : Phys R K) (p : Point R) :
    ∃ (c : Term R → K) (ls : LinSys K),
      (∀ e ∈ allEqs b.eqs, ∀ t ∈ e.terms, t.coefficient F m p = .ok (c t)) ∧
      scaffold F m p (fullBasis b.eqs) b.eqs = .ok ls ∧
      ∀ (x : Nat → K) (U : PyStr → K),
        (∀ e ∈ allEqs b.eqs, ∀ i, (fullBasis b.eqs).get? e.id = some i → U e.id = x i) →
        (Solution ls (allEqs b.eqs).length x ↔
          SolvesAll c (fun e => if e.green then F.G0 p.k p.w m.latticeConstant p.eta m.ham.hopping else 0)
            (allEqs b.eqs) U) := by
  have h := ready_of_built hm hb
  obtain ⟨T, h1, h2, h3, h4, h5⟩ := h.sparse F p
  refine ⟨coefV F m p, _, fun e he t ht => coefficient_ok (h.coef e he t ht), h.scaffold F p h1, ?_⟩
  intro x U hU
  exact h.solves_iff F p h5 x U (fun e he => hU e he _ (h.basis he))

/-! ### C20 -/

/-- C20: the blocks have one row per equation; no lookup fails; the block from `n` to `n' = n ± 1`
phonons contains exactly the coefficients of the unknowns with `n'` phonons in the equations with `n`
phonons; and those equations have no other coefficients. -/
theorem C20_dense_blocks (σ : SetOrder) (m : Model R) (ae : Int) (hm : WellFormed m ae) (b : Built R)
    (hb : buildSystem σ m = .ok b) (F : Phys R K) (p : Point R) :
    ∃ c : Term R → K,
      (∀ e ∈ allEqs b.eqs, ∀ t ∈ e.terms, t.coefficient F m p = .ok (c t)) ∧
      (∀ n : Nat, (n : Int) ≤ m.number.sum ↔ ∃ es, b.eqs.get? n = some es) ∧
      ∀ n es, b.eqs.get? n = some es → blockDim (localBasis b.eqs) n = es.length ∧
        ∀ n' es', b.eqs.get? n' = some es' →
          (n' = n + 1 ∨ n = n' + 1 → ∃ ts, fillMatrix F m p (localBasis b.eqs) b.eqs n n' = .ok ts ∧
            ∀ (i j : Nat) (e e' : Equation R), es[i]? = some e → es'[j]? = some e' →
              cooEntry ts i j = coefOf c e e'.id) ∧
          (¬ (n' = n + 1 ∨ n = n' + 1) → ∀ e ∈ es, ∀ e' ∈ es', coefOf c e e'.id = 0) := by
  have h := ready_of_built hm hb
  have hsum : 0 ≤ m.number.sum := List.sum_nonneg (fun x hx => le_trans (by decide) (hm.numPos x hx))
  have hle : ∀ n : Nat, (n : Int) ≤ m.number.sum ↔ ∃ es, b.eqs.get? n = some es := by
    intro n
    constructor
    · intro hn; exact ⟨_, h.get (by omega)⟩
    · rintro ⟨es, hes⟩
      have : n ∈ b.eqs.map Prod.fst := List.mem_map.2 ⟨_, mem_of_get? hes, rfl⟩
      rw [h.keys] at this
      simp only [List.mem_append, List.mem_map, List.mem_range, List.mem_singleton] at this
      rcases this with ⟨i, hi, rfl⟩ | rfl
      · omega
      · simpa using hsum
  refine ⟨coefV F m p, fun e he t ht => coefficient_ok (h.coef e he t ht), hle, ?_⟩
  intro n es hes
  have hn : n ≤ m.number.sum.toNat := by have := (hle n).2 ⟨es, hes⟩; omega
  have hes' := h.get hn
  rw [hes] at hes'
  simp only [Option.some.injEq] at hes'
  subst hes'
  refine ⟨h.blockDim hn, ?_⟩
  intro n' es' hes'
  have hn' : n' ≤ m.number.sum.toNat := by have := (hle n').2 ⟨es', hes'⟩; omega
  have hx := h.get hn'
  rw [hes'] at hx
  simp only [Option.some.injEq] at hx
  subst hx
  constructor
  · intro _
    obtain ⟨ts, h1, h2⟩ := h.fill F p hn hn'
    refine ⟨ts, h1, ?_⟩
    intro i j e e' hi hj
    rw [h2 i e hi j]
    unfold coefOf
    congr 1
    apply List.map_congr_left
    intro t ht
    have he := ((h.mem_vals hn).1 (List.mem_of_getElem? hi)).1
    have he' := (h.mem_vals hn').1 (List.mem_of_getElem? hj)
    obtain ⟨e1, he1, k1, k2⟩ := h.closed e he t ht
    by_cases hid : t.id = e'.id
    · rw [if_pos hid]
      have : e1 = e' := h.id_inj he1 he'.1 (by rw [k1, hid])
      subst this
      rw [if_pos (by rw [← k2]; exact he'.2), if_pos (by rw [hid]; exact h.lix_get hn' hj)]
    · rw [if_neg hid]
      by_cases htot : t.config.total = (n' : Int)
      · rw [if_pos htot, if_neg]
        intro hc
        have h3 : e1 ∈ b.eqs.vals n' := (h.mem_vals hn').2 ⟨he1, by rw [k2, htot]⟩
        rw [← k1, ← h.lix_get hn' hj] at hc
        have := h.lix_inj hn' h3 (List.mem_of_getElem? hj) hc
        exact hid (by rw [← k1, this])
      · rw [if_neg htot]
  · intro hne e he e' he'
    unfold coefOf
    apply List.sum_eq_zero
    intro x hx
    obtain ⟨t, ht, rfl⟩ := List.mem_map.1 hx
    rw [if_neg]
    intro hid
    have h1 := (h.mem_vals hn).1 he
    have h2 := (h.mem_vals hn').1 he'
    obtain ⟨e1, he1, k1, k2⟩ := h.closed e h1.1 t ht
    have : e1 = e' := h.id_inj he1 h2.1 (by rw [k1, hid])
    subst this
    have h3 := h.step e h1.1 t ht
    omega

/-! ### C21 -/

theorem total_pos (m : Model R) (ae : Int) (hm : WellFormed m ae) : 1 ≤ m.number.sum.toNat := by
  have h1 := hm.num
  have h2 := hm.types
  have h3 := hm.numPos
  match hq : m.number with
  | [] => rw [hq] at h1; simp at h1; omega
  | x :: l =>
    have hx := h3 x (by rw [hq]; simp)
    have hl : 0 ≤ l.sum := List.sum_nonneg (fun y hy => le_trans (by decide) (h3 y (by rw [hq]; simp [hy])))
    simp only [List.sum_cons]
    omega

/-- C21: the dense solver can fail only because a matrix of the continued fraction is singular. If it
returns a value `G`, the sparse linear system has exactly one solution, its Green's function component
is `G`, and therefore an exact sparse solver returns `G`. -/
theorem C21_sparse_dense_agree (σ : SetOrder) (m : Model R) (ae : Int) (hm : WellFormed m ae)
    (b : Built R) (hb : buildSystem σ m = .ok b) (F : Phys R K) (p : Point R) :
    (∀ err, denseSolve F m p (localBasis b.eqs) b.eqs = .error err → err = .linAlgError) ∧
    ∀ G, denseSolve F m p (localBasis b.eqs) b.eqs = .ok (some G) →
      ∃ ls, scaffold F m p (fullBasis b.eqs) b.eqs = .ok ls ∧
        (∃ x, Solution ls (allEqs b.eqs).length x) ∧
        (∀ x, Solution ls (allEqs b.eqs).length x → x ls.rhsRow = G ∧
          ∀ y, Solution ls (allEqs b.eqs).length y → ∀ i < (allEqs b.eqs).length, x i = y i) ∧
        ∀ spsolve, Exact spsolve → sparseSolve F m p (fullBasis b.eqs) b.eqs spsolve = .ok G := by
  have h := ready_of_built hm hb
  have hN := total_pos m ae hm
  constructor
  · intro err herr
    rw [h.denseSolve_eq F p hN] at herr
    have hfr : ∀ s n e, fraction (alphaM F m p b.eqs) (betaM F m p b.eqs) s n = .error e →
        e = .linAlgError := by
      intro s
      induction s with
      | zero => intro n e he; simp [fraction] at he
      | succ s ih =>
        intro n e he
        rw [fraction] at he
        cases hr : fraction (alphaM F m p b.eqs) (betaM F m p b.eqs) s (n + 1) with
        | error e' =>
          rw [hr] at he
          have : e' = e := by simpa [bind, Except.bind] using he
          rw [← this]; exact ih _ _ hr
        | ok R' =>
          rw [hr] at he
          simp only [bind, Except.bind] at he
          split at he
          · simpa using he.symm
          · cases he
    cases hr : fraction (alphaM F m p b.eqs) (betaM F m p b.eqs) (m.number.sum.toNat - 1) 0 with
    | error e' =>
      rw [hr] at herr
      have : e' = err := by simpa [bind, Except.bind] using herr
      rw [← this]; exact hfr _ _ _ hr
    | ok R1 =>
      rw [hr] at herr
      simp only [bind, Except.bind] at herr
      split at herr <;> cases herr
  · intro G hG
    obtain ⟨⟨U, hU⟩, hall⟩ := h.dense F p hN hG
    obtain ⟨T, h1, h2, h3, h4, h5⟩ := h.sparse F p
    have hpos := h.length_pos
    have hscaf := h.scaffold F p h1
    -- unknowns as a function of identifiers
    let toU : (Nat → K) → PyStr → K := fun x id => x (ixOf b.eqs id)
    have hto : ∀ x, Solution ⟨T, (allEqs b.eqs).length - 1,
        F.G0 p.k p.w m.latticeConstant p.eta m.ham.hopping⟩ (allEqs b.eqs).length x →
        SolvesAll (coefV F m p) (fun e => e.bias F m p) (allEqs b.eqs) (toU x) :=
      fun x hx => (h.solves_iff F p h5 x (toU x) (fun e he => rfl)).1 hx
    have hgix : ixOf b.eqs "{G}[0.0]".toList = (allEqs b.eqs).length - 1 := by
      obtain ⟨e, k1, k2⟩ := h.last
      rw [List.getLast?_eq_getElem?] at k1
      rw [← k2]; exact h.ix_get k1
    have hex : ∃ x, Solution ⟨T, (allEqs b.eqs).length - 1,
        F.G0 p.k p.w m.latticeConstant p.eta m.ham.hopping⟩ (allEqs b.eqs).length x := by
      let x : Nat → K := fun i => ((allEqs b.eqs)[i]?.map (fun e => U e.id)).getD 0
      refine ⟨x, (h.solves_iff F p h5 x U ?_).2 hU⟩
      intro e he
      simp only [x, h.get_ix he, Option.map_some, Option.getD_some]
    have huniq : ∀ x, Solution ⟨T, (allEqs b.eqs).length - 1,
        F.G0 p.k p.w m.latticeConstant p.eta m.ham.hopping⟩ (allEqs b.eqs).length x →
        x ((allEqs b.eqs).length - 1) = G ∧ ∀ y, Solution ⟨T, (allEqs b.eqs).length - 1,
        F.G0 p.k p.w m.latticeConstant p.eta m.ham.hopping⟩ (allEqs b.eqs).length y →
          ∀ i < (allEqs b.eqs).length, x i = y i := by
      intro x hx
      obtain ⟨k1, k2⟩ := hall _ (hto x hx)
      refine ⟨by rw [← hgix]; exact k1, ?_⟩
      intro y hy i hi
      have := k2 _ (hto y hy) _ (List.getElem_mem hi)
      simp only [toU] at this
      rwa [h.ix_get (List.getElem?_eq_getElem hi)] at this
    refine ⟨_, hscaf, hex, huniq, ?_⟩
    intro spsolve hsp
    obtain ⟨c, ls, -, hls, -, hr, hc, -, hrow, -⟩ := C19_sparse_matrix σ m ae hm b hb F p
    rw [hscaf] at hls
    simp only [Except.ok.injEq] at hls
    subst hls
    obtain ⟨x, hx1, hx2⟩ := hsp _ _ hr hc hrow hex (fun x y hx hy => (huniq x hx).2 y hy)
    unfold sparseSolve
    rw [hscaf]
    simp only [bind, Except.bind, hx1, h.green_ix]
    rw [(huniq x hx2).1]
    rfl

/-- a small model: one Holstein mode with extent 1 and one phonon -/
def exSmall : Model ℚ := { exModel with
  extent := [1]
  number := [1] }

/-- its equations -/
def exSmallBuilt : Built ℚ :=
  match buildSystem ⟨id, fun l => .refl l⟩ exSmall with
  | .ok b => b
  | .error _ => ⟨[], [], []⟩

/-- The dense solver does return a value: with these (unphysical) coefficients, `2 / (1 - 4)`. -/
example : WellFormed exSmall 1 ∧ buildSystem ⟨id, fun l => .refl l⟩ exSmall = .ok exSmallBuilt ∧
    denseSolve exPhys exSmall ⟨0, 3, 1⟩ (localBasis exSmallBuilt.eqs) exSmallBuilt.eqs =
      .ok (some (-2 / 3)) := by
  have hb : buildSystem ⟨id, fun l => .refl l⟩ exSmall = .ok exSmallBuilt := by decide +kernel
  have hm : WellFormed exSmall 1 :=
    { exModel_wellFormed with
      ext := rfl
      num := rfl
      absExtent := by decide
      aePos := by decide
      extPos := by decide
      numPos := by decide }
  refine ⟨hm, hb, ?_⟩
  have h1 : fillMatrix exPhys exSmall ⟨0, 3, 1⟩ (localBasis exSmallBuilt.eqs) exSmallBuilt.eqs 0 1 =
      .ok [(0, 0, -2)] := by decide +kernel
  have h2 : fillMatrix exPhys exSmall ⟨0, 3, 1⟩ (localBasis exSmallBuilt.eqs) exSmallBuilt.eqs 1 0 =
      .ok [(0, 0, -2)] := by decide +kernel
  have h3 : blockDim (localBasis exSmallBuilt.eqs) 0 = 1 := by decide +kernel
  have h4 : blockDim (localBasis exSmallBuilt.eqs) 1 = 1 := by decide +kernel
  have hd : ∀ i j, (toMatrix (blockDim (localBasis exSmallBuilt.eqs) 0)
      (blockDim (localBasis exSmallBuilt.eqs) 1) [(0, 0, (-2 : ℚ))] *
      toMatrix (blockDim (localBasis exSmallBuilt.eqs) 1)
      (blockDim (localBasis exSmallBuilt.eqs) 0) [(0, 0, (-2 : ℚ))]) i j = 4 := by
    rw [h3, h4]
    intro i j
    rw [Matrix.mul_apply, Fin.sum_univ_one]
    have hi : i = 0 := Subsingleton.elim _ _
    have hj : j = 0 := Subsingleton.elim _ _
    subst hi hj
    norm_num [toMatrix, cooEntry]
  unfold denseSolve
  rw [show exSmall.number.sum.toNat = 1 from rfl, if_neg (by decide)]
  rw [show (1 - 1 : Nat) = 0 from rfl, denseR, h1, h2]
  simp only [bind, Except.bind, pure, Except.pure]
  rw [dif_pos h3]
  simp only [Nat.reduceAdd, hd]
  norm_num [exPhys]

end GGCE.Props
