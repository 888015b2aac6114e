import Verif.Proofs.RenumberDense
import Verif.Props.Petsc
import Verif.Props.Hopping

/-!
Property C111: a basis handed to a solver (`Solver(..., basis=...)`, `ggce/executors/solvers.py:50-54, 211-212,
369-370`, `ggce/executors/petsc4py/solvers.py:26-27`).
-/

set_option linter.unusedSectionVars false

namespace GGCE.Props
open Spec Arr Dict Petsc

variable {R K : Type} [Field R] [LinearOrder R] [Field K]

/-! ### helpers -/

theorem cooRows_eq {T : List (Nat × Nat × K)} {n : Nat} (hn : 0 < n) (h3 : ∀ q ∈ T, q.1 < n ∧ q.2.1 < n)
    (h4 : ∀ i < n, (i, i) ∈ T.map (fun q => (q.1, q.2.1))) : cooRows T = n ∧ cooCols T = n := by
  obtain ⟨q, hq, hq'⟩ := List.mem_map.1 (h4 _ (Nat.sub_one_lt_of_lt hn))
  simp only [Prod.mk.injEq] at hq'
  constructor <;> apply le_antisymm
  · refine foldl_max_le _ _ _ (Nat.zero_le _) ?_
    intro x hx
    obtain ⟨q, hq, rfl⟩ := List.mem_map.1 hx
    exact (h3 q hq).1
  · have := (le_foldl_max (T.map (fun t => t.1 + 1)) 0).2 _ (List.mem_map.2 ⟨q, hq, rfl⟩)
    rw [hq'.1] at this
    unfold cooRows
    omega
  · refine foldl_max_le _ _ _ (Nat.zero_le _) ?_
    intro x hx
    obtain ⟨q, hq, rfl⟩ := List.mem_map.1 hx
    exact (h3 q hq).2
  · have := (le_foldl_max (T.map (fun t => t.2.1 + 1)) 0).2 _ (List.mem_map.2 ⟨q, hq, rfl⟩)
    rw [hq'.2] at this
    unfold cooCols
    omega

/-- the matrix assembled with another numbering -/
theorem numbered {m : Model R} {eqs : Dict Nat (List (Equation R))} (h : Ready m eqs) (F : Phys R K) (p : Point R)
    {b' : Dict PyStr Nat} (hn : Numbering (fullBasis eqs) b') :
    ∃ (T : List (Nat × Nat × K)) (π : Nat → Nat), Function.Injective π ∧
      (Finset.range (allEqs eqs).length).image π = Finset.range (allEqs eqs).length ∧
      (∀ id, b'.get? id = ((fullBasis eqs).get? id).map π) ∧
      sparseTriples F m p (fullBasis eqs) eqs = .ok T ∧ sparseTriples F m p b' eqs = .ok (T.map (ren π)) ∧
      ((T.map (ren π)).map (fun q => (q.1, q.2.1))).Nodup ∧
      (∀ q ∈ T.map (ren π), q.1 < (allEqs eqs).length ∧ q.2.1 < (allEqs eqs).length) ∧
      (cooRows (T.map (ren π)) = (allEqs eqs).length ∧ cooCols (T.map (ren π)) = (allEqs eqs).length) ∧
      (∀ (i : Nat) (ei : Equation R), (allEqs eqs)[i]? = some ei → ∀ j,
        cooEntry T i j = (ei.terms.map (fun t => if ixOf eqs t.id = j then coefV F m p t else 0)).sum +
          if i = j then 1 else 0) := by
  obtain ⟨T, h1, h2, h3, h4, h5⟩ := h.sparse F p
  obtain ⟨π, hπ, hlt, hb, him⟩ := hn.perm h
  have h3' : ∀ q ∈ T.map (ren π), q.1 < (allEqs eqs).length ∧ q.2.1 < (allEqs eqs).length := by
    intro q hq
    obtain ⟨q, hq', rfl⟩ := List.mem_map.1 hq
    exact ⟨hlt _ (h3 q hq').1, hlt _ (h3 q hq').2⟩
  refine ⟨T, π, hπ, him, hb, h1, ?_, ?_, h3', cooRows_eq h.length_pos h3' ?_, h5⟩
  · rw [sparseTriples_ren hπ hb, h1]; rfl
  · have : (T.map (ren π)).map (fun q => (q.1, q.2.1)) =
        (T.map (fun q => (q.1, q.2.1))).map (fun q => (π q.1, π q.2)) := by
      rw [List.map_map, List.map_map]; rfl
    rw [this]
    exact h2.map (fun a b hab => by
      simp only [Prod.mk.injEq, hπ.eq_iff] at hab
      exact Prod.ext hab.1 hab.2)
  · intro i hi
    have : i ∈ (Finset.range (allEqs eqs).length).image π := by rw [him]; exact Finset.mem_range.2 hi
    obtain ⟨j, hj, rfl⟩ := Finset.mem_image.1 this
    obtain ⟨q, hq, hq'⟩ := List.mem_map.1 (h4 j (Finset.mem_range.1 hj))
    simp only [Prod.mk.injEq] at hq'
    refine List.mem_map.2 ⟨ren π q, List.mem_map.2 ⟨q, hq, rfl⟩, ?_⟩
    simp only [ren, hq'.1, hq'.2]

/-- `_scaffold` with another numbering -/
theorem scaffold_numbered {m : Model R} {eqs : Dict Nat (List (Equation R))} (h : Ready m eqs) (F : Phys R K)
    (p : Point R) {b' : Dict PyStr Nat} {T' : List (Nat × Nat × K)} (hT : sparseTriples F m p b' eqs = .ok T')
    {gi : Nat} (hg : b'.get? "{G}[0.0]".toList = some gi) :
    scaffold F m p b' eqs = .ok ⟨T', gi, F.G0 p.k p.w m.latticeConstant p.eta m.ham.hopping⟩ := by
  obtain ⟨e, h1, h2, h3⟩ := h.green
  unfold GGCE.scaffold
  rw [hT, hg, h1]
  simp [bind, Except.bind, pure, Except.pure, Equation.bias, h2]

/-! ### the sparse solver -/

/-- **C111**, sparse: with any numbering of the unknowns that leaves the Green's function last, an exact linear
solver gives the value it gives with the numbering of the system, if there is exactly one solution. What is
missing: numberings with another unknown last (`C111_sparse_fails`). -/
theorem C111_sparse_partial (σ : SetOrder) (m : Model R) (ae : Int) (hm : WellFormed m ae) (b : Built R)
    (hb : buildSystem σ m = .ok b) (F : Phys R K) (p : Point R) (b' : Dict PyStr Nat)
    (hn : Numbering (fullBasis b.eqs) b') (hlast : b'.get? "{G}[0.0]".toList = some ((allEqs b.eqs).length - 1))
    (ls : LinSys K) (hls : scaffold F m p (fullBasis b.eqs) b.eqs = .ok ls)
    (hex : ∃ x, Solution ls (allEqs b.eqs).length x)
    (hun : ∀ x y, Solution ls (allEqs b.eqs).length x → Solution ls (allEqs b.eqs).length y →
      ∀ i < (allEqs b.eqs).length, x i = y i)
    (spsolve : LinSys K → Py (Nat → K)) (hsp : Exact spsolve) :
    ∃ G, GreenValue F m p b.eqs G ∧ sparseSolve F m p (fullBasis b.eqs) b.eqs spsolve = .ok G ∧
      sparseSolve F m p b' b.eqs spsolve = .ok G := by
  have h := ready_of_built hm hb
  have hpos := h.length_pos
  obtain ⟨T, π, hπ, him, hbb, h1, h1', -, -, ⟨hr, hc⟩, -⟩ := numbered h F p hn
  rw [h.scaffold F p h1] at hls
  cases hls
  have hlast' : π ((allEqs b.eqs).length - 1) = (allEqs b.eqs).length - 1 := by
    have := hbb "{G}[0.0]".toList
    rw [hlast, h.green_ix] at this
    simpa using this.symm
  set G0 := F.G0 p.k p.w m.latticeConstant p.eta m.ham.hopping with hG0
  set n := (allEqs b.eqs).length with hnn
  have hiff : ∀ x, Solution ⟨T.map (ren π), n - 1, G0⟩ n x ↔ Solution ⟨T, n - 1, G0⟩ n (x ∘ π) := by
    intro x
    unfold Solution
    simp only
    rw [rows_ren hπ him T x (fun i => if i = n - 1 then G0 else 0)]
    simp only [Function.comp]
    have : ∀ i, (π i = n - 1) = (i = n - 1) := fun i => by
      rw [← hlast', hπ.eq_iff, hlast']
    simp only [this]
  have hex' : ∃ x, Solution ⟨T.map (ren π), n - 1, G0⟩ n x := by
    obtain ⟨x, hx⟩ := hex
    refine ⟨x ∘ Function.invFun π, (hiff _).2 ?_⟩
    have : (x ∘ Function.invFun π) ∘ π = x := by
      funext i
      simp only [Function.comp, Function.leftInverse_invFun hπ i]
    rw [this]; exact hx
  have hun' : ∀ x y, Solution ⟨T.map (ren π), n - 1, G0⟩ n x → Solution ⟨T.map (ren π), n - 1, G0⟩ n y →
      ∀ i < n, x i = y i := by
    intro x y hx hy i hi
    have : i ∈ (Finset.range n).image π := by rw [him]; exact Finset.mem_range.2 hi
    obtain ⟨j, hj, rfl⟩ := Finset.mem_image.1 this
    exact hun _ _ ((hiff x).1 hx) ((hiff y).1 hy) j (Finset.mem_range.1 hj)
  obtain ⟨-, ls0, -, hls0, -, hr0, hc0, -, hrow, -⟩ := C19_sparse_matrix σ m ae hm b hb F p
  rw [h.scaffold F p h1] at hls0
  cases hls0
  obtain ⟨x, hx1, hx2⟩ := hsp ⟨T, n - 1, G0⟩ n hr0 hc0 hrow hex hun
  obtain ⟨y, hy1, hy2⟩ := hsp ⟨T.map (ren π), n - 1, G0⟩ n hr hc hrow hex' hun'
  refine ⟨x (n - 1), ⟨_, x, h.scaffold F p h1, hx2, rfl⟩, ?_, ?_⟩
  · unfold sparseSolve
    rw [h.scaffold F p h1]
    simp only [bind, Except.bind]
    rw [← hG0, hx1, h.green_ix]
    rfl
  · unfold sparseSolve
    rw [scaffold_numbered h F p h1' hlast]
    simp only [bind, Except.bind]
    rw [← hG0, hy1, hlast]
    have := hun _ _ ((hiff y).1 hy2) hx2 (n - 1) (by omega)
    simp only [Function.comp, hlast'] at this
    simp only [pure, Except.pure, this]

/-- **C111** fails for the sparse solver with every other numbering: the right-hand side has as many rows as the
number of the Green's function requires, not as many as the matrix, and `spsolve` raises a `ValueError`. -/
theorem C111_sparse_fails (σ : SetOrder) (m : Model R) (ae : Int) (hm : WellFormed m ae) (b : Built R)
    (hb : buildSystem σ m = .ok b) (F : Phys R K) (p : Point R) (b' : Dict PyStr Nat)
    (hn : Numbering (fullBasis b.eqs) b') (hlast : b'.get? "{G}[0.0]".toList ≠ some ((allEqs b.eqs).length - 1))
    (spsolve : LinSys K → Py (Nat → K)) (hsp : ChecksShape spsolve) :
    sparseSolve F m p b' b.eqs spsolve = .error .valueError := by
  have h := ready_of_built hm hb
  have hpos := h.length_pos
  obtain ⟨T, π, hπ, him, hbb, h1, h1', -, -, ⟨hr, hc⟩, -⟩ := numbered h F p hn
  have hg := hbb "{G}[0.0]".toList
  rw [h.green_ix] at hg
  unfold sparseSolve
  rw [scaffold_numbered h F p h1' hg]
  simp only [bind, Except.bind]
  rw [hsp]
  simp only
  rw [hr]
  intro hc
  apply hlast
  rw [hg, Option.map_some]
  congr 1
  omega

/-- A basis without one of the identifiers: `KeyError` from the sparse and the parallel solver. -/
theorem C111_missing (σ : SetOrder) (m : Model R) (ae : Int) (hm : WellFormed m ae) (b : Built R)
    (hb : buildSystem σ m = .ok b) (F : Phys R K) (p : Point R) (b' : Dict PyStr Nat) (e : Equation R)
    (he : e ∈ allEqs b.eqs) (hmiss : b'.get? e.id = none) :
    (∀ spsolve, sparseSolve F m p b' b.eqs spsolve = .error .keyError) ∧
    (∀ ksp size, petscSolve F m p b' b.eqs ksp size = .error .keyError) := by
  have h := ready_of_built hm hb
  have hrow : ∀ (l : List (PyStr × Py K)), (∀ q ∈ l, ∃ v, q.2 = .ok v) → ∀ d,
      OkOr .keyError (rowLoop b' l d) := by
    intro l
    induction l with
    | nil => intro _ d; exact Or.inl ⟨d, rfl⟩
    | cons q l ih =>
      intro hl d
      obtain ⟨id, c⟩ := q
      obtain ⟨v, hv⟩ := hl _ List.mem_cons_self
      simp only at hv
      subst hv
      simp only [rowLoop]
      cases b'.get? id with
      | none => exact Or.inr rfl
      | some j => exact ih (fun q hq => hl q (List.mem_cons_of_mem _ hq)) _
  have hsr : ∀ e ∈ allEqs b.eqs, OkOr .keyError (some <$> sparseRow F m p b' e) := by
    intro e he
    unfold sparseRow
    cases b'.get? e.id with
    | none => exact Or.inr rfl
    | some i =>
      rcases hrow (rowTerms F m p e) (by
        intro q hq
        simp only [rowTerms, List.mem_append, List.mem_map, List.mem_singleton] at hq
        rcases hq with ⟨t, ht, rfl⟩ | rfl
        · exact ⟨_, coefficient_ok (h.coef e he t ht)⟩
        · exact ⟨1, rfl⟩) [] with ⟨d, hd⟩ | hd
      · simp only [hd]; exact Or.inl ⟨_, rfl⟩
      · simp only [hd]; exact Or.inr rfl
  have hT : sparseTriples F m p b' b.eqs = .error .keyError := by
    unfold sparseTriples
    rw [collectM_error (e := .keyError)]
    · rfl
    · intro n hn
      have hn' : n ≤ m.number.sum.toNat := by simpa using Nat.le_of_lt_succ (List.mem_range.1 hn)
      rw [h.get hn']
      simp only
      rcases collectM_okOr (e := .keyError) (f := fun e => some <$> sparseRow F m p b' e) (xs := b.eqs.vals n)
        (fun e he => hsr e ((h.mem_vals hn').1 he).1) with ⟨l, hl⟩ | hl
      · rw [hl]; exact Or.inl ⟨_, rfl⟩
      · rw [hl]; exact Or.inr rfl
    · obtain ⟨n, hn, hen⟩ := h.total_le he
      refine ⟨n, List.mem_range.2 (by omega), ?_⟩
      rw [h.get hn]
      simp only
      rw [collectM_error (e := .keyError) (f := fun e => some <$> sparseRow F m p b' e)
        (fun e he => hsr e ((h.mem_vals hn).1 he).1) ⟨e, (h.mem_vals hn).2 ⟨he, hen⟩, ?_⟩]
      · rfl
      · unfold sparseRow; rw [hmiss]; rfl
  constructor
  · intro spsolve
    unfold sparseSolve GGCE.scaffold
    rw [hT]; rfl
  · intro ksp size
    unfold petscSolve petscScaffold
    rw [hT]; rfl

/-! ### the dense solver -/

/-- **C111**, dense: with any numbering of the unknowns within each block the dense solver does exactly what it does
with the basis of the system, exceptions included. -/
theorem C111_dense (σ : SetOrder) (m : Model R) (ae : Int) (hm : WellFormed m ae) (b : Built R)
    (hb : buildSystem σ m = .ok b) (F : Phys R K) (p : Point R) (B' : Dict Nat (Dict PyStr Nat))
    (hB : BlockNumbering (localBasis b.eqs) B') :
    denseSolve F m p B' b.eqs = denseSolve F m p (localBasis b.eqs) b.eqs := by
  obtain ⟨π, S⟩ := shuffle_of (ready_of_built hm hb) hB
  exact S.denseSolve F m p b.eqs

/-- a value, or an exception in the set `P` -/
private def OkIn {α : Type _} (P : Err → Prop) (x : Py α) : Prop := (∃ y, x = .ok y) ∨ ∃ e, P e ∧ x = .error e

private theorem collectM_okIn {α β : Type _} {f : α → Py (Option β)} {P : Err → Prop} :
    ∀ {xs : List α}, (∀ x ∈ xs, OkIn P (f x)) → OkIn P (collectM f xs) ∧
      ((∃ x ∈ xs, ∃ e, f x = .error e) → ∃ e, P e ∧ collectM f xs = .error e)
  | [], _ => ⟨Or.inl ⟨[], rfl⟩, by rintro ⟨x, hx, -⟩; simp at hx⟩
  | x :: xs, h => by
    have ih := collectM_okIn (f := f) (xs := xs) (fun y hy => h y (by simp [hy]))
    rcases h x (by simp) with ⟨y, hy⟩ | ⟨e, he, hx⟩
    · have hrest : ∀ e, collectM f xs = .error e → collectM f (x :: xs) = .error e := by
        intro e hxs; simp [collectM, hy, hxs, bind, Except.bind]
      constructor
      · rcases ih.1 with ⟨ys, hys⟩ | ⟨e, he, hxs⟩
        · cases y with
          | none => exact Or.inl ⟨ys, by simp [collectM, hy, hys, bind, Except.bind, pure, Except.pure]⟩
          | some y =>
            exact Or.inl ⟨y :: ys, by simp [collectM, hy, hys, bind, Except.bind, pure, Except.pure]⟩
        · exact Or.inr ⟨e, he, hrest e hxs⟩
      · rintro ⟨z, hz, e, hze⟩
        rcases List.mem_cons.1 hz with rfl | hz
        · rw [hy] at hze; cases hze
        · obtain ⟨e', he', hxs⟩ := ih.2 ⟨z, hz, e, hze⟩
          exact ⟨e', he', hrest e' hxs⟩
    · have hc : collectM f (x :: xs) = .error e := by simp [collectM, hx, bind, Except.bind]
      exact ⟨Or.inr ⟨e, he, hc⟩, fun _ => ⟨e, he, hc⟩⟩

/-- A block basis without one of the identifiers: the dense solver never returns a value. The exception is the
`KeyError` of the missing identifier, unless the rest of the basis is unfit too and is met first: a number outside its
block (`IndexError`) or a block that has become singular (`LinAlgError`). -/
theorem C111_dense_missing (σ : SetOrder) (m : Model R) (ae : Int) (hm : WellFormed m ae) (b : Built R)
    (hb : buildSystem σ m = .ok b) (F : Phys R K) (p : Point R) (B' : Dict Nat (Dict PyStr Nat)) (e : Equation R)
    (he : e ∈ allEqs b.eqs) (n : Nat) (hen : e.config.total = n)
    (hmiss : ∀ blk, B'.get? n = some blk → blk.get? e.id = none) :
    ∃ err, (err = .keyError ∨ err = .indexError ∨ err = .linAlgError) ∧
      denseSolve F m p B' b.eqs = .error err := by
  have h := ready_of_built hm hb
  set P : Err → Prop := fun err => err = .keyError ∨ err = .indexError ∨ err = .linAlgError with hP
  obtain ⟨n₀, hn, hen₀⟩ := h.total_le he
  obtain rfl : n = n₀ := by omega
  have hrow : ∀ rows col n' i, ∀ e ∈ allEqs b.eqs, OkIn P (fillRow F m p rows col n' i e.terms) := by
    intro rows col n' i e he
    unfold fillRow
    refine (collectM_okIn fun t ht => ?_).1
    split
    · exact Or.inl ⟨none, rfl⟩
    · split
      · exact Or.inr ⟨_, Or.inl rfl, rfl⟩
      · split
        · rw [coefficient_ok (h.coef e he t ht)]
          exact Or.inl ⟨_, rfl⟩
        · exact Or.inr ⟨_, Or.inr (Or.inl rfl), rfl⟩
  have hall : ∀ (a : Nat) (f : Equation R → Py (Option (List (Nat × Nat × K)))),
      (∀ e ∈ b.eqs.vals a, OkIn P (f e)) → (a = n → ∃ e ∈ b.eqs.vals a, ∃ er, f e = .error er) →
      OkIn P (List.flatten <$> collectM f (b.eqs.vals a)) ∧
      (a = n → ∃ err, P err ∧ List.flatten <$> collectM f (b.eqs.vals a) = .error err) := by
    intro a f hf hbad
    have hc := collectM_okIn hf
    constructor
    · rcases hc.1 with ⟨l, hl⟩ | ⟨er, h1, hl⟩
      · rw [hl]; exact Or.inl ⟨_, rfl⟩
      · rw [hl]; exact Or.inr ⟨er, h1, rfl⟩
    · intro han
      obtain ⟨er, h1, hl⟩ := hc.2 (hbad han)
      rw [hl]; exact ⟨er, h1, rfl⟩
  have hfill : ∀ a a', a ≤ m.number.sum.toNat → OkIn P (fillMatrix F m p B' b.eqs a a') ∧
      (a = n → ∃ err, P err ∧ fillMatrix F m p B' b.eqs a a' = .error err) := by
    intro a a' ha
    unfold fillMatrix
    rw [h.get ha]
    cases hr : B'.get? a with
    | none => exact ⟨Or.inr ⟨_, Or.inl rfl, rfl⟩, fun _ => ⟨_, Or.inl rfl, rfl⟩⟩
    | some row =>
      cases B'.get? a' with
      | none => exact ⟨Or.inr ⟨_, Or.inl rfl, rfl⟩, fun _ => ⟨_, Or.inl rfl, rfl⟩⟩
      | some col =>
        refine hall a _ ?_ ?_
        · intro e he
          split
          · exact Or.inr ⟨_, Or.inl rfl, rfl⟩
          · rename_i i _
            rcases hrow row.length col a' i e ((h.mem_vals ha).1 he).1 with ⟨l, hl⟩ | ⟨er, h1, hl⟩
            · rw [hl]; exact Or.inl ⟨_, rfl⟩
            · rw [hl]; exact Or.inr ⟨er, h1, rfl⟩
        · rintro rfl
          exact ⟨e, (h.mem_vals ha).2 ⟨he, hen⟩, .keyError, by rw [hmiss row hr]⟩
  have hR : ∀ s a, a + 1 + s = m.number.sum.toNat → OkIn P (denseR F m p B' b.eqs s a) ∧
      (a + 1 ≤ n → ∃ err, P err ∧ denseR F m p B' b.eqs s a = .error err) := by
    intro s
    induction s with
    | zero =>
      intro a ha
      have hf := hfill (a + 1) a (by omega)
      simp only [denseR]
      constructor
      · rcases hf.1 with ⟨l, hl⟩ | ⟨er, h1, hl⟩
        · rw [hl]; exact Or.inl ⟨_, rfl⟩
        · rw [hl]; exact Or.inr ⟨er, h1, rfl⟩
      · intro hle
        obtain ⟨er, h1, hl⟩ := hf.2 (by omega)
        rw [hl]; exact ⟨er, h1, rfl⟩
    | succ s ih =>
      intro a ha
      have hi := ih (a + 1) (by omega)
      have hb1 := hfill (a + 1) (a + 2) (by omega)
      have ha1 := hfill (a + 1) a (by omega)
      simp only [denseR]
      rcases hi.1 with ⟨R', hR'⟩ | ⟨er, h1, hl⟩
      · have hle : ¬ a + 1 + 1 ≤ n := by
          intro hc
          obtain ⟨er, -, hl⟩ := hi.2 hc
          rw [hR'] at hl; cases hl
        rw [hR']
        constructor
        · rcases hb1.1 with ⟨β, hβ⟩ | ⟨er, h1, hl⟩
          · rcases ha1.1 with ⟨α, hα⟩ | ⟨er, h1, hl⟩
            · rw [hβ, hα]
              simp only [bind, Except.bind]
              split
              · exact Or.inr ⟨_, Or.inr (Or.inr rfl), rfl⟩
              · exact Or.inl ⟨_, rfl⟩
            · rw [hβ, hl]; exact Or.inr ⟨er, h1, rfl⟩
          · rw [hl]; exact Or.inr ⟨er, h1, rfl⟩
        · intro hc
          obtain ⟨er, h1, hl⟩ := hb1.2 (by omega)
          rw [hl]; exact ⟨er, h1, rfl⟩
      · rw [hl]
        exact ⟨Or.inr ⟨er, h1, rfl⟩, fun _ => ⟨er, h1, rfl⟩⟩
  unfold denseSolve
  split
  · rename_i h0
    exact absurd h0 (by have := total_pos m ae hm; omega)
  · rename_i h0
    have hr := hR (m.number.sum.toNat - 1) 0 (by omega)
    rcases hr.1 with ⟨R1, hR1⟩ | ⟨er, h1, hl⟩
    · have hn0 : n = 0 := by
        by_contra hc
        obtain ⟨er, -, hl⟩ := hr.2 (by omega)
        rw [hR1] at hl; cases hl
      obtain ⟨er, h1, hl⟩ := (hfill 0 1 (Nat.zero_le _)).2 hn0.symm
      rw [hR1, hl]
      exact ⟨er, h1, rfl⟩
    · rw [hl]; exact ⟨er, h1, rfl⟩

/-! ### the parallel solver -/

/-- a nonsingular matrix can be solved for every right-hand side, in one way -/
theorem rows_solvable {n : Nat} {A : Nat → Nat → K} (hdet : (Matrix.of (fun i j : Fin n => A i j)).det ≠ 0)
    (v : Nat → K) :
    (∃ x : Nat → K, ∀ i < n, ∑ j ∈ Finset.range n, A i j * x j = v i) ∧
    ∀ x y : Nat → K, (∀ i < n, ∑ j ∈ Finset.range n, A i j * x j = v i) →
      (∀ i < n, ∑ j ∈ Finset.range n, A i j * y j = v i) → ∀ i < n, x i = y i := by
  set M := Matrix.of (fun i j : Fin n => A i j) with hM
  have hu : IsUnit M.det := isUnit_iff_ne_zero.2 hdet
  have key : ∀ (x : Nat → K) (i : Fin n), ∑ j ∈ Finset.range n, A i j * x j = M.mulVec (fun j => x j) i := by
    intro x i
    rw [Finset.sum_range]
    rfl
  constructor
  · refine ⟨fun j => if hj : j < n then (M⁻¹.mulVec (fun i => v i)) ⟨j, hj⟩ else 0, fun i hi => ?_⟩
    rw [key _ ⟨i, hi⟩]
    have : (fun j : Fin n => if hj : (j : Nat) < n then (M⁻¹.mulVec (fun i : Fin n => v i)) ⟨j, hj⟩ else 0) =
        M⁻¹.mulVec (fun i : Fin n => v i) := by
      funext j; simp
    rw [this, Matrix.mulVec_mulVec, Matrix.mul_nonsing_inv _ hu, Matrix.one_mulVec]
  · intro x y hx hy i hi
    have : M.mulVec (fun j => x j) = M.mulVec (fun j => y j) := by
      funext j
      rw [← key, ← key, hx _ j.2, hy _ j.2]
    have h2 : (fun j : Fin n => x j) = fun j : Fin n => y j := by
      have := congrArg (M⁻¹.mulVec) this
      simpa only [Matrix.mulVec_mulVec, Matrix.nonsing_inv_mul _ hu, Matrix.one_mulVec] using this
    exact congrFun h2 ⟨i, hi⟩

/-- the equations with the source in the equation `e0` -/
theorem rows_source {m : Model R} {eqs : Dict Nat (List (Equation R))} (h : Ready m eqs) (F : Phys R K) (p : Point R)
    {T : List (Nat × Nat × K)}
    (hT : ∀ (i : Nat) (ei : Equation R), (allEqs eqs)[i]? = some ei → ∀ j, cooEntry T i j =
      (ei.terms.map (fun t => if ixOf eqs t.id = j then coefV F m p t else 0)).sum + if i = j then 1 else 0)
    (e0 : Equation R) (he0 : e0 ∈ allEqs eqs) (v : K) (x : Nat → K) (U : PyStr → K)
    (hU : ∀ e ∈ allEqs eqs, U e.id = x (ixOf eqs e.id)) :
    (∀ i < (allEqs eqs).length, ∑ j ∈ Finset.range (allEqs eqs).length, cooEntry T i j * x j =
      if i = ixOf eqs e0.id then v else 0) ↔
    SolvesAll (coefV F m p) (fun e => if e.id = e0.id then v else 0) (allEqs eqs) U := by
  have key : ∀ e ∈ allEqs eqs, U e.id + (e.terms.map (fun t => coefV F m p t * U t.id)).sum =
      ∑ j ∈ Finset.range (allEqs eqs).length, cooEntry T (ixOf eqs e.id) j * x j := by
    intro e he
    rw [h.row_apply (h.get_ix he) (hT _ _ (h.get_ix he)), hU e he]
    congr 2
    apply List.map_congr_left
    intro t ht
    obtain ⟨e', he', h1, -⟩ := h.closed e he t ht
    rw [← h1, hU e' he']
  have hsame : ∀ e ∈ allEqs eqs, (ixOf eqs e.id = ixOf eqs e0.id) = (e.id = e0.id) := by
    intro e he
    apply propext
    constructor
    · intro hc; rw [h.ix_inj he he0 hc]
    · intro hc; rw [hc]
  constructor
  · intro hx e he
    show _ = if e.id = e0.id then v else 0
    rw [key e he, hx _ (h.ix_lt he)]
    simp only [hsame e he]
  · intro hs i hi
    have he := List.getElem?_eq_getElem hi
    have hm := List.getElem_mem hi
    have h1 := hs _ hm
    simp only at h1
    rw [key _ hm] at h1
    simp only [← hsame _ hm, h.ix_get he] at h1
    exact h1

/-- **C111**, parallel: what the parallel solver returns with any numbering. If `e0` is the equation whose unknown has
the last number, it is the value of that unknown, in the solution of the equations with the source moved to `e0`. -/
theorem C111_mumps_source (σ : SetOrder) (m : Model ℝ) (ae : Int) (hm : WellFormed m ae) (b : Built ℝ)
    (hb : buildSystem σ m = .ok b) (hp : Physical m) (p : Point ℝ) (heta : 0 < p.eta) (b' : Dict PyStr Nat)
    (hn : Numbering (fullBasis b.eqs) b') (e0 : Equation ℝ) (he0 : e0 ∈ allEqs b.eqs)
    (hlast : b'.get? e0.id = some ((allEqs b.eqs).length - 1)) :
    ∃ (c : Term ℝ → ℂ) (U : PyStr → ℂ),
      (∀ e ∈ allEqs b.eqs, ∀ t ∈ e.terms, t.coefficient realPhys m p = .ok (c t)) ∧
      SolvesAll c (fun e => if e.id = e0.id then
        realPhys.G0 p.k p.w m.latticeConstant p.eta m.ham.hopping else 0) (allEqs b.eqs) U ∧
      ∀ (ksp : DistSys ℂ → Py (List ℂ)) (size : Nat), DistExact ksp → 1 ≤ size → size ≤ (allEqs b.eqs).length →
        petscSolve realPhys m p b' b.eqs ksp size = .ok (U e0.id) := by
  have h := ready_of_built hm hb
  have hpos := h.length_pos
  obtain ⟨T, π, hπ, him, hbb, h1, h1', h2', h3', -, h5⟩ := numbered h realPhys p hn
  obtain ⟨ls, G, k1, kdet, -⟩ := C22_nonsingular σ m ae hm b hb hp p heta
  rw [h.scaffold realPhys p h1] at k1
  cases k1
  set G0 := realPhys.G0 p.k p.w m.latticeConstant p.eta m.ham.hopping with hG0
  set n := (allEqs b.eqs).length with hnn
  have hlast' : π (ixOf b.eqs e0.id) = n - 1 := by
    have := hbb e0.id
    rw [hlast, h.basis he0] at this
    simpa using this.symm
  obtain ⟨⟨x, hx⟩, hun⟩ := rows_solvable (n := n) (A := cooEntry T) kdet
    (fun i => if i = ixOf b.eqs e0.id then G0 else 0)
  refine ⟨coefV realPhys m p, fun id => x (ixOf b.eqs id), fun e he t ht => coefficient_ok (h.coef e he t ht),
    (rows_source h realPhys p h5 e0 he0 G0 x _ (fun e _ => rfl)).1 hx, ?_⟩
  intro ksp size hk hs hN
  obtain ⟨d, e1, e2, -, e3, -, e4⟩ := C30_assembly n size hs hpos (T.map (ren π)) h2' h3' G0
  have hlen : b'.length = n := by
    rw [hn.length (by rw [fullBasis_eq h.nodup]; simpa using h.nodup), fullBasis_eq h.nodup]; simp [hnn]
  have hd : petscScaffold realPhys m p b' b.eqs size = .ok d := by
    unfold petscScaffold
    rw [h1', hlen]
    exact e1
  have hiff : ∀ y, DistSolution d y ↔
      ∀ i < n, ∑ j ∈ Finset.range n, cooEntry T i j * (y ∘ π) j = if i = ixOf b.eqs e0.id then G0 else 0 := by
    intro y
    unfold DistSolution
    simp only [e2, e3, e4]
    rw [rows_ren hπ him T y (fun i => if i + 1 = n then G0 else 0)]
    have : ∀ i, (π i + 1 = n) = (i = ixOf b.eqs e0.id) := fun i => by
      apply propext
      rw [← hπ.eq_iff (a := i), hlast']
      omega
    simp only [this, Function.comp]
  obtain ⟨l, q1, q2, q3⟩ := hk d ⟨x ∘ Function.invFun π, (hiff _).2 (by
      have : (x ∘ Function.invFun π) ∘ π = x := by
        funext i
        simp only [Function.comp, Function.leftInverse_invFun hπ i]
      rw [this]; exact hx)⟩ (by
      intro y z hy hz i hi
      rw [e2] at hi
      have : i ∈ (Finset.range n).image π := by rw [him]; exact Finset.mem_range.2 hi
      obtain ⟨j, hj, rfl⟩ := Finset.mem_image.1 this
      exact hun _ _ ((hiff y).1 hy) ((hiff z).1 hz) j (Finset.mem_range.1 hj))
  unfold petscSolve
  rw [hd]
  simp only [bind, Except.bind, q1]
  rw [readG_ok d.n size hs (by omega) l q2]
  have := hun _ _ ((hiff _).1 q3) hx (ixOf b.eqs e0.id) (h.ix_lt he0)
  simp only [Function.comp, hlast'] at this
  rw [← this, List.getD_eq_getElem?_getD, List.getElem?_eq_getElem (by omega), Option.getD_some]
  simp only [e2]

/-- **C111** for the models of the code: with any numbering that leaves the Green's function last, the parallel and the
sparse solver return the value they return with the basis of the system, and the dense solver returns it with any
numbering of its blocks. What is missing: numberings with another unknown last (`C111_sparse_fails`,
`C111_mumps_fails`). -/
theorem C111_returned_partial (σ : SetOrder) (m : Model ℝ) (ae : Int) (hm : WellFormed m ae) (b : Built ℝ)
    (hb : buildSystem σ m = .ok b) (hp : Physical m) (p : Point ℝ) (heta : 0 < p.eta) :
    ∃ G, (∀ b', Numbering (fullBasis b.eqs) b' → b'.get? "{G}[0.0]".toList = some ((allEqs b.eqs).length - 1) →
        (∀ spsolve, Exact spsolve → sparseSolve realPhys m p b' b.eqs spsolve = .ok G) ∧
        ∀ (ksp : DistSys ℂ → Py (List ℂ)) (size : Nat), DistExact ksp → 1 ≤ size → size ≤ (allEqs b.eqs).length →
          petscSolve realPhys m p b' b.eqs ksp size = .ok G) ∧
      (∀ B', BlockNumbering (localBasis b.eqs) B' → denseSolve realPhys m p B' b.eqs = .ok (some G)) ∧
      (∀ spsolve, Exact spsolve → sparseSolve realPhys m p (fullBasis b.eqs) b.eqs spsolve = .ok G) ∧
      denseSolve realPhys m p (localBasis b.eqs) b.eqs = .ok (some G) := by
  have h := ready_of_built hm hb
  obtain ⟨ls, G, h1, h2, h3, h4, h5, h6⟩ := C22_nonsingular σ m ae hm b hb hp p heta
  refine ⟨G, fun b' hn hlast => ⟨fun sp hsp => ?_, fun ksp size hk hs hN => ?_⟩, fun B' hB => ?_, h5, h6⟩
  · obtain ⟨G', -, k1, k2⟩ := C111_sparse_partial σ m ae hm b hb realPhys p b' hn hlast ls h1 h3 h4 sp hsp
    rw [h5 sp hsp] at k1
    cases k1
    exact k2
  · obtain ⟨e0, l1, l2⟩ := h.last
    have he0 : e0 ∈ allEqs b.eqs := by
      rw [List.getLast?_eq_getElem?] at l1
      exact List.mem_of_getElem? l1
    rw [← l2] at hlast
    obtain ⟨c, U, c1, c2, c3⟩ := C111_mumps_source σ m ae hm b hb hp p heta b' hn e0 he0 hlast
    rw [c3 ksp size hk hs hN]
    obtain ⟨T, t1, -, -, -, t5⟩ := h.sparse realPhys p
    have hi : ixOf b.eqs e0.id = (allEqs b.eqs).length - 1 := by
      rw [List.getLast?_eq_getElem?] at l1
      exact h.ix_get l1
    rw [h.scaffold realPhys p t1] at h1
    cases h1
    have hcc : SolvesAll (coefV realPhys m p) (fun e => if e.id = e0.id then
        realPhys.G0 p.k p.w m.latticeConstant p.eta m.ham.hopping else 0) (allEqs b.eqs) U := by
      intro e he
      rw [← c2 e he]
      congr 2
      apply List.map_congr_left
      intro t ht
      have := c1 e he t ht
      rw [coefficient_ok (h.coef e he t ht)] at this
      rw [Except.ok.inj this]
    let x : Nat → ℂ := fun i => match (allEqs b.eqs)[i]? with
      | some e => U e.id
      | none => 0
    have hx := (rows_source h realPhys p t5 e0 he0 _ x U (fun e he => by simp only [x, h.get_ix he])).2 hcc
    rw [hi] at hx
    obtain ⟨sp, hsp⟩ := exists_exact (K := ℂ)
    have k := h5 sp hsp
    obtain ⟨-, ls0, -, hls0, -, hr0, hc0, -, hrow, -⟩ := C19_sparse_matrix σ m ae hm b hb realPhys p
    rw [h.scaffold realPhys p t1] at hls0
    cases hls0
    obtain ⟨y, hy1, hy2⟩ := hsp _ _ hr0 hc0 hrow h3 h4
    unfold sparseSolve at k
    rw [h.scaffold realPhys p t1] at k
    simp only [bind, Except.bind, hy1, h.green_ix, pure, Except.pure, Except.ok.injEq] at k
    rw [← k, ← h4 x y hx hy2 _ (by have := h.length_pos; omega)]
    simp only [x, ← hi, h.get_ix he0]
  · rw [C111_dense σ m ae hm b hb realPhys p B' hB, h6]

/-! ### the wrong number -/

/-- two unknowns of a numbered list exchanged -/
theorem swap_numbering {ids : List PyStr} (hnd : ids.Nodup) {i j : Nat} (hi : i < ids.length) (hj : j < ids.length) :
    Numbering ids.zipIdx ((ids.zipIdx : Dict PyStr Nat).map (fun kv => (kv.1, Equiv.swap i j kv.2))) := by
  have hget : ∀ (l : Dict PyStr Nat) (id : PyStr),
      Dict.get? (l.map (fun kv => (kv.1, Equiv.swap i j kv.2))) id = (Dict.get? l id).map (Equiv.swap i j) := by
    intro l id
    induction l with
    | nil => rfl
    | cons a l ih =>
      obtain ⟨k, v⟩ := a
      simp only [List.map_cons, Dict.get?]
      split
      · rfl
      · exact ih
  refine ⟨by simpa [List.map_map, Function.comp_def] using hnd, ?_, ?_, ?_⟩
  · intro id
    rw [hget]
    cases Dict.get? ids.zipIdx id <;> simp
  · intro id q hq
    rw [hget, Option.map_eq_some_iff] at hq
    obtain ⟨q', h1, rfl⟩ := hq
    rw [get?_zipIdx hnd] at h1
    have h2 := (List.getElem?_eq_some_iff.1 h1).1
    rw [List.length_zipIdx]
    by_cases e1 : q' = i
    · rw [e1, Equiv.swap_apply_left]; exact hj
    · by_cases e2 : q' = j
      · rw [e2, Equiv.swap_apply_right]; exact hi
      · rw [Equiv.swap_apply_of_ne_of_ne e1 e2]; exact h2
  · intro id id' q h1 h2
    rw [hget, Option.map_eq_some_iff] at h1 h2
    obtain ⟨a, a1, a2⟩ := h1
    obtain ⟨c, c1, c2⟩ := h2
    have : a = c := (Equiv.swap i j).injective (by rw [a2, c2])
    subst this
    rw [get?_zipIdx hnd] at a1 c1
    rw [a1] at c1
    exact Option.some.inj c1

/-- In every system there is a numbering in which the unknown of a given equation is the last. -/
theorem numbering_last {m : Model R} {eqs : Dict Nat (List (Equation R))} (h : Ready m eqs) {e0 : Equation R}
    (he0 : e0 ∈ allEqs eqs) : ∃ b', Numbering (fullBasis eqs) b' ∧ b'.get? e0.id = some ((allEqs eqs).length - 1) := by
  have hpos := h.length_pos
  have hi := h.ix_lt he0
  have hn := swap_numbering h.nodup (i := ixOf eqs e0.id) (j := (allEqs eqs).length - 1) (by simpa using hi)
    (by simp; omega)
  rw [← fullBasis_eq h.nodup] at hn
  refine ⟨_, hn, ?_⟩
  have hget : ∀ (l : Dict PyStr Nat) (f : Nat → Nat) (id : PyStr),
      Dict.get? (l.map (fun kv => (kv.1, f kv.2))) id = (Dict.get? l id).map f := by
    intro l f id
    induction l with
    | nil => rfl
    | cons a l ih =>
      obtain ⟨k, v⟩ := a
      simp only [List.map_cons, Dict.get?]
      split
      · rfl
      · exact ih
  rw [hget, h.basis he0]
  simp

theorem list_sum_neg {α : Type} (l : List α) (f : α → K) : (l.map (fun a => -f a)).sum = -(l.map f).sum := by
  induction l with
  | nil => simp
  | cons a l ih => rw [List.map_cons, List.sum_cons, ih, List.map_cons, List.sum_cons]; ring

theorem list_sum_sub {α : Type} (l : List α) (f g : α → K) :
    (l.map (fun a => f a - g a)).sum = (l.map f).sum - (l.map g).sum := by
  induction l with
  | nil => simp
  | cons a l ih => simp only [List.map_cons, List.sum_cons, ih]; ring

theorem regroup {es : List (Equation R)} (hes : (es.map Equation.id).Nodup) (c : Term R → K) (U : PyStr → K) :
    ∀ ts : List (Term R), (∀ t ∈ ts, ∃ e ∈ es, e.id = t.id) →
      (ts.map (fun t => c t * U t.id)).sum =
        (es.map (fun e => (ts.map (fun t => if t.id = e.id then c t else 0)).sum * U e.id)).sum
  | [], _ => by simp
  | t :: ts, h => by
    obtain ⟨e, he, hid⟩ := h t List.mem_cons_self
    rw [List.map_cons, List.sum_cons, regroup hes c U ts (fun t ht => h t (List.mem_cons_of_mem _ ht))]
    simp only [List.map_cons, List.sum_cons, add_mul]
    rw [List.sum_map_add]
    congr 1
    have hnd : es.Nodup := List.Nodup.of_map _ hes
    classical
    rw [sum_single hnd he]
    · rw [if_pos hid.symm, hid]
    · intro e' he' hne
      rw [if_neg, zero_mul]
      intro hc
      apply hne
      exact List.inj_on_of_nodup_map hes he' he (by rw [hid, hc])

/-- With one phonon, the unknowns cannot all give the same number: if the Green's function is not the free propagator
and there are at least two unknowns with a phonon, moving the source to one of them gives a value different from the
Green's function. -/
theorem one_level {m : Model R} {eqs : Dict Nat (List (Equation R))} (h : Ready m eqs)
    (hN : m.number.sum.toNat = 1) [CharZero K] (c : Term R → K) (v : K) (hv : v ≠ 0) {g : Equation R}
    (hg : eqs.get? 0 = some [g]) {U : PyStr → K} (V : Equation R → PyStr → K)
    (hU : SolvesAll c (fun e => if e.id = g.id then v else 0) (allEqs eqs) U)
    (hV : ∀ e0 ∈ eqs.vals 1, SolvesAll c (fun e => if e.id = e0.id then v else 0) (allEqs eqs) (V e0))
    {e1 e2 : Equation R} (h1 : e1 ∈ eqs.vals 1) (h2 : e2 ∈ eqs.vals 1) (h12 : e1 ≠ e2) (hne : U g.id ≠ v) :
    ∃ e0 ∈ eqs.vals 1, V e0 e0.id ≠ U g.id := by
  by_contra hcon
  push Not at hcon
  have hv0 : eqs.vals 0 = [g] := by
    have := h.get (Nat.zero_le _); rw [hg] at this; simpa using this.symm
  have hgm := (h.mem_vals (Nat.zero_le _)).1 (show g ∈ eqs.vals 0 by rw [hv0]; simp)
  have hmem1 : ∀ e ∈ eqs.vals 1, e ∈ allEqs eqs ∧ e.config.total = 1 := fun e he => by
    simpa using (h.mem_vals (by omega)).1 he
  have hids : ((eqs.vals 1).map Equation.id).Nodup := by
    refine (h.nodup).sublist ?_
    refine List.Sublist.map _ ?_
    unfold allEqs
    rw [List.flatMap_def]
    exact List.sublist_flatten_of_mem (List.mem_map.2 ⟨(1, eqs.vals 1), mem_of_get? (h.get (by omega)), rfl⟩)
  -- the level of an unknown
  have hlow : ∀ e ∈ eqs.vals 1, ∀ t ∈ e.terms, t.id = g.id := by
    intro e he t ht
    obtain ⟨e', he', k1, k2⟩ := h.closed e (hmem1 e he).1 t ht
    obtain ⟨n, hn, hn'⟩ := h.total_le he'
    have h3 := h.step e (hmem1 e he).1 t ht
    rw [(hmem1 e he).2, ← k2] at h3
    have h0 : e'.config.total = ((0 : ℕ) : ℤ) := by
      rw [hN] at hn
      rw [hn'] at h3 ⊢
      omega
    have := (h.mem_vals (Nat.zero_le _)).2 ⟨he', h0⟩
    rw [hv0, List.mem_singleton] at this
    rw [← k1, this]
  have hhigh : ∀ t ∈ g.terms, ∃ e ∈ eqs.vals 1, e.id = t.id := by
    intro t ht
    obtain ⟨e', he', k1, k2⟩ := h.closed g hgm.1 t ht
    obtain ⟨n, hn, hn'⟩ := h.total_le he'
    have h3 := h.step g hgm.1 t ht
    rw [hgm.2, ← k2, hn'] at h3
    refine ⟨e', (h.mem_vals (by omega)).2 ⟨he', ?_⟩, k1⟩
    rw [hn']
    omega
  have hgne : ∀ e ∈ eqs.vals 1, e.id ≠ g.id := by
    intro e he hc
    have := h.id_inj (hmem1 e he).1 hgm.1 hc
    have h3 := (hmem1 e he).2
    rw [this, hgm.2] at h3
    simp at h3
  let a : Equation R → K := fun e => (e.terms.map c).sum
  let β : Equation R → K := fun e => (g.terms.map (fun t => if t.id = e.id then c t else 0)).sum
  have hrow : ∀ (W : PyStr → K) (s : Equation R → K), SolvesAll c s (allEqs eqs) W → ∀ e ∈ eqs.vals 1,
      W e.id = s e - a e * W g.id := by
    intro W s hW e he
    have := hW e (hmem1 e he).1
    have hs : (e.terms.map (fun t => c t * W t.id)).sum = a e * W g.id := by
      rw [list_sum_mul_right]
      congr 1
      apply List.map_congr_left
      intro t ht
      rw [hlow e he t ht]
    rw [hs] at this
    linear_combination this
  have hgreen : ∀ (W : PyStr → K) (s : Equation R → K), SolvesAll c s (allEqs eqs) W →
      W g.id + ((eqs.vals 1).map (fun e => β e * W e.id)).sum = s g := by
    intro W s hW
    have := hW g hgm.1
    rw [regroup hids c W g.terms hhigh] at this
    exact this
  set S := ((eqs.vals 1).map (fun e => β e * a e)).sum with hS
  -- the equations solved
  have hUS : U g.id * (1 - S) = v := by
    have k := hgreen U _ hU
    rw [if_pos rfl] at k
    have k2 : ((eqs.vals 1).map (fun e => β e * U e.id)).sum = - (S * U g.id) := by
      rw [hS, list_sum_mul_right, ← list_sum_neg]
      congr 1
      apply List.map_congr_left
      intro e he
      rw [hrow U _ hU e he, if_neg (hgne e he)]
      ring
    rw [k2] at k
    linear_combination k
  have hVS : ∀ e0 ∈ eqs.vals 1, S = β e0 * a e0 := by
    intro e0 he0
    have k := hgreen (V e0) _ (hV e0 he0)
    rw [if_neg (hgne e0 he0).symm] at k
    have k2 : ((eqs.vals 1).map (fun e => β e * V e0 e.id)).sum = β e0 * v - S * V e0 g.id := by
      have e3 : ((eqs.vals 1).map (fun e => β e * V e0 e.id)).sum =
          ((eqs.vals 1).map (fun e => β e * (if e.id = e0.id then v else 0))).sum -
            ((eqs.vals 1).map (fun e => β e * a e * V e0 g.id)).sum := by
        rw [← list_sum_sub]
        congr 1
        apply List.map_congr_left
        intro e he
        rw [hrow (V e0) _ (hV e0 he0) e he]
        ring
      rw [e3, hS, list_sum_mul_right (eqs.vals 1)]
      congr 1
      classical
      rw [sum_single (List.Nodup.of_map _ hids) he0]
      · rw [if_pos rfl]
      · intro e' he' hne'
        rw [if_neg, mul_zero]
        intro hc
        exact hne' (List.inj_on_of_nodup_map hids he' he0 hc)
    rw [k2] at k
    have k3 := hrow (V e0) _ (hV e0 he0) e0 he0
    rw [if_pos rfl, hcon e0 he0] at k3
    -- v (1 - S) + a β v = v
    have : v * (S - β e0 * a e0) = 0 := by
      linear_combination (-1 : K) * hUS - a e0 * k + (1 - S) * k3
    have := (mul_eq_zero.1 this).resolve_left hv
    linear_combination this
  have hsum : S = ((eqs.vals 1).length : K) * S := by
    conv_lhs => rw [hS]
    rw [List.map_congr_left (fun e he => (hVS e he).symm)]
    simp
  have hlen : 2 ≤ (eqs.vals 1).length := by
    by_contra hc
    obtain ⟨i, hi, hi'⟩ := List.getElem_of_mem h1
    obtain ⟨j, hj, hj'⟩ := List.getElem_of_mem h2
    have : i = j := by omega
    subst this
    exact h12 (hi'.symm.trans hj')
  have hS0 : S = 0 := by
    have h3 : (((eqs.vals 1).length : K) - 1) * S = 0 := by linear_combination -hsum
    refine (mul_eq_zero.1 h3).resolve_left ?_
    intro hc
    have : ((eqs.vals 1).length : K) = ((1 : ℕ) : K) := by push_cast; linear_combination hc
    have := Nat.cast_injective this
    omega
  rw [hS0] at hUS
  apply hne
  linear_combination hUS

/-- two creation terms with different arguments make two unknowns with one phonon -/
theorem two_unknowns {σ : SetOrder} {m : Model ℝ} {ae : Int} (hm : WellFormed m ae) {b : Built ℝ}
    (hb : buildSystem σ m = .ok b) (h1 : m.nTypes = 1) (hN : m.number.sum.toNat = 1) {h h' : SingleTerm ℝ}
    (hh : h ∈ m.ham.terms) (hh' : h' ∈ m.ham.terms) (hd : h.dag = .plus) (hd' : h'.dag = .plus)
    (hne : h.phi.tw ≠ h'.phi.tw) : ∃ e1 ∈ b.eqs.vals 1, ∃ e2 ∈ b.eqs.vals 1, e1 ≠ e2 := by
  have hr := ready_of_built hm hb
  obtain ⟨b', L, hb', hL, hdd⟩ := buildSystem_ok σ hm
  rw [hb] at hb'; cases hb'
  have hlt : 0 < m.nTypes := by omega
  have hs : InTruncation m ae (single m.nTypes 0) := single_bounded hm.toShaped.bounded hlt
  have key : ∀ h ∈ m.ham.terms, h.dag = .plus → ∃ δ : Num, δ.tw = h.phi.tw ∧
      full (L.eqn (single m.nTypes 0)) δ ∈ b.eqs.vals 1 := by
    intro h hh hp
    have hidx := hm.index h hh
    have h0 : h.phononIndex = 0 := by omega
    have hmem : eomOf m h ∈ greenTerms m := List.mem_map_of_mem (List.mem_filter.2 ⟨hh, by simp [hp]⟩)
    obtain ⟨δ', hδ', htw⟩ := hL.deltas_cover (vac m) (Or.inl rfl) (eomOf m h) (by rw [hL.eqn_vac]; exact hmem)
    have hc : (eomOf m h).config = single m.nTypes 0 := by rw [← h0]; rfl
    rw [hc] at hδ'
    have heq : full (L.eqn (single m.nTypes 0)) δ' ∈ allEqs b.eqs :=
      (hL.mem_allEqs hm.toListsOk hdd _).2 ⟨_, Or.inr hs, δ', hδ', rfl⟩
    obtain ⟨ts, e1, -⟩ := hL.eqn _ hs
    have htot : (full (L.eqn (single m.nTypes 0)) δ').config.total = ((1 : ℕ) : ℤ) := by
      show (L.eqn _).config.total = _
      rw [e1]
      exact single_phonons hlt
    exact ⟨δ', htw, (hr.mem_vals (n := 1) (by omega)).2 ⟨heq, htot⟩⟩
  obtain ⟨δ, hδ, hm1⟩ := key h hh hd
  obtain ⟨δ', hδ', hm2⟩ := key h' hh' hd'
  refine ⟨_, hm1, _, hm2, fun hc => hne ?_⟩
  have := congrArg Equation.fArg hc
  simp only [full, Option.some.injEq] at this
  rw [← hδ, ← hδ', this]

/-- **C111** fails for the parallel solver: for a BondPeierls model with one phonon, at every coupling, frequency,
extent, energy and broadening, there is a numbering of the unknowns of the system with which the parallel solver
returns a number that is not the Green's function. No error is raised. -/
theorem C111_mumps_fails (σ : SetOrder) (g Omega w eta : ℝ) (hg : g ≠ 0) (he : 0 < eta) (M : ℤ) (hM : 1 ≤ M) :
    ∃ m b b' G G', (Model.fromParameters (1 : ℝ) 1 0 none 1).adds realPrims
        [{ ctype := "BondPeierls", freq := Omega, M := M, N := 1, g := some g }] = .ok m ∧
      buildSystem σ m = .ok b ∧ Numbering (fullBasis b.eqs) b' ∧ Gives m b ⟨Real.pi / 2, w, eta⟩ G ∧ G' ≠ G ∧
      ∀ (ksp : DistSys ℂ → Py (List ℂ)) (size : Nat), DistExact ksp → 1 ≤ size → size ≤ (allEqs b.eqs).length →
        petscSolve realPhys m ⟨Real.pi / 2, w, eta⟩ (fullBasis b.eqs) b.eqs ksp size = .ok G ∧
        petscSolve realPhys m ⟨Real.pi / 2, w, eta⟩ b' b.eqs ksp size = .ok G' := by
  obtain ⟨b, h1, h2, h3⟩ := one_call σ 1 1 none (by simp) "BondPeierls" (by simp) Omega g M 1 hM le_rfl
  have hb := (clean_one (hopping := (1 : ℝ)) (ct := "BondPeierls") (Omega := Omega) (g := g) (by simp) hM (le_refl (1 : ℤ))).2.2
  have hp := physical_assembled h1 hb (Or.inr ⟨one_pos, rfl⟩)
  set m := blueprint (1 : ℝ) 1 0 none [⟨"BondPeierls", Omega, M, 1, g⟩] with hmd
  set p : Point ℝ := ⟨Real.pi / 2, w, eta⟩ with hpd
  have h := ready_of_built h2 h3
  obtain ⟨G, c1, -, c3, c4⟩ := C111_returned_partial σ m M h2 b h3 hp p he
  have hG : Gives m b p G := ⟨c3, c4⟩
  obtain ⟨gr, g1, g2, g3⟩ := h.green
  have hv0 : b.eqs.vals 0 = [gr] := by
    have := h.get (Nat.zero_le _); rw [g1] at this; simpa using this.symm
  have hgm : gr ∈ allEqs b.eqs := ((h.mem_vals (Nat.zero_le _)).1 (show gr ∈ b.eqs.vals 0 by rw [hv0]; simp)).1
  have hfull : Numbering (fullBasis b.eqs) (fullBasis b.eqs) := by
    have hnd : ((fullBasis b.eqs).map Prod.fst).Nodup := by rw [fullBasis_eq h.nodup]; simpa using h.nodup
    refine ⟨hnd, fun _ => Iff.rfl, ?_, ?_⟩
    · intro id i hi
      rw [fullBasis_eq h.nodup, get?_zipIdx h.nodup] at hi
      have := (List.getElem?_eq_some_iff.1 hi).1
      rw [fullBasis_eq h.nodup]; simpa using this
    · intro id id' i hi hi'
      rw [fullBasis_eq h.nodup, get?_zipIdx h.nodup] at hi hi'
      rw [hi] at hi'
      exact Option.some.inj hi'
  -- all sources with the same coefficients
  set G0 := realPhys.G0 p.k p.w m.latticeConstant p.eta m.ham.hopping with hG0
  have hsrc : ∀ e0 ∈ allEqs b.eqs, ∃ (b' : Dict PyStr Nat) (U : PyStr → ℂ), Numbering (fullBasis b.eqs) b' ∧
      b'.get? e0.id = some ((allEqs b.eqs).length - 1) ∧
      SolvesAll (coefV realPhys m p) (fun e => if e.id = e0.id then G0 else 0) (allEqs b.eqs) U ∧
      ∀ (ksp : DistSys ℂ → Py (List ℂ)) (size : Nat), DistExact ksp → 1 ≤ size → size ≤ (allEqs b.eqs).length →
        petscSolve realPhys m p b' b.eqs ksp size = .ok (U e0.id) := by
    intro e0 he0
    obtain ⟨b', n1, n2⟩ := numbering_last h he0
    obtain ⟨c, U, k1, k2, k3⟩ := C111_mumps_source σ m M h2 b h3 hp p he b' n1 e0 he0 n2
    refine ⟨b', U, n1, n2, ?_, k3⟩
    intro e hem
    rw [← k2 e hem]
    congr 2
    apply List.map_congr_left
    intro t ht
    have := k1 e hem t ht
    rw [coefficient_ok (h.coef e hem t ht)] at this
    rw [Except.ok.inj this]
  obtain ⟨ksp0, hk0⟩ := exists_distExact (K := ℂ)
  have hpos := h.length_pos
  choose! B V hB1 hB2 hB3 hB4 using hsrc
  have hUG : V gr gr.id = G := by
    have k1 := hB4 gr hgm ksp0 1 hk0 le_rfl hpos
    have k2 := (c1 (B gr) (hB1 gr hgm) (by rw [← g3]; exact hB2 gr hgm)).2 ksp0 1 hk0 le_rfl hpos
    rw [k1] at k2
    exact Except.ok.inj k2
  have hval := bond_value h2 h3 he hG
  have hcos : ((Real.cos (Real.pi / 2 * 1) : ℝ) : ℂ) = 0 := by
    rw [mul_one, Real.cos_pi_div_two]; simp
  rw [hcos] at hval
  have hG0v : G0 = 1 / ((w : ℂ) + eta * Complex.I) := by
    show (1 : ℂ) / ((w : ℂ) + Complex.I * eta + 2 * ((1 : ℝ) : ℂ) * ((Real.cos (Real.pi / 2 * 1) : ℝ) : ℂ)) = _
    rw [hcos, mul_comm Complex.I]; simp
  have hz : (w : ℂ) + eta * Complex.I ≠ 0 := by
    intro hc
    have := congrArg Complex.im hc
    simp at this
    exact he.ne' this
  have hne : V gr gr.id ≠ G0 := by
    rw [hUG]
    intro hc
    rw [hc, hG0v, one_div_one_div] at hval
    have h0 : g0R 0 (w - Omega) 1 eta 1 ≠ 0 := by
      have := g0R_int 0 (w - Omega) he (one_ne_zero : (1 : ℝ) ≠ 0)
      rw [Int.cast_zero] at this
      rw [this]
      exact mul_ne_zero (pow_ne_zero _ (yRoot_ne_zero _)) (pref_ne_zero (omega := w - Omega) he one_ne_zero)
    have hg' : (g : ℂ) ≠ 0 := by exact_mod_cast hg
    have : (2 : ℂ) * g ^ 2 * g0R 0 (w - Omega) 1 eta 1 = 0 := by
      linear_combination hval
    exact mul_ne_zero (mul_ne_zero two_ne_zero (pow_ne_zero 2 hg')) h0 this
  have hterms : m.ham.terms = termsOf "BondPeierls" g 0 Omega := by simp [hmd, blueprint, partTerms]
  obtain ⟨t1, t2, ht1, ht2, d1, d2, hphi⟩ : ∃ t1 t2 : SingleTerm ℝ, t1 ∈ m.ham.terms ∧ t2 ∈ m.ham.terms ∧
      t1.dag = .plus ∧ t2.dag = .plus ∧ t1.phi.tw ≠ t2.phi.tw := by
    rw [hterms]
    refine ⟨⟨"BondPeierls", .int 1, ⟨true, 1⟩, .plus, g, 0, Omega⟩, ⟨"BondPeierls", .int (-1), ⟨true, -1⟩, .plus, g, 0, Omega⟩,
      ?_, ?_, rfl, rfl, by simp⟩ <;> simp [termsOf, termShapes]
  obtain ⟨e1, m1, e2, m2, h12⟩ := two_unknowns h2 h3 rfl rfl ht1 ht2 d1 d2 hphi
  have hmem1 : ∀ e ∈ b.eqs.vals 1, e ∈ allEqs b.eqs := fun e hev => ((h.mem_vals (by rfl)).1 hev).1
  obtain ⟨e0, he0, hdiff⟩ := one_level h rfl (coefV realPhys m p) G0 (by rw [hG0v]; exact one_div_ne_zero hz) g1
    V (hB3 gr hgm) (fun e hev => hB3 e (hmem1 e hev)) m1 m2 h12 hne
  refine ⟨m, b, B e0, G, V e0 e0.id, h1, h3, hB1 e0 (hmem1 e0 he0), hG, by rw [← hUG]; exact hdiff, ?_⟩
  intro ksp size hk hs hN
  exact ⟨(c1 _ hfull (by rw [h.green_ix])).2 ksp size hk hs hN, hB4 e0 (hmem1 e0 he0) ksp size hk hs hN⟩

/-! ### concrete cases -/

/-- In every system with three or more equations there is a numbering other than that of the system that leaves the
Green's function last. -/
theorem numbering_other {m : Model R} {eqs : Dict Nat (List (Equation R))} (h : Ready m eqs)
    (h3 : 3 ≤ (allEqs eqs).length) : ∃ b', Numbering (fullBasis eqs) b' ∧ b' ≠ fullBasis eqs ∧
      b'.get? "{G}[0.0]".toList = some ((allEqs eqs).length - 1) := by
  have hn := swap_numbering h.nodup (i := 0) (j := 1) (by simp; omega) (by simp; omega)
  rw [← fullBasis_eq h.nodup] at hn
  have hget : ∀ (l : Dict PyStr Nat) (id : PyStr),
      Dict.get? (l.map (fun kv => (kv.1, Equiv.swap 0 1 kv.2))) id = (Dict.get? l id).map (Equiv.swap 0 1) := by
    intro l id
    induction l with
    | nil => rfl
    | cons a l ih =>
      obtain ⟨k, v⟩ := a
      simp only [List.map_cons, Dict.get?]
      split
      · rfl
      · exact ih
  refine ⟨_, hn, ?_, ?_⟩
  · intro hc
    have h0 := h.basis (List.getElem_mem (show 0 < (allEqs eqs).length by omega))
    rw [h.ix_get (List.getElem?_eq_getElem (by omega))] at h0
    have := hget (fullBasis eqs) (allEqs eqs)[0].id
    rw [hc, h0] at this
    simp at this
  · rw [hget, h.green_ix, Option.map_some, Equiv.swap_apply_of_ne_of_ne (by omega) (by omega)]

/-- three unknowns numbered backwards -/
example : Numbering ["x".toList, "y".toList, "{G}[0.0]".toList].zipIdx
    [("x".toList, 2), ("y".toList, 1), ("{G}[0.0]".toList, 0)] := by
  have h := swap_numbering (ids := ["x".toList, "y".toList, "{G}[0.0]".toList]) (by decide) (i := 0) (j := 2)
    (by decide) (by decide)
  have e : (["x".toList, "y".toList, "{G}[0.0]".toList].zipIdx : Dict PyStr Nat).map
      (fun kv => (kv.1, Equiv.swap 0 2 kv.2)) = [("x".toList, 2), ("y".toList, 1), ("{G}[0.0]".toList, 0)] := by
    decide
  rwa [e] at h

/-- linear solvers that check the shape exist -/
example : ∃ spsolve : LinSys ℂ → Py (Nat → ℂ), ChecksShape spsolve := ⟨fun _ => .error .valueError, fun _ _ => rfl⟩

/-- the empty dictionary is not `None`, so it is used -/
example (σ : SetOrder) (b : Built ℚ) (hb : buildSystem σ exModel = .ok b) (F : Phys ℚ ℂ) (p : Point ℚ)
    (spsolve : LinSys ℂ → Py (Nat → ℂ)) : sparseSolve F exModel p [] b.eqs spsolve = .error .keyError := by
  have h := ready_of_built exModel_wellFormed hb
  exact (C111_missing σ exModel 2 exModel_wellFormed b hb F p [] _ (List.getElem_mem h.length_pos) rfl).1 spsolve

/-- the basis of the system without the block of the Green's function is refused by the dense solver -/
example (σ : SetOrder) (b : Built ℚ) (hb : buildSystem σ exModel = .ok b) (F : Phys ℚ ℂ) (p : Point ℚ) :
    ∃ err, denseSolve F exModel p ((localBasis b.eqs).filter (fun kv => kv.1 ≠ 0)) b.eqs = .error err := by
  have h := ready_of_built exModel_wellFormed hb
  obtain ⟨e, he, -, -⟩ := h.green
  have hv : e ∈ b.eqs.vals 0 := by
    have := h.get (Nat.zero_le _)
    rw [he] at this
    rw [← Option.some.inj this]
    exact List.mem_cons_self
  obtain ⟨h1, h2⟩ := (h.mem_vals (Nat.zero_le _)).1 hv
  obtain ⟨err, -, h3⟩ := C111_dense_missing σ exModel 2 exModel_wellFormed b hb F p
    ((localBasis b.eqs).filter (fun kv => kv.1 ≠ 0)) e h1 0 h2 (by
      intro blk hblk
      have := Dict.mem_of_get? hblk
      simp at this)
  exact ⟨err, h3⟩

/-- the wrong number for the model of the documentation's size -/
example (σ : SetOrder) : ∃ m b b' G G', (Model.fromParameters (1 : ℝ) 1 0 none 1).adds realPrims
      [{ ctype := "BondPeierls", freq := 1, M := 3, N := 1, g := some 2 }] = .ok m ∧
    buildSystem σ m = .ok b ∧ Numbering (fullBasis b.eqs) b' ∧ Gives m b ⟨Real.pi / 2, 0, 1 / 10⟩ G ∧ G' ≠ G ∧
    ∀ (ksp : DistSys ℂ → Py (List ℂ)) (size : Nat), DistExact ksp → 1 ≤ size → size ≤ (allEqs b.eqs).length →
      petscSolve realPhys m ⟨Real.pi / 2, 0, 1 / 10⟩ (fullBasis b.eqs) b.eqs ksp size = .ok G ∧
      petscSolve realPhys m ⟨Real.pi / 2, 0, 1 / 10⟩ b' b.eqs ksp size = .ok G' :=
  C111_mumps_fails σ 2 1 0 (1 / 10) two_ne_zero (by norm_num) 3 (by norm_num)

end GGCE.Props
