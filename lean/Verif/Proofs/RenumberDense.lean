import Verif.Proofs.Renumber
import Verif.Proofs.DenseSolve

/-! The dense solver with the unknowns of each block numbered in another order. -/

set_option linter.unusedSectionVars false

namespace GGCE
open Spec Arr Dict

variable {R K : Type} [Field R] [LinearOrder R] [Field K]

/-- rows and columns renumbered -/
def ren2 (π ρ : Nat → Nat) (q : Nat × Nat × K) : Nat × Nat × K := (π q.1, ρ q.2.1, q.2.2)

theorem cooEntry_ren2 {π ρ : Nat → Nat} (hπ : Function.Injective π) (hρ : Function.Injective ρ)
    (T : List (Nat × Nat × K)) (i j : Nat) : cooEntry (T.map (ren2 π ρ)) (π i) (ρ j) = cooEntry T i j := by
  rw [cooEntry_eq_sum, cooEntry_eq_sum, List.map_map]
  congr 1
  apply List.map_congr_left
  intro q _
  simp only [Function.comp, ren2, hπ.eq_iff, hρ.eq_iff]

/-- the block of a basis, empty if there is none -/
def blk (B : Dict Nat (Dict PyStr Nat)) (n : Nat) : Dict PyStr Nat := (B.get? n).getD []

/-- One permutation of the numbers of each block. -/
structure Shuffle (B B' : Dict Nat (Dict PyStr Nat)) (π : Nat → Nat → Nat) : Prop where
  inj : ∀ n, Function.Injective (π n)
  dim : ∀ n, blockDim B' n = blockDim B n
  lt : ∀ n, ∀ i < blockDim B n, π n i < blockDim B n
  get : ∀ n id, (blk B' n).get? id = ((blk B n).get? id).map (π n)
  keys : ∀ n, (∃ b', B'.get? n = some b') ↔ ∃ b, B.get? n = some b

section
variable {B B' : Dict Nat (Dict PyStr Nat)} {π : Nat → Nat → Nat} (S : Shuffle B B' π)
include S

/-- the permutation keeps the numbers outside the block outside -/
theorem Shuffle.lt_iff (n i : Nat) : π n i < blockDim B n ↔ i < blockDim B n := by
  refine ⟨fun h => ?_, S.lt n i⟩
  let f : Fin (blockDim B n) → Fin (blockDim B n) := fun i => ⟨π n i, S.lt n i i.2⟩
  have hf : Function.Injective f := fun i j h => Fin.ext (S.inj n (Fin.mk.inj h))
  obtain ⟨j, hj⟩ := Finite.surjective_of_injective hf ⟨π n i, h⟩
  have := S.inj n (Fin.mk.inj hj)
  rw [← this]
  exact j.2

theorem Shuffle.cases (n : Nat) : (B.get? n = none ∧ B'.get? n = none) ∨
    ∃ b b', B.get? n = some b ∧ B'.get? n = some b' ∧ (∀ id, b'.get? id = (b.get? id).map (π n)) ∧
      b'.length = b.length ∧ ∀ i, π n i < b.length ↔ i < b.length := by
  cases h : B.get? n with
  | none =>
    left
    refine ⟨rfl, ?_⟩
    cases h' : B'.get? n with
    | none => rfl
    | some b' =>
      obtain ⟨b, hb⟩ := (S.keys n).1 ⟨b', h'⟩
      rw [h] at hb; cases hb
  | some b =>
    right
    obtain ⟨b', h'⟩ := (S.keys n).2 ⟨b, h⟩
    have hd := S.dim n
    have hl := S.lt_iff n
    simp only [blockDim, h, h', Option.getD_some] at hd hl
    refine ⟨b, b', rfl, h', fun id => ?_, hd, hl⟩
    have := S.get n id
    unfold blk at this
    rwa [h, h'] at this

theorem Shuffle.fillMatrix (F : Phys R K) (m : Model R) (p : Point R) (eqs : Dict Nat (List (Equation R)))
    (n n' : Nat) : fillMatrix F m p B' eqs n n' =
      (fillMatrix F m p B eqs n n').map (List.map (ren2 (π n) (π n'))) := by
  unfold GGCE.fillMatrix
  cases eqs.get? n with
  | none => rfl
  | some es =>
    rcases S.cases n with ⟨h1, h2⟩ | ⟨row, row', h1, h2, h3, h4, h5⟩
    · rw [h1, h2]; rfl
    rcases S.cases n' with ⟨k1, k2⟩ | ⟨col, col', k1, k2, k3, k4, k5⟩
    · rw [h1, h2, k1, k2]; rfl
    rw [h1, h2, k1, k2]
    simp only
    rw [collectM_mapped (r := List.map (ren2 (π n) (π n'))) (f := fun e => match row.get? e.id with
      | none => .error .keyError
      | some i => some <$> fillRow F m p row.length col n' i e.terms)]
    · cases collectM _ es with
      | error _ => rfl
      | ok l => simp [Except.map, Functor.map, List.map_flatten]
    · intro e
      rw [h3]
      cases row.get? e.id with
      | none => rfl
      | some i =>
        simp only [Option.map_some]
        have : fillRow F m p row'.length col' n' (π n i) e.terms =
            (fillRow F m p row.length col n' i e.terms).map (List.map (ren2 (π n) (π n'))) := by
          unfold fillRow
          refine collectM_mapped (r := ren2 (π n) (π n')) ?_ _
          intro t
          split
          · rfl
          · rw [k3]
            cases col.get? t.id with
            | none => rfl
            | some j =>
              simp only [Option.map_some, h4, k4, h5, k5]
              split
              · cases t.coefficient F m p <;> rfl
              · rfl
        rw [this]
        cases fillRow F m p row.length col n' i e.terms <;> rfl

/-- the permutation of a block -/
noncomputable def Shuffle.equiv (n : Nat) : Fin (blockDim B n) ≃ Fin (blockDim B' n) :=
  Equiv.ofBijective (fun i => ⟨π n i, by rw [S.dim]; exact S.lt n i i.2⟩) (by
    rw [Fintype.bijective_iff_injective_and_card]
    refine ⟨fun i j h => ?_, by simp [S.dim]⟩
    simp only [Fin.mk.injEq] at h
    exact Fin.ext (S.inj n h))

theorem Shuffle.toMatrix (n n' : Nat) (T : List (Nat × Nat × K)) :
    (GGCE.toMatrix (blockDim B' n) (blockDim B' n') (T.map (ren2 (π n) (π n')))).submatrix (S.equiv n) (S.equiv n') =
      GGCE.toMatrix (blockDim B n) (blockDim B n') T := by
  ext i j
  exact cooEntry_ren2 (S.inj n) (S.inj n') T i j

/-- the recursion gives the same matrices, permuted, or the same exception -/
theorem Shuffle.denseR (F : Phys R K) (m : Model R) (p : Point R) (eqs : Dict Nat (List (Equation R))) (s n : Nat) :
    (∃ r r', denseR F m p B eqs s n = .ok r ∧ denseR F m p B' eqs s n = .ok r' ∧
      r'.submatrix (S.equiv (n + 1)) (S.equiv n) = r) ∨
    ∃ e, denseR F m p B eqs s n = .error e ∧ denseR F m p B' eqs s n = .error e := by
  induction s generalizing n with
  | zero =>
    simp only [GGCE.denseR, S.fillMatrix]
    cases GGCE.fillMatrix F m p B eqs (n + 1) n with
    | error e => exact Or.inr ⟨e, rfl, rfl⟩
    | ok T => exact Or.inl ⟨_, _, rfl, rfl, S.toMatrix _ _ T⟩
  | succ s ih =>
    simp only [GGCE.denseR, S.fillMatrix]
    rcases ih (n + 1) with ⟨r, r', h1, h2, h3⟩ | ⟨e, h1, h2⟩
    · rw [h1, h2]
      cases GGCE.fillMatrix F m p B eqs (n + 1) (n + 2) with
      | error e => exact Or.inr ⟨e, rfl, rfl⟩
      | ok Tb =>
        cases GGCE.fillMatrix F m p B eqs (n + 1) n with
        | error e => exact Or.inr ⟨e, rfl, rfl⟩
        | ok Ta =>
          simp only [bind, Except.bind, Except.map]
          have hX : (1 - GGCE.toMatrix (blockDim B' (n + 1)) (blockDim B' (n + 2))
                (Tb.map (ren2 (π (n + 1)) (π (n + 2)))) * r').submatrix (S.equiv (n + 1)) (S.equiv (n + 1)) =
              1 - GGCE.toMatrix (blockDim B (n + 1)) (blockDim B (n + 2)) Tb * r := by
            rw [Matrix.submatrix_sub, Pi.sub_apply, Pi.sub_apply, Matrix.submatrix_one_equiv,
              ← Matrix.submatrix_mul_equiv _ _ _ (S.equiv (n + 2)), S.toMatrix, h3]
          have hdet : (1 - GGCE.toMatrix (blockDim B' (n + 1)) (blockDim B' (n + 2))
                (Tb.map (ren2 (π (n + 1)) (π (n + 2)))) * r').det =
              (1 - GGCE.toMatrix (blockDim B (n + 1)) (blockDim B (n + 2)) Tb * r).det := by
            rw [← hX, Matrix.det_submatrix_equiv_self]
          rw [hdet]
          split
          · exact Or.inr ⟨_, rfl, rfl⟩
          · refine Or.inl ⟨_, _, rfl, rfl, ?_⟩
            rw [← Matrix.submatrix_mul_equiv _ _ _ (S.equiv (n + 1)), S.toMatrix, ← Matrix.inv_submatrix_equiv, hX]
    · rw [h1, h2]
      exact Or.inr ⟨e, rfl, rfl⟩

theorem Shuffle.denseSolve (F : Phys R K) (m : Model R) (p : Point R) (eqs : Dict Nat (List (Equation R))) :
    denseSolve F m p B' eqs = denseSolve F m p B eqs := by
  unfold GGCE.denseSolve
  split
  · rfl
  · simp only [S.fillMatrix]
    rcases S.denseR F m p eqs (m.number.sum.toNat - 1) 0 with ⟨r, r', h1, h2, h3⟩ | ⟨e, h1, h2⟩
    · rw [h1, h2]
      cases GGCE.fillMatrix F m p B eqs 0 1 with
      | error e => rfl
      | ok T =>
        simp only [bind, Except.bind, Except.map]
        by_cases hd : blockDim B 0 = 1
        · have hd' : blockDim B' 0 = 1 := by rw [S.dim, hd]
          rw [dif_pos hd, dif_pos hd']
          have he : S.equiv 0 ⟨0, by omega⟩ = ⟨0, by omega⟩ := Fin.ext (by
            have := (S.equiv 0 ⟨0, by omega⟩).2
            simp only
            omega)
          have hD : (GGCE.toMatrix (blockDim B' 0) (blockDim B' 1) (T.map (ren2 (π 0) (π 1))) * r')
                ⟨0, by omega⟩ ⟨0, by omega⟩ =
              (GGCE.toMatrix (blockDim B 0) (blockDim B 1) T * r) ⟨0, by omega⟩ ⟨0, by omega⟩ := by
            rw [← S.toMatrix 0 1 T, ← h3, Matrix.submatrix_mul_equiv, Matrix.submatrix_apply, he]
          rw [hD]
        · have hd' : ¬ blockDim B' 0 = 1 := by rw [S.dim]; exact hd
          rw [dif_neg hd, dif_neg hd']
    · rw [h1, h2]; rfl

end

/-- A block numbering permutes the numbers of each block. -/
theorem shuffle_of {m : Model R} {eqs : Dict Nat (List (Equation R))} (h : Ready m eqs)
    {B' : Dict Nat (Dict PyStr Nat)} (hB : BlockNumbering (localBasis eqs) B') :
    ∃ π, Shuffle (localBasis eqs) B' π := by
  have hex : ∀ n, ∃ π : Nat → Nat, Function.Injective π ∧ blockDim B' n = blockDim (localBasis eqs) n ∧
      (∀ i < blockDim (localBasis eqs) n, π i < blockDim (localBasis eqs) n) ∧
      ∀ id, (blk B' n).get? id = ((blk (localBasis eqs) n).get? id).map π := by
    intro n
    unfold blk blockDim
    cases hg : (localBasis eqs).get? n with
    | none =>
      cases hg' : B'.get? n with
      | none => exact ⟨id, fun _ _ h => h, rfl, by simp, fun _ => rfl⟩
      | some b' =>
        obtain ⟨b, hb⟩ := (hB.keys n).1 ⟨b', hg'⟩
        rw [hg] at hb; cases hb
    | some b =>
      obtain ⟨b', hg'⟩ := (hB.keys n).2 ⟨b, hg⟩
      rw [hg']
      have hn := hB.blocks n b b' hg hg'
      have hmem := mem_of_get? hg
      rw [localBasis_eq h.nodup] at hmem
      obtain ⟨kv, hkv, he⟩ := List.mem_map.1 hmem
      simp only [Prod.mk.injEq] at he
      obtain ⟨rfl, rfl⟩ := he
      have hnd : (kv.2.map Equation.id).Nodup := by
        refine h.nodup.sublist ?_
        refine List.Sublist.map _ ?_
        unfold allEqs
        rw [List.flatMap_def]
        exact List.sublist_flatten_of_mem (List.mem_map.2 ⟨kv, hkv, rfl⟩)
      obtain ⟨π, h1, h2, h3, -⟩ := hn.ofList hnd
      refine ⟨π, h1, ?_, ?_, h3⟩
      · simp only [Option.getD_some]
        exact hn.length (by simpa using hnd)
      · simpa using h2
  choose π hπ using hex
  exact ⟨π, fun n => (hπ n).1, fun n => (hπ n).2.1, fun n => (hπ n).2.2.1, fun n => (hπ n).2.2.2, hB.keys⟩

end GGCE
