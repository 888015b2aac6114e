import Verif.Proofs.Grid
import Verif.Props.Utils

/-!
Properties C26 and C28: the results of `greens_function` over a grid, in serial, on an MPI communicator
and on PETSc brigades.
-/

set_option linter.unusedSectionVars false

namespace GGCE.Props

variable {R V : Type} [Field R]

/-- What a user expects of a result over the grid `k × w`: one row per `k`, one column per `w`, and the
solver's value at each point. -/
def IsGridOf (solve : R → R → Py V) (k w : List R) (M : List (List V)) : Prop :=
  M.length = k.length ∧ ∀ i (hi : i < k.length), ∃ row, M[i]? = some row ∧ row.length = w.length ∧
    ∀ j (hj : j < w.length), ∃ v, row[j]? = some v ∧ solve k[i] w[j] = .ok v

/-- the points an argument stands for -/
def gridPoints : GridArg R → Option (List R)
  | .float x => some [x]
  | .int _ => none
  | .seq xs => some xs

theorem reshape_isGrid (solve : R → R → Py V) (k w : List R) (s : List V) (M : List (List V))
    (hs : mapPy (fun j => solve j.1 j.2) (jobList k w) = .ok s) (hM : reshapeGrid s k.length w.length = .ok M) :
    IsGridOf solve k w M := by
  obtain ⟨h1, h2⟩ := mapPy_ok hs
  obtain ⟨h3, h4, h5⟩ := reshapeGrid_ok hM
  refine ⟨h4, ?_⟩
  intro i hi
  obtain ⟨row, r1, r2, r3⟩ := h5 i hi
  refine ⟨row, r1, r2, ?_⟩
  intro j hj
  have hb : i * w.length + j < s.length := by
    have : i * w.length + w.length ≤ k.length * w.length := by
      rw [← Nat.succ_mul]; exact Nat.mul_le_mul_right _ hi
    rw [h3]; omega
  refine ⟨s[i * w.length + j], by rw [r3 j hj, List.getElem?_eq_getElem hb], ?_⟩
  have := h2 (i * w.length + j) (by rw [← h1]; exact hb) hb
  have hj' := jobList_get k w i j hi hj
  rw [List.getElem?_eq_getElem (by rw [← h1]; exact hb)] at hj'
  simp only [Option.some.injEq] at hj'
  rw [hj'] at this
  exact this

/-! ### C26 -/

/-- C26: the serial result holds at `[i][j]` the solution at `(k_i, w_j)`. -/
theorem C26_entries (solve : R → R → Py V) (k w : GridArg R) (M : List (List V))
    (h : greensSerial solve k w = .ok M) :
    ∃ ks ws, gridPoints k = some ks ∧ gridPoints w = some ws ∧ IsGridOf solve ks ws M := by
  cases k <;> cases w <;>
    simp only [greensSerial, floatToList, bind, Except.bind] at h <;>
    first
    | cases h
    | (split at h
       · cases h
       · rename_i s hs
         exact ⟨_, _, rfl, rfl, reshape_isGrid solve _ _ s M hs h⟩)

/-- C26: if the solver succeeds at every grid point there is a result. -/
theorem C26_total (solve : R → R → Py V) (k w : GridArg R) (ks ws : List R)
    (hk : gridPoints k = some ks) (hw : gridPoints w = some ws)
    (h : ∀ x ∈ ks, ∀ y ∈ ws, ∃ v, solve x y = .ok v) : ∃ M, greensSerial solve k w = .ok M := by
  have hk' : floatToList k = .ok ks := by cases k <;> simp_all [gridPoints, floatToList]
  have hw' : floatToList w = .ok ws := by cases w <;> simp_all [gridPoints, floatToList]
  obtain ⟨s, hs⟩ := mapPy_total (f := fun j : R × R => solve j.1 j.2) (l := jobList ks ws) (by
    intro x hx
    unfold jobList at hx
    simp only [List.mem_flatMap, List.mem_map] at hx
    obtain ⟨a, ha, b, hb, rfl⟩ := hx
    exact h a ha b hb)
  obtain ⟨M, hM⟩ := reshapeGrid_length (s := s) (r := ks.length) (c := ws.length)
    (by rw [(mapPy_ok hs).1, jobList_length])
  exact ⟨M, by simp [greensSerial, hk', hw', bind, Except.bind, hs, hM]⟩

/-- C26: on every communicator, rank 0 returns the serial result and the other ranks `None`; a failure
of the serial calculation is the failure of the parallel one. -/
theorem C26_parallel (solve : R → R → Py V) (n : Nat) (hn : 1 ≤ n) (k w : GridArg R) :
    greensMPI solve n k w = (greensSerial solve k w).map (fun M => some M :: List.replicate (n - 1) none) := by
  unfold greensMPI greensSerial
  cases floatToList k with
  | error e => rfl
  | ok ks =>
    cases floatToList w with
    | error e => rfl
    | ok ws =>
      simp only [bind]
      have hr : mapPy (fun rank => (chunkJobs (jobList ks ws) n rank).bind
          (fun mine => mapPy (fun j => solve j.1 j.2) mine)) (List.range n) =
          mapPy (mapPy (fun j => solve j.1 j.2)) ((List.range n).map (fun i =>
            ((jobList ks ws).take (splitOffset (jobList ks ws).length n (i + 1))).drop
              (splitOffset (jobList ks ws).length n i))) := by
        rw [mapPy_map]
        apply mapPy_congr
        intro r hr
        rw [List.mem_range] at hr
        rw [chunkJobs_ok _ _ _ hr]
        rfl
      simp only [Except.bind] at hr ⊢
      simp only [hr]
      have hf := mapPy_flatten (fun j : R × R => solve j.1 j.2) ((List.range n).map (fun i =>
            ((jobList ks ws).take (splitOffset (jobList ks ws).length n (i + 1))).drop
              (splitOffset (jobList ks ws).length n i)))
      rw [flatten_slices (jobList ks ws) (splitOffset (jobList ks ws).length n) (splitOffset_mono _ _)
        (by simp [splitOffset]), splitOffset_last _ _ (by omega), List.take_length] at hf
      rw [← hf]
      cases mapPy (mapPy (fun j : R × R => solve j.1 j.2)) ((List.range n).map (fun i =>
            ((jobList ks ws).take (splitOffset (jobList ks ws).length n (i + 1))).drop
              (splitOffset (jobList ks ws).length n i))) with
      | error e => rfl
      | ok all =>
        simp only [Except.map]
        cases reshapeGrid all.flatten ks.length ws.length with
        | error e => rfl
        | ok M =>
          simp only [pure, Except.pure, Except.ok.injEq]
          obtain ⟨m, rfl⟩ : ∃ m, n = m + 1 := ⟨n - 1, by omega⟩
          rw [List.range_succ_eq_map]
          rw [List.map_cons, List.map_map]
          simp only [if_true, Nat.add_sub_cancel, List.cons.injEq, true_and]
          exact List.ext_getElem (by simp) (by intro i h1 h2; simp)

/-- C26, a restriction of the accepted arguments: a Python integer for `k` or `w` is a `TypeError`. -/
theorem C26_integer_fails (solve : R → R → Py V) (n : Int) (w : GridArg R) :
    greensSerial solve (.int n) w = .error .typeError := rfl

/-- two momenta, three frequencies, four ranks; and more ranks than points -/
example : greensMPI (fun k w => .ok (10 * k + w)) 4 (.seq [1, 2]) (.seq [(3 : ℚ), 4, 5]) =
      .ok [some [[13, 14, 15], [23, 24, 25]], none, none, none] ∧
    greensMPI (fun k w => .ok (10 * k + w)) 3 (.float 1) (.float (2 : ℚ)) =
      .ok [some [[12]], none, none] := by
  decide +kernel

/-! ### C28 -/

/-- C28: with a world size divisible by the brigade size, and when no value is NaN, the result is the
serial result on the grid that is actually used (the requested one, padded if it does not divide evenly
over the brigades); failures included. -/
theorem C28_serial (solve : R → R → Py V) (isNaN : V → Bool) (b : Brigades) (ks ws : List R)
    (hw : 1 ≤ b.world) (hc : b.check = .ok ()) (hnan : ∀ x y v, solve x y = .ok v → isNaN v = false) :
    massGreens solve isNaN b (.seq ks) (.seq ws) =
      (massGrid b ks ws).bind (fun g => greensSerial solve (.seq g.1) (.seq g.2)) := by
  obtain ⟨h1, h2, h3, h4⟩ := b.facts hw hc
  unfold massGreens greensSerial
  simp only [hc, floatToList, bind]
  rw [show ∀ {β : Type} (f : Unit → Py β), Except.bind (.ok ()) f = f () from fun _ => rfl]
  rw [show ∀ {β : Type} (f : List R → Py β), Except.bind (.ok ks) f = f ks from fun _ => rfl]
  rw [show ∀ {β : Type} (f : List R → Py β), Except.bind (.ok ws) f = f ws from fun _ => rfl]
  cases massGrid b ks ws with
  | error e => rfl
  | ok g =>
    obtain ⟨k, w⟩ := g
    rw [show ∀ {β : Type} (f : List R × List R → Py β), Except.bind (.ok (k, w)) f = f (k, w) from fun _ => rfl]
    dsimp only
    obtain ⟨chunk, c1, c2⟩ := b.jobs_ok hw hc (jobList k w)
    have hr : mapPy (fun rank => (b.jobs (jobList k w) rank).bind
        (fun mine => mapPy (fun j => solve j.1 j.2) mine)) (List.range b.world) =
        (mapPy (fun i => mapPy (fun j => solve j.1 j.2) (chunk i)) (List.range b.count)).map
          (fun vs => vs.flatMap (List.replicate b.size)) := by
      rw [← mapPy_brigades _ _ h1, h3]
      apply mapPy_congr
      intro r hr
      rw [List.mem_range] at hr
      rw [c1 r hr]
      rfl
    simp only [Except.bind] at hr ⊢
    rw [hr, ← mapPy_map chunk (mapPy (fun j => solve j.1 j.2))]
    have hf := mapPy_flatten (fun j : R × R => solve j.1 j.2) ((List.range b.count).map chunk)
    rw [c2] at hf
    rw [← hf]
    cases hv : mapPy (mapPy (fun j : R × R => solve j.1 j.2)) ((List.range b.count).map chunk) with
    | error e => rfl
    | ok vs =>
      simp only [Except.map]
      rw [pickCommanders_ok hw hc vs (by rw [(mapPy_ok hv).1]; simp)]
      dsimp only
      congr 1
      rw [List.filter_eq_self]
      intro v hmem
      rw [hv] at hf
      simp only [Except.map] at hf
      obtain ⟨i, hi, rfl⟩ := List.mem_iff_getElem.1 hmem
      obtain ⟨q1, q2⟩ := mapPy_ok hf.symm
      simp [hnan _ _ _ (q2 i (by rw [← q1]; exact hi) hi)]

/-- C28, when the number of points is divisible by the number of brigades: exactly the serial result, of
shape `nk × nw`. What is missing: without divisibility the shape is not `nk × nw`, see
`C28_shape_fails`. -/
theorem C28_divisible_partial (solve : R → R → Py V) (isNaN : V → Bool) (b : Brigades) (ks ws : List R)
    (hw : 1 ≤ b.world) (hc : b.check = .ok ()) (hnan : ∀ x y v, solve x y = .ok v → isNaN v = false)
    (hd : ks.length * ws.length % b.count = 0) :
    massGreens solve isNaN b (.seq ks) (.seq ws) = greensSerial solve (.seq ks) (.seq ws) := by
  rw [C28_serial solve isNaN b ks ws hw hc hnan, massGrid, if_pos hd]
  rfl

/-- C28, in general: every requested point has its value at the requested position. The result can be
larger than the request. What is missing: one-point grids and more than 1000 brigades (C29). -/
theorem C28_values_partial (solve : R → R → Py V) (isNaN : V → Bool) (b : Brigades) (ks ws : List R)
    (hw : 1 ≤ b.world) (hc : b.check = .ok ()) (hnan : ∀ x y v, solve x y = .ok v → isNaN v = false)
    (hb : b.count ≤ 1000) (hg : 2 ≤ ws.length ∨ (ws.length ≤ 1 ∧ 2 ≤ ks.length))
    (htot : ∀ x y, ∃ v, solve x y = .ok v) :
    ∃ M, massGreens solve isNaN b (.seq ks) (.seq ws) = .ok M ∧
      ∀ i (hi : i < ks.length) j (hj : j < ws.length), ∃ row v, M[i]? = some row ∧ row[j]? = some v ∧
        solve ks[i] ws[j] = .ok v := by
  obtain ⟨h1, h2, h3, h4⟩ := b.facts hw hc
  rw [C28_serial solve isNaN b ks ws hw hc hnan]
  have hgrid : ∃ k' w', massGrid b ks ws = .ok (k', w') ∧ (∃ p, k' = ks ++ p) ∧ (∃ p, w' = ws ++ p) := by
    unfold massGrid
    split
    · exact ⟨ks, ws, rfl, ⟨[], by simp⟩, ⟨[], by simp⟩⟩
    · obtain ⟨k', w', e, ⟨p, hp, -⟩, ⟨q, hq, -⟩, -⟩ := C29_padding_partial ks ws b.count 1000 h2 hb hg
      exact ⟨k', w', e, ⟨p, hp⟩, ⟨q, hq⟩⟩
  obtain ⟨k', w', e, ⟨p, rfl⟩, ⟨q, rfl⟩⟩ := hgrid
  rw [e]
  obtain ⟨M, hM⟩ := C26_total solve (.seq (ks ++ p)) (.seq (ws ++ q)) _ _ rfl rfl (fun x _ y _ => htot x y)
  refine ⟨M, hM, ?_⟩
  obtain ⟨_, _, e1, e2, -, hE⟩ := C26_entries solve _ _ M hM
  simp only [gridPoints, Option.some.injEq] at e1 e2
  subst e1 e2
  intro i hi j hj
  obtain ⟨row, r1, -, r2⟩ := hE i (by simp; omega)
  obtain ⟨v, v1, v2⟩ := r2 j (by simp; omega)
  refine ⟨row, v, r1, v1, ?_⟩
  rwa [List.getElem_append_left hi, List.getElem_append_left hj] at v2

/-- C28 is false: three frequencies on two brigades of one rank give a `1 × 4` array, whatever the
solver. -/
theorem C28_shape_fails (f : ℚ → ℚ → V) (isNaN : V → Bool) (hnan : ∀ x y, isNaN (f x y) = false) :
    massGreens (fun k w => .ok (f k w)) isNaN ⟨2, some 1⟩ (.seq [0]) (.seq [1, 2, 3]) =
      .ok [[f 0 1, f 0 2, f 0 3, f 0 4]] := by
  rw [C28_serial _ _ _ _ _ (by decide) (by decide) (by
    intro x y v h; simp only [Except.ok.injEq] at h; rw [← h]; exact hnan x y)]
  have hg : massGrid ⟨2, some 1⟩ [(0 : ℚ)] [1, 2, 3] = .ok ([0], [1, 2, 3, 4]) := by decide +kernel
  rw [hg]
  simp only [Except.bind, greensSerial, floatToList, bind, mapPy_pure]
  simp [jobList, reshapeGrid]

/-- C28 is false for a single point on more than one brigade: padding fails. -/
theorem C28_single_point_fails (solve : R → R → Py V) (isNaN : V → Bool) (k w : R) (n : Nat) (hn : 2 ≤ n) :
    massGreens solve isNaN ⟨n, some 1⟩ (.float k) (.float w) = .error .indexError := by
  unfold massGreens massGrid
  simp only [Brigades.check, Nat.mod_one, floatToList, bind, Except.bind, if_true, Nat.one_ne_zero, if_false]
  rw [if_neg (by simp [Brigades.count, Nat.mod_eq_of_lt (show 1 < n by omega)]), C29_single_point_fails]

/-- C28: a NaN in the results (from an unsuccessful solve) makes the reshapeGrid fail instead of being
returned. -/
theorem C28_nan_fails (v : V) (isNaN : V → Bool) (h : isNaN v = true) (k w : R) :
    massGreens (fun _ _ => .ok v) isNaN ⟨1, none⟩ (.float k) (.float w) = .error .valueError := by
  unfold massGreens massGrid
  simp [Brigades.check, Brigades.count, floatToList, bind, Except.bind, Nat.mod_one, Brigades.jobs, mapPy_pure,
    jobList, pickCommanders, Brigades.size, reshapeGrid, h, mapPy, pure, Except.pure]

/-- The world must split evenly into brigades. -/
theorem C28_uneven_fails (solve : R → R → Py V) (isNaN : V → Bool) (n s : Nat) (hs : s ≠ 0) (h : n % s ≠ 0)
    (k w : GridArg R) : massGreens solve isNaN ⟨n, some s⟩ k w = .error .assertionError := by
  unfold massGreens
  simp [Brigades.check, hs, h, bind, Except.bind]

/-- four ranks in two brigades: 2 × 3 points -/
example : massGreens (fun k w => .ok (10 * k + w)) (fun _ => false) ⟨4, some 2⟩ (.seq [1, 2])
    (.seq [(3 : ℚ), 4, 5]) = .ok [[13, 14, 15], [23, 24, 25]] := by
  decide +kernel

end GGCE.Props
