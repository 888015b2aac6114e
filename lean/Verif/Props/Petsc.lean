import Verif.Proofs.Petsc
import Verif.Proofs.Cache
import Verif.Spec.Dist
import Verif.Props.Solver
import Verif.Props.Spectral

/-!
Properties C30 and C54: the distributed linear system of the PETSc solvers.
-/

set_option linter.unusedSectionVars false

namespace GGCE.Props
open Spec Dict Petsc

variable {R K : Type} [Field R] [LinearOrder R] [Field K]

/-! ### C30 -/

/-- C30, ownership: every row belongs to exactly one rank of the brigade, the ranks own consecutive
ranges, and no rank owns a row that does not exist. -/
theorem C30_ownership (N size : Nat) (hs : 1 ≤ size) :
    (∀ i < N, ∃ r < size, (ownership N size r).owns i = true ∧
      ∀ r', (ownership N size r').owns i = true → r' = r) ∧
    (ownership N size 0).lo = 0 ∧ (ownership N size (size - 1)).hi = N ∧
    (∀ r, (ownership N size r).hi = (ownership N size (r + 1)).lo) ∧
    (∀ r < size, ∀ i, (ownership N size r).owns i = true → i < N) := by
  refine ⟨?_, by simp [ownership_lo, splitOffset], ?_, ?_, ?_⟩
  · intro i hi
    obtain ⟨r, hr, ho⟩ := owner_exists N size i hs hi
    exact ⟨r, hr, ho, fun r' h => owner_unique h ho⟩
  · rw [ownership_hi, Nat.sub_add_cancel hs, splitOffset_last N size (by omega)]
  · intro r
    rw [ownership_hi, ownership_lo]
  · intro r hr i hi
    have h1 := (owns_iff ..).1 hi
    have h2 := splitOffset_mono' N size (Nat.succ_le_of_lt hr)
    rw [splitOffset_last N size (by omega)] at h2
    exact Nat.lt_of_lt_of_le h1.2 h2

example : (List.range 3).map (fun r => ((ownership 8 3 r).lo, (ownership 8 3 r).hi)) = [(0, 3), (3, 6), (6, 8)] := by
  decide +kernel

/-- C30, one rank: for any list of entries with distinct positions inside the matrix, the assembly on each
rank succeeds; the rank sets exactly the entries in its rows; and the preallocated room of each of its rows
is exactly the number of entries of that row in its diagonal block and outside of it. -/
theorem C30_rank (N size : Nat) (ts : List (Nat × Nat × K)) (hnd : (ts.map (fun t => (t.1, t.2.1))).Nodup)
    (hin : ∀ t ∈ ts, t.1 < N ∧ t.2.1 < N) (r : Nat) :
    ∃ (d f : List Nat) (s : Store K), rankAssemble N size ts r = .ok ((d, f), s) ∧
      (s.map Prod.fst).Nodup ∧
      (∀ i j v, ((i, j), v) ∈ s ↔ (i, j, v) ∈ ts ∧ (ownership N size r).owns i = true) ∧
      (∀ i, (ownership N size r).owns i = true →
        d[i - (ownership N size r).lo]? =
          some (s.countP (fun e => e.1.1 = i ∧ (ownership N size r).owns e.1.2 = true)) ∧
        f[i - (ownership N size r).lo]? =
          some (s.countP (fun e => e.1.1 = i ∧ (ownership N size r).owns e.1.2 = false))) := by
  obtain ⟨⟨d, f⟩, h1, h2, h3, h4⟩ := rankAssemble_ok N size ts hnd (fun t ht => (hin t ht).2) r
  refine ⟨d, f, _, h1, ?_, ?_, ?_⟩
  · have : (enc (ownership N size r) ts).map Prod.fst =
        (ts.filter (fun t => (ownership N size r).owns t.1)).map (fun t => (t.1, t.2.1)) := by
      unfold enc
      rw [List.map_map]
      rfl
    rw [this]
    exact hnd.sublist (List.filter_sublist.map _)
  · intro i j v
    constructor
    · intro h
      obtain ⟨⟨a, b, c⟩, ht, he⟩ := List.mem_map.1 h
      simp only [Prod.mk.injEq] at he
      obtain ⟨⟨rfl, rfl⟩, rfl⟩ := he
      exact List.mem_filter.1 ht
    · intro h
      exact List.mem_map.2 ⟨_, List.mem_filter.2 h, rfl⟩
  · intro i hi
    have hr : (ownership N size r).lo ≤ i ∧ i < (ownership N size r).hi := by simpa [Range.owns] using hi
    have hlen : (ownership N size r).hi = (ownership N size r).lo + localSize N size r := rfl
    obtain ⟨k1, k2⟩ := h4 (i - (ownership N size r).lo) (by omega)
    rw [show (ownership N size r).lo + (i - (ownership N size r).lo) = i by omega] at k1 k2
    have key : ∀ b : Bool, cnt (ownership N size r) ts i b =
        (enc (ownership N size r) ts).countP (fun e => e.1.1 = i ∧ (ownership N size r).owns e.1.2 = b) := by
      intro b
      rw [← used_enc _ _ _ hi, used, List.countP_eq_length_filter]
      congr 1
      apply List.filter_congr
      intro e _
      by_cases h1 : e.1.1 = i <;> by_cases h2 : (ownership N size r).owns e.1.2 = b <;> simp [h1, h2]
    simp only at h2 h3 k1 k2
    rw [List.getD_eq_getElem?_getD, List.getElem?_eq_getElem (by omega), Option.getD_some] at k1 k2
    rw [List.getElem?_eq_getElem (by omega), List.getElem?_eq_getElem (by omega), k1, k2, key, key]
    exact ⟨rfl, rfl⟩

/-- C30, the whole brigade: the assembled matrix is the one of the serial solver (`cooEntry`), each entry
is set by exactly one rank, and the right-hand side is `G0` in the last row. -/
theorem C30_assembly (N size : Nat) (hs : 1 ≤ size) (hN : 1 ≤ N) (ts : List (Nat × Nat × K))
    (hnd : (ts.map (fun t => (t.1, t.2.1))).Nodup) (hin : ∀ t ∈ ts, t.1 < N ∧ t.2.1 < N) (G0 : K) :
    ∃ d, assembleDist N size ts G0 = .ok d ∧ d.n = N ∧ d.stores.length = size ∧
      (∀ i j, d.entry i j = cooEntry ts i j) ∧
      (∀ i j v, (i, j, v) ∈ ts → ∃ (r : Nat) (s : Store K), d.stores[r]? = some s ∧ ((i, j), v) ∈ s ∧
        ∀ (r' : Nat) (s' : Store K) (v' : K), d.stores[r']? = some s' → ((i, j), v') ∈ s' → r' = r ∧ v' = v) ∧
      (∀ i, d.rhsAt i = if i + 1 = N then G0 else 0) := by
  refine ⟨_, assembleDist_ok N size ts hnd (fun t ht => (hin t ht).2) G0 hN, rfl, by simp [stores], ?_, ?_, ?_⟩
  · exact entry_stores N size hs ts hnd (fun t ht => (hin t ht).1)
  · intro i j v h
    obtain ⟨r, hr, ho⟩ := owner_exists N size i hs (hin _ h).1
    refine ⟨r, enc (ownership N size r) ts, by simp [stores, hr], ?_, ?_⟩
    · exact List.mem_map.2 ⟨(i, j, v), List.mem_filter.2 ⟨h, ho⟩, rfl⟩
    · intro r' s' v' hs' hm
      have hm' := hm
      simp only [stores, List.getElem?_map, Option.map_eq_some_iff] at hs'
      obtain ⟨a, ha, rfl⟩ := hs'
      obtain ⟨hlt, rfl⟩ := List.getElem?_eq_some_iff.1 ha
      obtain ⟨⟨x, y, z⟩, ht, he⟩ := List.mem_map.1 hm
      simp only [Prod.mk.injEq] at he
      obtain ⟨⟨rfl, rfl⟩, rfl⟩ := he
      have h2 := List.mem_filter.1 ht
      rw [List.getElem_range] at h2
      refine ⟨owner_unique h2.2 ho, ?_⟩
      rw [← cooEntry_of_mem hnd h2.1, ← cooEntry_of_mem hnd h]
  · intro i
    show (Dict.get? (List.replicate size (N - 1, G0)).reverse i).getD 0 = _
    rw [rhs_replicate N size hs]
    by_cases h : i + 1 = N
    · rw [if_pos h, if_pos (by omega)]
    · rw [if_neg h, if_neg (by omega)]

deriving instance DecidableEq for DistSys

/-- three ranks, four rows -/
example : assembleDist 4 3 [(0, 0, (1 : ℚ)), (1, 0, 2), (1, 1, 1), (2, 2, 1), (3, 0, 5), (3, 3, 1)] 7 =
    .ok ⟨4, [[((0, 0), 1), ((1, 0), 2), ((1, 1), 1)], [((2, 2), 1)], [((3, 0), 5), ((3, 3), 1)]],
      [(3, 7), (3, 7), (3, 7)]⟩ := by
  decide +kernel

/-- For a built system, what `petscScaffold` produces. -/
theorem petscScaffold_ok (σ : SetOrder) (m : Model R) (ae : Int) (hm : WellFormed m ae) (b : Built R)
    (hb : buildSystem σ m = .ok b) (F : Phys R K) (p : Point R) (size : Nat) (hs : 1 ≤ size) :
    ∃ ls d, scaffold F m p (fullBasis b.eqs) b.eqs = .ok ls ∧
      petscScaffold F m p (fullBasis b.eqs) b.eqs size = .ok d ∧ d.n = (allEqs b.eqs).length ∧
      (∀ x, DistSolution d x ↔ Solution ls (allEqs b.eqs).length x) ∧ ls.rhsRow + 1 = d.n := by
  have h := ready_of_built hm hb
  obtain ⟨T, h1, h2, h3, -⟩ := h.sparse F p
  have hpos := h.length_pos
  have hlen : (fullBasis b.eqs).length = (allEqs b.eqs).length := by rw [fullBasis_eq h.nodup]; simp
  obtain ⟨d, e1, e2, -, e3, -, e4⟩ := C30_assembly (allEqs b.eqs).length size hs hpos T h2 h3
    (F.G0 p.k p.w m.latticeConstant p.eta m.ham.hopping)
  refine ⟨_, d, h.scaffold F p h1, ?_, e2, ?_, ?_⟩
  · unfold petscScaffold
    rw [h1, hlen]
    exact e1
  · intro x
    unfold DistSolution Solution
    simp only [e2, e3, e4]
    constructor
    · intro hx i hi
      rw [hx i hi]
      by_cases hc : i + 1 = (allEqs b.eqs).length
      · rw [if_pos hc, if_pos (by omega)]
      · rw [if_neg hc, if_neg (by omega)]
    · intro hx i hi
      rw [hx i hi]
      by_cases hc : i + 1 = (allEqs b.eqs).length
      · rw [if_pos hc, if_pos (by omega)]
      · rw [if_neg hc, if_neg (by omega)]
  · rw [e2]
    simp only
    omega

/-- C30 for the solver: on every brigade that has at most as many ranks as there are equations, an exact
parallel solver gives the value `G` an exact serial solver gives, provided the linear system has exactly one
solution. What is missing: larger brigades (`C30_large_brigade_fails`). -/
theorem C30_solve_partial (σ : SetOrder) (m : Model R) (ae : Int) (hm : WellFormed m ae) (b : Built R)
    (hb : buildSystem σ m = .ok b) (F : Phys R K) (p : Point R) (size : Nat) (hs : 1 ≤ size)
    (hN : size ≤ (allEqs b.eqs).length) (ls : LinSys K) (hls : scaffold F m p (fullBasis b.eqs) b.eqs = .ok ls)
    (hex : ∃ x, Solution ls (allEqs b.eqs).length x)
    (hun : ∀ x y, Solution ls (allEqs b.eqs).length x → Solution ls (allEqs b.eqs).length y →
      ∀ i < (allEqs b.eqs).length, x i = y i)
    (ksp : DistSys K → Py (List K)) (hk : DistExact ksp) (spsolve : LinSys K → Py (Nat → K)) (hsp : Exact spsolve) :
    ∃ G, GreenValue F m p b.eqs G ∧ petscSolve F m p (fullBasis b.eqs) b.eqs ksp size = .ok G ∧
      sparseSolve F m p (fullBasis b.eqs) b.eqs spsolve = .ok G := by
  obtain ⟨ls', d, e1, e2, e3, e4, e5⟩ := petscScaffold_ok σ m ae hm b hb F p size hs
  rw [hls] at e1
  cases e1
  obtain ⟨l, k1, k2, k3⟩ := hk d (hex.imp fun x hx => (e4 x).2 hx) (fun x y hx hy => by
    rw [e3]; exact hun x y ((e4 x).1 hx) ((e4 y).1 hy))
  have hsol := (e4 _).1 k3
  refine ⟨l.getD ls.rhsRow 0, ⟨ls, _, hls, hsol, rfl⟩, ?_, ?_⟩
  · unfold petscSolve
    rw [e2]
    simp only [bind, Except.bind, k1]
    rw [readG_ok d.n size hs (by omega) l k2, List.getD_eq_getElem?_getD, List.getElem?_eq_getElem (by omega),
      Option.getD_some]
    simp only [← e5, Nat.add_sub_cancel]
  · obtain ⟨c, ls', -, hls', -, hr, hc, -, hrow, -⟩ := C19_sparse_matrix σ m ae hm b hb F p
    rw [hls] at hls'
    cases hls'
    obtain ⟨x, hx1, hx2⟩ := hsp _ _ hr hc hrow hex hun
    unfold sparseSolve
    rw [hls]
    simp only [bind, Except.bind, hx1, (ready_of_built hm hb).green_ix]
    have hi : (allEqs b.eqs).length - 1 = ls.rhsRow := by omega
    rw [hi, hun x _ hx2 hsol ls.rhsRow (by omega)]
    rfl

/-- C30 with the coefficients of the code: for every physical model and every point with `eta > 0` the three
solvers (parallel, sparse, dense) agree. -/
theorem C30_physical_partial (σ : SetOrder) (m : Model ℝ) (ae : Int) (hm : WellFormed m ae) (b : Built ℝ)
    (hb : buildSystem σ m = .ok b) (hp : Physical m) (p : Point ℝ) (heta : 0 < p.eta) (size : Nat)
    (hs : 1 ≤ size) (hN : size ≤ (allEqs b.eqs).length) (ksp : DistSys ℂ → Py (List ℂ)) (hk : DistExact ksp) :
    ∃ G, petscSolve realPhys m p (fullBasis b.eqs) b.eqs ksp size = .ok G ∧
      denseSolve realPhys m p (localBasis b.eqs) b.eqs = .ok (some G) ∧
      ∀ spsolve, Exact spsolve → sparseSolve realPhys m p (fullBasis b.eqs) b.eqs spsolve = .ok G := by
  obtain ⟨ls, G, h1, -, h3, h4, h5, h6⟩ := C22_nonsingular σ m ae hm b hb hp p heta
  obtain ⟨sp, hsp⟩ := exists_exact (K := ℂ)
  obtain ⟨G', -, k1, k2⟩ := C30_solve_partial σ m ae hm b hb realPhys p size hs hN ls h1 h3 h4 ksp hk sp hsp
  rw [h5 sp hsp] at k2
  cases k2
  exact ⟨G, k1, h6, h5⟩

open Classical in
/-- exact parallel solvers exist -/
theorem exists_distExact : ∃ ksp : DistSys K → Py (List K), DistExact ksp := by
  refine ⟨fun d => if h : ∃ x, DistSolution d x then .ok ((List.range d.n).map h.choose) else .error .linAlgError, ?_⟩
  intro d hex _
  refine ⟨(List.range d.n).map hex.choose, dif_pos hex, by simp, ?_⟩
  intro i hi
  rw [← hex.choose_spec i hi]
  apply Finset.sum_congr rfl
  intro j hj
  rw [Finset.mem_range] at hj
  simp [List.getD_eq_getElem?_getD, hj]

/-- C30 is false for brigades with more ranks than equations: the last rank owns no row and
`G_vec[brigade_size - 1][-1]` raises an `IndexError`, whatever the solution is. -/
theorem C30_large_brigade_fails (σ : SetOrder) (m : Model R) (ae : Int) (hm : WellFormed m ae) (b : Built R)
    (hb : buildSystem σ m = .ok b) (F : Phys R K) (p : Point R) (size : Nat)
    (hN : (allEqs b.eqs).length < size) (ksp : DistSys K → Py (List K)) (hk : ∀ d, ∃ l, ksp d = .ok l) :
    petscSolve F m p (fullBasis b.eqs) b.eqs ksp size = .error .indexError := by
  obtain ⟨ls', d, -, e2, e3, -⟩ := petscScaffold_ok σ m ae hm b hb F p size (by omega)
  obtain ⟨l, hl⟩ := hk d
  unfold petscSolve
  rw [e2]
  simp only [bind, Except.bind, hl]
  exact readG_few _ _ (by omega) _

/-! ### C54 -/

section Disk
variable [IsStrictOrderedRing R] [FloorRing R]

/-- C54, file names: two points share a matrix file exactly if they share a result file. -/
theorem C54_names (p q : Point R) : matName p = matName q ↔ cacheKey p = cacheKey q := by
  rw [cacheKey_eq_iff]
  constructor
  · intro h
    unfold matName at h
    simp only [List.append_assoc] at h
    obtain ⟨a1, a2, h⟩ := fmt10_inj (List.append_cancel_left h)
    obtain ⟨b1, b2, h⟩ := fmt10_inj (List.append_cancel_left h)
    obtain ⟨c1, c2, -⟩ := fmt10_inj (List.append_cancel_left h)
    exact ⟨⟨a1, a2⟩, ⟨b1, b2⟩, ⟨c1, c2⟩⟩
  · rintro ⟨h1, h2, h3⟩
    unfold matName
    rw [fmt10_eq_iff.2 h1, fmt10_eq_iff.2 h2, fmt10_eq_iff.2 h3]

/-- What a directory holds after preparation: the matrices of the prepared points on top of what was
there. -/
theorem prepareAll_ok (F : Phys R K) (m : Model R) (basis : Dict PyStr Nat) (eqs : Dict Nat (List (Equation R)))
    (T : Point R → List (Nat × Nat × K)) (hT : ∀ p, sparseTriples F m p basis eqs = .ok (T p)) (ps : List (Point R))
    (dir : MatDir K) :
    ∃ dir', prepareAll F m basis eqs ps dir = .ok dir' ∧
      (∀ f ∈ dir', f ∈ dir ∨ ∃ p ∈ ps, f = (matName p, T p)) ∧
      (∀ p ∈ ps, (∀ q ∈ ps, matName q = matName p → q = p) → dir'.get? (matName p) = some (T p)) ∧
      (∀ n, (∀ q ∈ ps, matName q ≠ n) → dir'.get? n = dir.get? n) ∧ (ps ≠ [] → dir' ≠ []) ∧
      (dir ≠ [] → dir' ≠ []) := by
  induction ps generalizing dir with
  | nil => exact ⟨dir, rfl, by simp, by simp, by simp, by simp, by simp⟩
  | cons p ps ih =>
    obtain ⟨dir', h1, h2, h3, h4, h5, h6⟩ := ih (dir.set (matName p) (T p))
    have hne : dir.set (matName p) (T p) ≠ [] := by
      cases dir with
      | nil => simp [Dict.set]
      | cons a l => obtain ⟨x, y⟩ := a; simp only [Dict.set]; split <;> simp
    refine ⟨dir', ?_, ?_, ?_, ?_, fun _ => h6 hne, fun _ => h6 hne⟩
    · simp only [prepareAll, prepareSystem, hT, bind, Except.bind, pure, Except.pure]
      exact h1
    · intro f hf
      have hset : ∀ (d : MatDir K) (f : PyStr × List (Nat × Nat × K)), f ∈ d.set (matName p) (T p) →
          f ∈ d ∨ f = (matName p, T p) := by
        intro d
        induction d with
        | nil => intro f hf; right; simpa [Dict.set] using hf
        | cons a l ihl =>
          intro f hf
          obtain ⟨x, y⟩ := a
          simp only [Dict.set] at hf
          split at hf
          · rename_i hx
            rcases List.mem_cons.1 hf with rfl | hf
            · right; rw [hx]
            · left; simp [hf]
          · rcases List.mem_cons.1 hf with rfl | hf
            · left; simp
            · rcases ihl f hf with h | h
              · left; simp [h]
              · right; exact h
      rcases h2 f hf with h | ⟨q, hq, rfl⟩
      · rcases hset _ _ h with h | h
        · exact Or.inl h
        · exact Or.inr ⟨p, by simp, h⟩
      · exact Or.inr ⟨q, by simp [hq], rfl⟩
    · intro q hq hinj
      by_cases hin : q ∈ ps
      · exact h3 q hin (fun r hr => hinj r (by simp [hr]))
      · have hqp : q = p := by
          rcases List.mem_cons.1 hq with h | h
          · exact h
          · exact absurd h hin
        subst hqp
        rw [h4, get?_set, if_pos rfl]
        intro r hr hname
        exact hin (hinj r (by simp [hr]) hname ▸ hr)
    · intro n hn
      rw [h4 n (fun q hq => hn q (by simp [hq])), get?_set, if_neg (hn p (by simp))]

theorem sparse_all (σ : SetOrder) (m : Model R) (ae : Int) (hm : WellFormed m ae) (b : Built R)
    (hb : buildSystem σ m = .ok b) (F : Phys R K) :
    ∃ T : Point R → List (Nat × Nat × K), (∀ p, sparseTriples F m p (fullBasis b.eqs) b.eqs = .ok (T p)) ∧
      ∀ p, T p ≠ [] ∧ cooRows (T p) = (allEqs b.eqs).length := by
  have h := ready_of_built hm hb
  choose T hT using fun p => h.sparse F p
  refine ⟨T, fun p => (hT p).1, ?_⟩
  intro p
  obtain ⟨c, ls, -, h1, -, h2, -⟩ := C19_sparse_matrix σ m ae hm b hb F p
  rw [h.scaffold F p (hT p).1] at h1
  cases h1
  refine ⟨?_, h2⟩
  intro hnil
  have := (hT p).2.2.2.1 0 h.length_pos
  rw [hnil] at this
  simp at this

/-- C54, one point: after preparing any points on an empty directory, solving a prepared point from the
directory is the same as building its matrix at once, for every brigade size, every solver, and every choice
of the sample files from which the ranks infer the matrix size. (Two points with the same file name: the
last one prepared wins, so they are excluded.) -/
theorem C54_point (σ : SetOrder) (m : Model R) (ae : Int) (hm : WellFormed m ae) (b : Built R)
    (hb : buildSystem σ m = .ok b) (F : Phys R K) (ps : List (Point R)) :
    ∃ dir, prepareAll F m (fullBasis b.eqs) b.eqs ps [] = .ok dir ∧
      ∀ p ∈ ps, (∀ q ∈ ps, matName q = matName p → q = p) → ∀ (size : Nat), 1 ≤ size →
        ∀ (ksp : DistSys K → Py (List K)) (picks : Nat → Nat),
        petscSolveDisk F m p dir ksp size picks = petscSolve F m p (fullBasis b.eqs) b.eqs ksp size := by
  obtain ⟨T, hT, hT'⟩ := sparse_all σ m ae hm b hb F
  obtain ⟨dir, h1, h2, h3, -, h5, -⟩ := prepareAll_ok F m (fullBasis b.eqs) b.eqs T hT ps []
  refine ⟨dir, h1, ?_⟩
  intro p hp hinj size hs ksp picks
  have hne : dir ≠ [] := h5 (List.ne_nil_of_mem hp)
  have hsize : ∀ r, matrSize dir (picks r) = .ok (allEqs b.eqs).length := by
    intro r
    unfold matrSize
    rw [if_neg hne]
    have hlt : picks r % dir.length < dir.length := Nat.mod_lt _ (List.length_pos_iff.2 hne)
    rw [List.getElem?_eq_getElem hlt]
    simp only
    rcases h2 _ (List.getElem_mem hlt) with h | ⟨q, hq, he⟩
    · simp at h
    · rw [he, if_neg (hT' q).1, (hT' q).2]
  have hlen : (fullBasis b.eqs).length = (allEqs b.eqs).length := by
    rw [fullBasis_eq (ready_of_built hm hb).nodup]; simp
  have hmap : mapPy (fun r => matrSize dir (picks r)) (List.range size) =
      .ok (List.replicate size (allEqs b.eqs).length) := by
    rw [mapPy_congr (g := fun _ => .ok (allEqs b.eqs).length) (fun r _ => hsize r), mapPy_pure]
    simp
  obtain ⟨n, rfl⟩ : ∃ n, size = n + 1 := ⟨size - 1, by omega⟩
  unfold petscSolveDisk petscSolve
  have : scaffoldFromDisk F m p dir (n + 1) picks = petscScaffold F m p (fullBasis b.eqs) b.eqs (n + 1) := by
    unfold scaffoldFromDisk petscScaffold
    rw [hmap, h3 p hp hinj, hT, hlen]
    simp only [bind, Except.bind, List.replicate_succ]
    rw [if_pos (by simp)]
  rw [this]

omit [LinearOrder R] [IsStrictOrderedRing R] [FloorRing R] in
/-- the jobs of a rank are points of the grid -/
theorem brigade_job_mem {b : Brigades} (hw : 1 ≤ b.world) (hc : b.check = .ok ()) {k w : List R}
    {chunk : Nat → List (R × R)} (c2 : ((List.range b.count).map chunk).flatten = jobList k w) (r : Nat)
    (hr : r < b.world) {x y : R} (hj : (x, y) ∈ chunk (r / b.size)) : x ∈ k ∧ y ∈ w := by
  obtain ⟨h1, h2, h3, h4⟩ := b.facts hw hc
  have hlt : r / b.size < b.count := by rw [Nat.div_lt_iff_lt_mul h1, h3]; exact hr
  have : (x, y) ∈ jobList k w := by
    rw [← c2]
    exact List.mem_flatten.2 ⟨_, List.mem_map.2 ⟨_, List.mem_range.2 hlt, rfl⟩, hj⟩
  obtain ⟨x', hx, h⟩ := List.mem_flatMap.1 this
  obtain ⟨y', hy, h⟩ := List.mem_map.1 h
  simp only [Prod.mk.injEq] at h
  obtain ⟨rfl, rfl⟩ := h
  exact ⟨hx, hy⟩

/-- replacing the solver by one that agrees on the grid does not change the result -/
theorem massGreens_congr {V : Type} {solve solve' : R → R → Py V} (isNaN : V → Bool) (b : Brigades) (ks ws : List R)
    (hw : 1 ≤ b.world) (hc : b.check = .ok ())
    (h : ∀ g, massGrid b ks ws = .ok g → ∀ x ∈ g.1, ∀ y ∈ g.2, solve x y = solve' x y) :
    massGreens solve isNaN b (.seq ks) (.seq ws) = massGreens solve' isNaN b (.seq ks) (.seq ws) := by
  unfold massGreens
  simp only [hc, floatToList, bind, Except.bind]
  cases hg : massGrid b ks ws with
  | error e => rfl
  | ok g =>
    obtain ⟨k, w⟩ := g
    simp only
    obtain ⟨chunk, c1, c2⟩ := b.jobs_ok hw hc (jobList k w)
    have : mapPy (fun rank => (b.jobs (jobList k w) rank).bind
        (fun mine => mapPy (fun j => solve j.1 j.2) mine)) (List.range b.world) =
        mapPy (fun rank => (b.jobs (jobList k w) rank).bind
        (fun mine => mapPy (fun j => solve' j.1 j.2) mine)) (List.range b.world) := by
      apply mapPy_congr
      intro rank hr
      rw [List.mem_range] at hr
      rw [c1 rank hr]
      simp only [Except.bind]
      apply mapPy_congr
      rintro ⟨x, y⟩ hj
      obtain ⟨h1, h2⟩ := brigade_job_mem hw hc c2 rank hr hj
      exact h _ hg x h1 y h2
    simp only [Except.bind] at this ⊢
    rw [this]

/-- C54: after `prepare_greens_function` on an empty directory, `greens_function` with the same grid and
the same layout gives from the directory what it gives without one. -/
theorem C54_greens (σ : SetOrder) (m : Model R) (ae : Int) (hm : WellFormed m ae) (bt : Built R)
    (hb : buildSystem σ m = .ok bt) (F : Phys R K) (b : Brigades) (ks ws : List R) (eta : R) (hw : 1 ≤ b.world)
    (hc : b.check = .ok ()) (k w : List R) (hg : massGrid b ks ws = .ok (k, w))
    (hinj : ∀ x ∈ k, ∀ y ∈ w, ∀ x' ∈ k, ∀ y' ∈ w, matName (R := R) ⟨x, y, eta⟩ = matName ⟨x', y', eta⟩ → x = x' ∧ y = y')
    (ksp : DistSys K → Py (List K)) (picks : Nat → Nat) (isNaN : K → Bool) :
    ∃ dir, massPrepare F m (fullBasis bt.eqs) bt.eqs b (.seq ks) (.seq ws) eta [] = .ok dir ∧
      massGreens (fun x y => petscSolveDisk F m ⟨x, y, eta⟩ dir ksp b.size picks) isNaN b (.seq ks) (.seq ws) =
      massGreens (fun x y => petscSolve F m ⟨x, y, eta⟩ (fullBasis bt.eqs) bt.eqs ksp b.size) isNaN b (.seq ks)
        (.seq ws) := by
  obtain ⟨h1, h2, h3, h4⟩ := b.facts hw hc
  obtain ⟨chunk, c1, c2⟩ := b.jobs_ok hw hc (jobList k w)
  have hmine : mapPy (b.jobs (jobList k w)) (List.range b.world) =
      .ok ((List.range b.world).map (fun r => chunk (r / b.size))) := by
    rw [mapPy_congr (g := fun r => .ok (chunk (r / b.size))), mapPy_pure]
    intro r hr
    exact c1 r (List.mem_range.1 hr)
  obtain ⟨dir, k1, k2⟩ := C54_point σ m ae hm bt hb F
    (((List.range b.world).map (fun r => chunk (r / b.size))).flatten.map (fun j => ⟨j.1, j.2, eta⟩))
  refine ⟨dir, ?_, ?_⟩
  · unfold massPrepare
    simp only [hc, floatToList, bind, Except.bind, hg, hmine]
    exact k1
  · apply massGreens_congr isNaN b ks ws hw hc
    rintro g hg' x hx y hy
    rw [hg] at hg'
    cases hg'
    simp only at hx hy
    refine k2 ⟨x, y, eta⟩ ?_ ?_ b.size h1 ksp picks
    · refine List.mem_map.2 ⟨(x, y), ?_, rfl⟩
      have hj : (x, y) ∈ jobList k w := List.mem_flatMap.2 ⟨x, hx, List.mem_map.2 ⟨y, hy, rfl⟩⟩
      rw [← c2] at hj
      obtain ⟨l, hl, hj⟩ := List.mem_flatten.1 hj
      obtain ⟨i, hi, rfl⟩ := List.mem_map.1 hl
      rw [List.mem_range] at hi
      have hlt : i * b.size < b.world := by rw [← h3]; exact Nat.mul_lt_mul_of_pos_right hi h1
      refine List.mem_flatten.2 ⟨chunk i, List.mem_map.2 ⟨i * b.size, List.mem_range.2 hlt, ?_⟩, hj⟩
      rw [Nat.mul_div_cancel _ h1]
    · rintro q hq hname
      obtain ⟨⟨x', y'⟩, hj, rfl⟩ := List.mem_map.1 hq
      obtain ⟨l, hl, hj⟩ := List.mem_flatten.1 hj
      obtain ⟨r, hr, rfl⟩ := List.mem_map.1 hl
      obtain ⟨m1, m2⟩ := brigade_job_mem hw hc c2 r (List.mem_range.1 hr) hj
      obtain ⟨rfl, rfl⟩ := hinj x' m1 y' m2 x hx y hy hname
      rfl

/-- The file name does not identify the model: a solver for another model with the same lattice constant
and hopping, given the directory, returns the results of the model the directory was prepared for. -/
theorem C54_other_model_fails (σ : SetOrder) (m : Model R) (ae : Int) (hm : WellFormed m ae) (b : Built R)
    (hb : buildSystem σ m = .ok b) (F : Phys R K) (ps : List (Point R)) (m' : Model R)
    (hl : m'.latticeConstant = m.latticeConstant) (hh : m'.ham.hopping = m.ham.hopping) :
    ∃ dir, prepareAll F m (fullBasis b.eqs) b.eqs ps [] = .ok dir ∧
      ∀ p ∈ ps, (∀ q ∈ ps, matName q = matName p → q = p) → ∀ (size : Nat), 1 ≤ size →
        ∀ (ksp : DistSys K → Py (List K)) (picks : Nat → Nat),
        petscSolveDisk F m' p dir ksp size picks = petscSolve F m p (fullBasis b.eqs) b.eqs ksp size := by
  obtain ⟨dir, h1, h2⟩ := C54_point σ m ae hm b hb F ps
  refine ⟨dir, h1, ?_⟩
  intro p hp hinj size hs ksp picks
  rw [← h2 p hp hinj size hs ksp picks]
  unfold petscSolveDisk scaffoldFromDisk
  rw [hl, hh]

/-- A directory shared by two systems with different numbers of equations cannot be used by a brigade of
two or more ranks: for some choice of the sample files, the ranks disagree about the size. -/
theorem C54_mixed_fails (F : Phys R K) (m : Model R) (p : Point R) (dir : MatDir K) (f g : PyStr × List (Nat × Nat × K))
    (hf : f ∈ dir) (hg : g ∈ dir) (hf0 : f.2 ≠ []) (hg0 : g.2 ≠ []) (hfg : cooRows f.2 ≠ cooRows g.2)
    (hp : dir.get? (matName p) ≠ none) (size : Nat) (hs : 2 ≤ size) (ksp : DistSys K → Py (List K)) :
    ∃ picks, petscSolveDisk F m p dir ksp size picks = .error .runtimeError := by
  obtain ⟨i, hi, hi'⟩ := List.mem_iff_getElem.1 hf
  obtain ⟨j, hj, hj'⟩ := List.mem_iff_getElem.1 hg
  have hne : dir ≠ [] := List.ne_nil_of_mem hf
  refine ⟨fun r => if r = 0 then i else j, ?_⟩
  have hsz : ∀ r, matrSize dir (if r = 0 then i else j) = .ok (if r = 0 then cooRows f.2 else cooRows g.2) := by
    intro r
    unfold matrSize
    rw [if_neg hne]
    by_cases hr : r = 0
    · simp only [hr, if_true]
      rw [Nat.mod_eq_of_lt hi, List.getElem?_eq_getElem hi, hi']
      simp [hf0]
    · simp only [hr, if_false]
      rw [Nat.mod_eq_of_lt hj, List.getElem?_eq_getElem hj, hj']
      simp [hg0]
  obtain ⟨n, rfl⟩ : ∃ n, size = n + 2 := ⟨size - 2, by omega⟩
  cases hget : dir.get? (matName p) with
  | none => exact absurd hget hp
  | some ts =>
    unfold petscSolveDisk scaffoldFromDisk
    rw [mapPy_congr (fun r _ => hsz r), mapPy_pure, hget, List.range_succ_eq_map, List.range_succ_eq_map]
    simp [bind, Except.bind, Ne.symm hfg]

end Disk

/-- The small model has two equations, so brigades of one and two ranks work and three ranks fail: with a
solver that happens to return `[5, 7]`, the value read back is `7`. -/
example : (allEqs exSmallBuilt.eqs).length = 2 ∧
    petscSolve exPhys exSmall ⟨0, 3, 1⟩ (fullBasis exSmallBuilt.eqs) exSmallBuilt.eqs (fun _ => .ok [5, 7]) 1 = .ok 7 ∧
    petscSolve exPhys exSmall ⟨0, 3, 1⟩ (fullBasis exSmallBuilt.eqs) exSmallBuilt.eqs (fun _ => .ok [5, 7]) 2 = .ok 7 ∧
    petscSolve exPhys exSmall ⟨0, 3, 1⟩ (fullBasis exSmallBuilt.eqs) exSmallBuilt.eqs (fun _ => .ok [5, 7]) 3 =
      .error .indexError := by
  decide +kernel

/-- its assembled system on two ranks -/
example : petscScaffold exPhys exSmall ⟨0, 3, 1⟩ (fullBasis exSmallBuilt.eqs) exSmallBuilt.eqs 2 =
    .ok ⟨2, [[((0, 1), -2), ((0, 0), 1)], [((1, 0), -2), ((1, 1), 1)]], [(1, 2), (1, 2)]⟩ := by
  decide +kernel

/-- preparing two points with two brigades writes two files, with the names of the code -/
example : (massPrepare exPhys exSmall (fullBasis exSmallBuilt.eqs) exSmallBuilt.eqs ⟨2, some 1⟩ (.seq [0, -1 / 4])
    (.seq [3]) 1 []).map (fun d => d.map (fun f => String.ofList f.1)) =
    .ok ["matr_at_k_0.0000000000_w_3.0000000000_e_1.0000000000.pkl",
      "matr_at_k_-0.2500000000_w_3.0000000000_e_1.0000000000.pkl"] := by
  decide +kernel

end GGCE.Props
