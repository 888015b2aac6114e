import Verif.Proofs.Stages
import Verif.Props.Petsc
import Verif.Props.Crew

/-!
Property C119: preparing the matrices and solving from them in one parallel program.
-/

set_option linter.unusedSectionVars false

namespace GGCE.Props
open Spec Dict Petsc Stage

variable {R K : Type} [Field R] [LinearOrder R] [IsStrictOrderedRing R] [FloorRing R] [Field K]

/-- **C119**, the part that holds, for any program in two stages: if the second constructor splits the communicator
(or there is one rank), then in every interleaving no rank stops with an exception; once a rank is in the second stage,
no matrix file is open for writing and the matrix of every job is there, complete; something can move unless all have
finished; every move uses up part of a bounded amount of work; and at the end every rank has the right value for every
job of its brigade. -/
theorem C119_stages_partial (P : Program R K) (N : Nat) (f : Point R → K) (files : Files K) (S : Stage.Sound P N f files)
    (c : Stage.World K) (hc : Stage.Steps P (Stage.World.start files) c) :
    (∀ r < P.world, c.phase r ≠ .failed) ∧
    (∀ r < P.world, (c.phase r).late = true → ∀ r' < P.world, (∀ i, c.phase r' ≠ .writing i) ∧
      ∀ p ∈ P.second r', c.files.get? (matName p) = some (some (P.matrix p))) ∧
    (¬ Stage.Final P c → ∃ d, Stage.Step P c d) ∧
    (∀ d, Stage.Step P c d → Stage.work P d < Stage.work P c) ∧
    (Stage.Final P c → ∀ r < P.world, c.done r = (P.second r).map f) := by
  have h := (Stage.Inv.start files).steps S hc
  refine ⟨?_, ?_, h.progress S, fun d hd => h.decreases S hd, ?_⟩
  · intro r hr he
    have := h.rank r hr
    rw [he] at this
    exact this
  · intro r hr hl r' hr'
    have hall := h.allLate hr hl
    refine ⟨?_, (h.complete S hall).2 r' hr'⟩
    intro i hw
    have := hall r' hr'
    rw [hw] at this
    cases this
  · intro hf r hr
    have := h.rank r hr
    rw [hf r hr] at this
    rw [this.2, List.take_length]

omit [IsStrictOrderedRing R] [FloorRing R] in
/-- ranks that have read the same matrix and inferred its size assemble the system of `assembleDist` -/
theorem solveLoaded_same (F : Phys R K) (m : Model R) (ksp : DistSys K → Py (List K)) (size N : Nat) (hs : 1 ≤ size)
    (p : Point R) (ts : List (Nat × Nat × K)) :
    solveLoaded F m ksp size (List.replicate size (N, p, ts)) = (do
      let d ← assembleDist N size ts (F.G0 p.k p.w m.latticeConstant p.eta m.ham.hopping)
      let x ← ksp d
      readG d.n size x) := by
  obtain ⟨n, rfl⟩ : ∃ n, size = n + 1 := ⟨size - 1, by omega⟩
  have hzip : ∀ (l : List Nat), mapPy (fun x : (Nat × Point R × List (Nat × Nat × K)) × Nat =>
      rankAssemble N (n + 1) x.1.2.2 x.2) ((List.replicate l.length (N, p, ts)).zip l) =
      mapPy (rankAssemble N (n + 1) ts) l := by
    intro l
    induction l with
    | nil => rfl
    | cons a l ih =>
      simp only [List.length_cons, List.replicate_succ, List.zip_cons_cons, mapPy]
      rw [ih]
  have h := hzip (List.range (n + 1))
  rw [List.length_range] at h
  unfold assembleDist
  rw [List.replicate_succ] at h ⊢
  simp only [solveLoaded, List.all_replicate]
  rw [if_pos (by simp), h]
  simp only [bind, Except.bind]
  cases mapPy (rankAssemble N (n + 1) ts) (List.range (n + 1)) with
  | error e => rfl
  | ok rs =>
    simp only [pure, Except.pure, List.map_cons, List.map_replicate, List.replicate_succ]

/-- the jobs of a rank -/
theorem pointsOf_ok {b : Brigades} (hw : 1 ≤ b.world) (hb : b.check = .ok ()) (k w : List R) (eta : R) :
    (∀ r < b.world, ∀ s, s / b.size = r / b.size → s < b.world ∧ pointsOf b k w eta s = pointsOf b k w eta r) ∧
    (∀ r < b.world, ∀ p ∈ pointsOf b k w eta r, p.k ∈ k ∧ p.w ∈ w ∧ p.eta = eta) ∧
    (∀ x ∈ k, ∀ y ∈ w, ∃ r < b.world, (⟨x, y, eta⟩ : Point R) ∈ pointsOf b k w eta r) := by
  obtain ⟨h1, h2, h3, h4⟩ := b.facts hw hb
  obtain ⟨chunk, c1, c2⟩ := b.jobs_ok hw hb (jobList k w)
  have hp : ∀ r < b.world, pointsOf b k w eta r = (chunk (r / b.size)).map (fun x => ⟨x.1, x.2, eta⟩) := by
    intro r hr
    simp only [pointsOf, c1 r hr]
  refine ⟨?_, ?_, ?_⟩
  · intro r hr s hs
    have hlt : s < b.world := by
      rw [← h3, ← Nat.div_lt_iff_lt_mul h1, hs, Nat.div_lt_iff_lt_mul h1, h3]
      exact hr
    exact ⟨hlt, by rw [hp s hlt, hp r hr, hs]⟩
  · intro r hr p hpm
    rw [hp r hr] at hpm
    obtain ⟨⟨x, y⟩, hx, rfl⟩ := List.mem_map.1 hpm
    obtain ⟨hk, hy⟩ := brigade_job_mem hw hb c2 r hr hx
    exact ⟨hk, hy, rfl⟩
  · intro x hx y hy
    have hj : (x, y) ∈ jobList k w := List.mem_flatMap.2 ⟨x, hx, List.mem_map.2 ⟨y, hy, rfl⟩⟩
    rw [← c2] at hj
    obtain ⟨l, hl, hj⟩ := List.mem_flatten.1 hj
    obtain ⟨i, hi, rfl⟩ := List.mem_map.1 hl
    rw [List.mem_range] at hi
    have hlt : i * b.size < b.world := by rw [← h3]; exact Nat.mul_lt_mul_of_pos_right hi h1
    refine ⟨i * b.size, hlt, ?_⟩
    rw [hp _ hlt, Nat.mul_div_cancel _ h1]
    exact List.mem_map.2 ⟨(x, y), hj, rfl⟩

/-- C119 for the program of the tutorial: the premises hold for any layouts `a` and `b` of the two stages, if the second
has a brigade size (or there is one rank), the points of the second grid are points of the first, no two of those share
a file name, and each file there at the start is a complete matrix with the right number of rows or one that is
prepared again. -/
theorem C119_sound (σ : SetOrder) (m : Model R) (ae : Int) (hm : WellFormed m ae) (bt : Built R)
    (hb : buildSystem σ m = .ok bt) (F : Phys R K) (T : Point R → List (Nat × Nat × K))
    (hT : ∀ p, sparseTriples F m p (fullBasis bt.eqs) bt.eqs = .ok (T p)) (ksp : DistSys K → Py (List K)) (a b : Brigades)
    (hw : 1 ≤ b.world) (hab : a.world = b.world) (ha : a.check = .ok ()) (hbc : b.check = .ok ())
    (hsync : b.size? ≠ none ∨ b.world = 1) (k w k' w' : List R) (eta : R)
    (hsub : ∀ x ∈ k', ∀ y ∈ w', x ∈ k ∧ y ∈ w)
    (hinj : ∀ x ∈ k, ∀ y ∈ w, ∀ x' ∈ k, ∀ y' ∈ w, matName (R := R) ⟨x, y, eta⟩ = matName ⟨x', y', eta⟩ → x = x' ∧ y = y')
    (f : Point R → K) (hf : ∀ x ∈ k', ∀ y ∈ w', petscSolve F m ⟨x, y, eta⟩ (fullBasis bt.eqs) bt.eqs ksp b.size =
      .ok (f ⟨x, y, eta⟩)) (files : Files K)
    (hfiles : ∀ n v, files.get? n = some v → (∃ x ∈ k, ∃ y ∈ w, matName (R := R) ⟨x, y, eta⟩ = n) ∨
      ∃ ts, v = some ts ∧ ts ≠ [] ∧ cooRows ts = (allEqs bt.eqs).length) :
    Stage.Sound (Program.of F m ksp T a b k w k' w' eta) (allEqs bt.eqs).length f files := by
  obtain ⟨h1, -, -, -⟩ := b.facts hw hbc
  obtain ⟨p1, p2, p3⟩ := pointsOf_ok hw hbc k' w' eta
  obtain ⟨-, q2, q3⟩ := pointsOf_ok (b := a) (by omega) ha k w eta
  rw [hab] at q2 q3
  obtain ⟨T', hT', hT2⟩ := sparse_all σ m ae hm bt hb F
  obtain rfl : T' = T := by
    funext p
    exact Except.ok.inj ((hT' p).symm.trans (hT p))
  have hlen : (fullBasis bt.eqs).length = (allEqs bt.eqs).length := by
    rw [fullBasis_eq (ready_of_built hm hb).nodup]; simp
  have hpt : ∀ {p : Point R}, p.eta = eta → p = ⟨p.k, p.w, eta⟩ := by
    rintro ⟨x, y, e⟩ rfl; rfl
  refine ⟨h1, hw, p1, ?_, ?_, ?_, ?_, ?_, ?_⟩
  · rcases hsync with h | h
    · left
      show b.size?.isSome = true
      cases hs : b.size? with
      | none => exact absurd hs h
      | some s => rfl
    · exact Or.inr h
  · intro r hr r' hr' p hp q hq he
    obtain ⟨x1, x2, x3⟩ := q2 r hr p hp
    obtain ⟨y1, y2, y3⟩ := q2 r' hr' q hq
    rw [hpt x3, hpt y3] at he
    obtain ⟨e1, e2⟩ := hinj _ x1 _ x2 _ y1 _ y2 he
    rw [hpt x3, hpt y3, e1, e2]
  · intro r hr p hp
    exact hT2 p
  · intro n v hv
    rcases hfiles n v hv with ⟨x, hx, y, hy, he⟩ | h
    · obtain ⟨r, hr, hp⟩ := q3 x hx y hy
      exact Or.inl ⟨r, hr, _, hp, he⟩
    · exact Or.inr h
  · intro r hr p hp
    obtain ⟨x1, x2, x3⟩ := p2 r hr p hp
    obtain ⟨y1, y2⟩ := hsub _ x1 _ x2
    obtain ⟨r', hr', hq⟩ := q3 _ y1 _ y2
    left
    refine ⟨r', hr', _, hq, ?_, ?_⟩ <;> rw [← hpt x3]
  · intro r hr p hp
    obtain ⟨x1, x2, x3⟩ := p2 r hr p hp
    have hv := hf _ x1 _ x2
    rw [← hpt x3] at hv
    show solveLoaded F m ksp b.size (List.replicate b.size (_, p, T' p)) = _
    rw [solveLoaded_same F m ksp b.size _ h1, ← hv]
    unfold petscSolve petscScaffold
    rw [hT' p, hlen]
    rfl

/-- **C119**, what the user gets: at the end of every interleaving of the program of the tutorial, what the ranks hand to
the final `gather` is what `greens_function` collects when it builds its matrices from the basis. -/
theorem C119_gathered_partial (σ : SetOrder) (m : Model R) (ae : Int) (hm : WellFormed m ae) (bt : Built R)
    (hb : buildSystem σ m = .ok bt) (F : Phys R K) (T : Point R → List (Nat × Nat × K))
    (hT : ∀ p, sparseTriples F m p (fullBasis bt.eqs) bt.eqs = .ok (T p)) (ksp : DistSys K → Py (List K)) (a b : Brigades)
    (hw : 1 ≤ b.world) (hab : a.world = b.world) (ha : a.check = .ok ()) (hbc : b.check = .ok ())
    (hsync : b.size? ≠ none ∨ b.world = 1) (ks ws k w k' w' : List R) (eta : R) (hg : massGrid b ks ws = .ok (k', w'))
    (hsub : ∀ x ∈ k', ∀ y ∈ w', x ∈ k ∧ y ∈ w)
    (hinj : ∀ x ∈ k, ∀ y ∈ w, ∀ x' ∈ k, ∀ y' ∈ w, matName (R := R) ⟨x, y, eta⟩ = matName ⟨x', y', eta⟩ → x = x' ∧ y = y')
    (f : Point R → K) (hf : ∀ x ∈ k', ∀ y ∈ w', petscSolve F m ⟨x, y, eta⟩ (fullBasis bt.eqs) bt.eqs ksp b.size =
      .ok (f ⟨x, y, eta⟩)) (c : Stage.World K)
    (hc : Stage.Steps (Program.of F m ksp T a b k w k' w' eta) (Stage.World.start []) c)
    (hfin : Stage.Final (Program.of F m ksp T a b k w k' w' eta) c) (isNaN : K → Bool) :
    massGreens (fun x y => petscSolve F m ⟨x, y, eta⟩ (fullBasis bt.eqs) bt.eqs ksp b.size) isNaN b (.seq ks) (.seq ws) =
      (do
        let picked ← pickCommanders b ((List.range b.world).map c.done)
        reshapeGrid (picked.flatten.filter (fun v => !isNaN v)) k'.length w'.length) := by
  have S := C119_sound σ m ae hm bt hb F T hT ksp a b hw hab ha hbc hsync k w k' w' eta hsub hinj f hf []
    (by intro n v hv; simp [Dict.get?] at hv)
  obtain ⟨-, -, -, -, hend⟩ := C119_stages_partial _ _ f [] S c hc
  have hdone := hend hfin
  rw [massGreens_congr (solve' := fun x y => .ok (f ⟨x, y, eta⟩)) isNaN b ks ws hw hbc]
  · obtain ⟨chunk, c1, c2⟩ := b.jobs_ok hw hbc (jobList k' w')
    have hall : mapPy (fun rank => do
        let mine ← b.jobs (jobList k' w') rank
        mapPy (fun j => (.ok (f ⟨j.1, j.2, eta⟩) : Py K)) mine) (List.range b.world) =
        .ok ((List.range b.world).map c.done) := by
      rw [mapPy_congr (g := fun rank => .ok (c.done rank)), mapPy_pure]
      intro rank hrank
      rw [List.mem_range] at hrank
      have hd := hdone rank hrank
      simp only [Program.of, pointsOf, c1 rank hrank] at hd
      rw [c1 rank hrank, hd]
      simp only [bind, Except.bind]
      rw [mapPy_pure, List.map_map]
      rfl
    unfold massGreens
    rw [hbc]
    simp only [floatToList, bind, Except.bind, hg]
    simp only [bind, Except.bind] at hall
    rw [hall]
  · intro g hg' x hx y hy
    rw [hg] at hg'
    cases hg'
    exact hf x hx y hy

/-- C119 with a results directory in the second stage: since the matrices are complete and stay as they are once a rank
has begun to solve, the brigades are in the situation of C86, for any files left by earlier runs that hold right
values. -/
theorem C119_results_partial (σ : SetOrder) (m : Model R) (ae : Int) (hm : WellFormed m ae) (bt : Built R)
    (hb : buildSystem σ m = .ok bt) (F : Phys R K) (T : Point R → List (Nat × Nat × K))
    (hT : ∀ p, sparseTriples F m p (fullBasis bt.eqs) bt.eqs = .ok (T p)) (ksp : DistSys K → Py (List K)) (b : Brigades)
    (hw : 1 ≤ b.world) (hbc : b.check = .ok ()) (k w : List R) (eta : R) (f : Point R → K)
    (hf : ∀ x ∈ k, ∀ y ∈ w, petscSolve F m ⟨x, y, eta⟩ (fullBasis bt.eqs) bt.eqs ksp b.size = .ok (f ⟨x, y, eta⟩))
    (results : Option (Dict PyStr (Option K)))
    (hkeys : results ≠ none → ((jobList k w).map (fun x => cacheKey (⟨x.1, x.2, eta⟩ : Point R))).Nodup)
    (hstored : ∀ x ∈ jobList k w, ∀ v, (Crew.World.start results).look (⟨x.1, x.2, eta⟩ : Point R) = some v →
      v = some (f ⟨x.1, x.2, eta⟩)) :
    Crew.Sound (Crew.Plan.of b k w eta (fun ps => solveLoaded F m ksp b.size
      (ps.map (fun p => ((allEqs bt.eqs).length, p, T p))))) f results := by
  obtain ⟨h1, -, -, -⟩ := b.facts hw hbc
  have hlen : (fullBasis bt.eqs).length = (allEqs bt.eqs).length := by
    rw [fullBasis_eq (ready_of_built hm hb).nodup]; simp
  refine C86_sound hw hbc k w eta _ f results ?_ hkeys hstored
  rintro ⟨x, y⟩ hj
  obtain ⟨x', hx, h⟩ := List.mem_flatMap.1 hj
  obtain ⟨y', hy, h⟩ := List.mem_map.1 h
  cases h
  rw [← hf x hx y hy, List.map_replicate, solveLoaded_same F m ksp b.size _ h1]
  unfold petscSolve petscScaffold
  rw [hT, hlen]
  rfl

/-! ### what goes wrong otherwise -/

/-- two ranks in one brigade, without a brigade size, so that nothing holds back the faster one -/
def pair (first : Nat → List (Point R)) (second : List (Point R)) (matrix : Point R → List (Nat × Nat × K))
    (solve : List (Nat × Point R × List (Nat × Nat × K)) → Py K) : Program R K :=
  ⟨2, false, 2, first, fun _ => second, matrix, solve⟩

theorem setPhase_phase (c : Stage.World K) (r s : Nat) (q : Stage.Phase K) :
    (c.setPhase r q).phase s = if s = r then q else c.phase s := rfl

/-- C119 fails without a brigade size in the second constructor: `prepare_greens_function` does not wait for the other
ranks, both ranks prepare all matrices, and the faster one can sample a file the slower one has just emptied:
`EOFError`. -/
theorem C119_emptied_fails (p : Point R) (rest : List (Point R)) (matrix : Point R → List (Nat × Nat × K))
    (solve : List (Nat × Point R × List (Nat × Nat × K)) → Py K) :
    ∃ c, Stage.Steps (pair (fun _ => [p]) (p :: rest) matrix solve) (Stage.World.start []) c ∧ c.phase 0 = .failed := by
  refine ⟨_, .tail (.tail (.tail (.tail (.tail (.refl _)
    (.open _ 0 0 p (by simp [pair]) rfl rfl))
    (.write _ 0 0 p (by simp [pair]) rfl rfl))
    (.arrive _ 0 (by simp [pair]) rfl))
    (.open _ 1 0 p (by simp [pair]) rfl rfl))
    (.noSample _ 0 0 p (by simp [pair]) rfl rfl (Or.inr ⟨matName p, Or.inl ?_⟩)), rfl⟩
  show (Dict.set _ (matName p) none).get? (matName p) = _
  rw [get?_set, if_pos rfl]

/-- C119 fails without a brigade size in the second constructor, also if every matrix is prepared by one rank only: the
rank that is done with its own finds no file for the first job of the second stage: `FileNotFoundError`. -/
theorem C119_missing_fails (p q : Point R) (hpq : matName p ≠ matName q) (rest : List (Point R))
    (matrix : Point R → List (Nat × Nat × K)) (hne : matrix q ≠ [])
    (solve : List (Nat × Point R × List (Nat × Nat × K)) → Py K) :
    ∃ c, Stage.Steps (pair (fun r => if r = 0 then [p] else [q]) (p :: rest) matrix solve) (Stage.World.start []) c ∧
      c.phase 1 = .failed := by
  refine ⟨_, .tail (.tail (.tail (.tail (.tail (.refl _)
    (.open _ 1 0 q (by simp [pair]) rfl rfl))
    (.write _ 1 0 q (by simp [pair]) rfl rfl))
    (.arrive _ 1 (by simp [pair]) rfl))
    (.sample _ 1 0 p (matName q) (matrix q) (by simp [pair]) rfl rfl ?_ hne))
    (.noLoad _ 1 0 _ p (by simp [pair]) rfl rfl (Or.inl ?_)), rfl⟩
  · show (Dict.set _ (matName q) (some (matrix q))).get? (matName q) = _
    rw [get?_set, if_pos rfl]
  · show (Dict.set (Dict.set [] (matName q) none) (matName q) (some (matrix q))).get? (matName p) = _
    rw [get?_set, if_neg (Ne.symm hpq), get?_set, if_neg (Ne.symm hpq)]
    rfl

/-- C119 fails for a directory with a file a killed program has left unfinished and this one does not prepare again:
it can be drawn as the sample. -/
theorem C119_leftover_fails (p : Point R) (n : PyStr) (hn : n ≠ matName p) (split : Bool)
    (matrix : Point R → List (Nat × Nat × K)) (solve : List (Nat × Point R × List (Nat × Nat × K)) → Py K) :
    ∃ c, Stage.Steps (⟨1, split, 1, fun _ => [p], fun _ => [p], matrix, solve⟩ : Program R K)
      (Stage.World.start [(n, none)]) c ∧ c.phase 0 = .failed := by
  have hfile : ((Dict.set (Dict.set [(n, none)] (matName p) none) (matName p) (some (matrix p))) :
      Files K).get? n = some none := by
    rw [get?_set, if_neg (Ne.symm hn), get?_set, if_neg (Ne.symm hn)]
    simp [Dict.get?]
  cases split with
  | false =>
    exact ⟨_, .tail (.tail (.tail (.tail (.refl _)
      (.open _ 0 0 p (by simp) rfl rfl))
      (.write _ 0 0 p (by simp) rfl rfl))
      (.arrive _ 0 (by simp) rfl))
      (.noSample _ 0 0 p (by simp) rfl rfl (Or.inr ⟨n, Or.inl hfile⟩)), rfl⟩
  | true =>
    refine ⟨_, .tail (.tail (.tail (.tail (.tail (.refl _)
      (.open _ 0 0 p (by simp) rfl rfl))
      (.write _ 0 0 p (by simp) rfl rfl))
      (.arrive _ 0 (by simp) rfl))
      (.split _ rfl ?_))
      (.noSample _ 0 0 p (by simp) rfl rfl (Or.inr ⟨n, Or.inl hfile⟩)), rfl⟩
    intro r hr
    obtain rfl : r = 0 := by simpa using hr
    rfl

/-- C119 fails for stages with different numbers of brigades whose grids are padded differently: one brigade prepares
the three frequencies asked for; two brigades want a fourth, for which there is no file. -/
theorem C119_padding_fails :
    massGreens (fun x y => petscSolve exPhys exSmall ⟨x, y, 1⟩ (fullBasis exSmallBuilt.eqs) exSmallBuilt.eqs
      (fun _ => .ok [5, 7]) 1) (fun _ => false) ⟨2, some 1⟩ (.seq [0]) (.seq [1, 2, 3]) = .ok [[7, 7, 7, 7]] ∧
    (massPrepare exPhys exSmall (fullBasis exSmallBuilt.eqs) exSmallBuilt.eqs ⟨2, some 2⟩ (.seq [0]) (.seq [1, 2, 3]) 1 []).isOk ∧
    (do
      let dir ← massPrepare exPhys exSmall (fullBasis exSmallBuilt.eqs) exSmallBuilt.eqs ⟨2, some 2⟩ (.seq [0])
        (.seq [1, 2, 3]) 1 []
      massGreens (fun x y => petscSolveDisk exPhys exSmall ⟨x, y, 1⟩ dir (fun _ => .ok [5, 7]) 1 id) (fun _ => false)
        ⟨2, some 1⟩ (.seq [0]) (.seq [1, 2, 3])) = .error .fileNotFound := by
  decide +kernel

/-! ### the hypotheses are met -/

/-- four ranks: two brigades of two prepare, four brigades of one solve; a file left unfinished by an earlier run is
prepared again -/
example : ∃ T, Stage.Sound (Program.of exPhys exSmall (fun _ => .ok [5, 7]) T ⟨4, some 2⟩ ⟨4, some 1⟩ [0, 1 / 2] [1, 2]
    [0, 1 / 2] [1, 2] 1) (allEqs exSmallBuilt.eqs).length (fun _ => 7) [(matName (⟨0, 2, 1⟩ : Point ℚ), none)] := by
  have hm : WellFormed exSmall 1 :=
    { exModel_wellFormed with
      ext := rfl
      num := rfl
      absExtent := by decide
      aePos := by decide
      extPos := by decide
      numPos := by decide }
  have hb : buildSystem ⟨id, fun l => .refl l⟩ exSmall = .ok exSmallBuilt := by decide +kernel
  obtain ⟨T, hT, -⟩ := sparse_all _ exSmall 1 hm exSmallBuilt hb exPhys
  refine ⟨T, C119_sound _ exSmall 1 hm exSmallBuilt hb exPhys T hT _ ⟨4, some 2⟩ ⟨4, some 1⟩ (by decide) rfl rfl rfl
    (Or.inl (by simp)) [0, 1 / 2] [1, 2] [0, 1 / 2] [1, 2] 1 (fun x hx y hy => ⟨hx, hy⟩) ?_ (fun _ => 7) ?_
    [(matName (⟨0, 2, 1⟩ : Point ℚ), none)] ?_⟩
  · decide +kernel
  · decide +kernel
  · intro n v hv
    left
    simp only [Dict.get?] at hv
    split at hv
    · rename_i he
      exact ⟨0, by simp, 2, by simp, by simpa using he⟩
    · cases hv

end GGCE.Props
