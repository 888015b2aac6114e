import Mathlib.Data.Rat.Floor
import Verif.Proofs.Crew
import Verif.Props.Grid

/-!
Property C86: the brigades of a `MassSolver`, each rank of which looks for result files on its own, agree on what to
do, always finish, and produce the values of the serial loop.
-/

set_option linter.unusedSectionVars false

namespace GGCE.Props
open Crew

variable {R V : Type} [Field R] [LinearOrder R] [IsStrictOrderedRing R] [FloorRing R]

/-- **C86**, the part that holds: if no two jobs share a result file (or there is no results directory), then in
every interleaving no rank fails, each has the right results for the jobs done so far, the ranks of a brigade that
meet in the collective part are at the same point, something can move unless all have finished, every move uses up
part of a bounded amount of work, and at the end all ranks have all results and all files are complete. -/
theorem C86_brigades_partial (P : Plan R V) (f : Point R → V) (files : Option (Dict PyStr (Option V)))
    (S : Sound P f files) (c : Crew.World V) (hc : Steps P (Crew.World.start files) c) :
    (∀ j < P.brigades, ∀ r < P.size, (c.ranks j r).failed = false ∧
      (c.ranks j r).done = ((P.jobs j).take (c.ranks j r).pos).map f) ∧
    (∀ j < P.brigades, (∀ r < P.size, (c.ranks j r).phase = .joined) →
      ∃ p ∈ P.jobs j, ∀ r < P.size, (P.jobs j)[(c.ranks j r).pos]? = some p) ∧
    (¬ Final P c → ∃ d, Crew.Step P c d) ∧
    (∀ d, Crew.Step P c d → work P d < work P c) ∧
    (Final P c → (∀ j < P.brigades, ∀ r < P.size, (c.ranks j r).done = (P.jobs j).map f) ∧
      (files ≠ none → ∀ j < P.brigades, ∀ p ∈ P.jobs j, c.look p = some (some (f p)))) := by
  have h := (Inv.start S).steps S hc
  refine ⟨fun j hj r hr => ⟨(h.rank j hj r hr).alive, (h.rank j hj r hr).done⟩, ?_, h.progress S, fun d hd => h.decreases S hd, ?_⟩
  · intro j hj hall
    have hsz := S.size
    rcases (h.rank j hj 0 hsz).fresh with h1 | ⟨p, hp, -⟩
    · rw [hall 0 hsz] at h1; cases h1
    · exact ⟨p, List.mem_of_getElem? hp, fun r hr => by rw [h.all_equal S hj hall r hr]; exact hp⟩
  · intro hfin
    constructor
    · intro j hj r hr
      rw [(h.rank j hj r hr).done, (hfin j hj r hr).2.2, List.take_length]
    · intro hd j hj p hp
      obtain ⟨i, hi⟩ := List.mem_iff_getElem?.1 hp
      by_cases hfr : Fresh P files j i
      · rw [h.new hd j hj i p hi hfr]
        unfold Rank.fileOf
        rw [if_pos]
        rw [(hfin j hj 0 S.size).2.2]
        exact (List.getElem?_eq_some_iff.1 hi).1
      · exact h.old j hj i p hi hfr

theorem plan_jobs {b : Brigades} (hw : 1 ≤ b.world) (hb : b.check = .ok ()) (k w : List R) (eta : R)
    (solve : List (Point R) → Py V) : ∃ chunk : Nat → List (R × R),
      (∀ r < b.world, b.jobs (jobList k w) r = .ok (chunk (r / b.size))) ∧
      ((List.range b.count).map chunk).flatten = jobList k w ∧
      ∀ j < b.count, (Plan.of b k w eta solve).jobs j = (chunk j).map (fun x => ⟨x.1, x.2, eta⟩) := by
  obtain ⟨h1, h2, h3, -⟩ := b.facts hw hb
  obtain ⟨chunk, hc1, hc2⟩ := b.jobs_ok hw hb (jobList k w)
  refine ⟨chunk, hc1, hc2, ?_⟩
  intro j hj
  have hlt : j * b.size < b.world := by
    rw [← h3]
    exact Nat.mul_lt_mul_of_pos_right hj h1
  simp only [Plan.of, hc1 _ hlt, Nat.mul_div_cancel _ (show 0 < b.size from h1)]

/-- C86 for the jobs of `greens_function`: the premises hold whenever the points of the grid have different file
names, whatever the number of ranks and the brigade size. -/
theorem C86_sound {b : Brigades} (hw : 1 ≤ b.world) (hb : b.check = .ok ()) (k w : List R) (eta : R)
    (solve : List (Point R) → Py V) (f : Point R → V) (files : Option (Dict PyStr (Option V)))
    (hres : ∀ x ∈ jobList k w, solve (List.replicate b.size ⟨x.1, x.2, eta⟩) = .ok (f ⟨x.1, x.2, eta⟩))
    (hkeys : files ≠ none → ((jobList k w).map (fun x => cacheKey (⟨x.1, x.2, eta⟩ : Point R))).Nodup)
    (hstored : ∀ x ∈ jobList k w, ∀ v, (Crew.World.start files).look (⟨x.1, x.2, eta⟩ : Point R) = some v →
      v = some (f ⟨x.1, x.2, eta⟩)) :
    Sound (Plan.of b k w eta solve) f files := by
  obtain ⟨h1, h2, h3, -⟩ := b.facts hw hb
  obtain ⟨chunk, hc1, hc2, hc3⟩ := plan_jobs hw hb k w eta solve
  have hmem : ∀ j < b.count, ∀ p ∈ (Plan.of b k w eta solve).jobs j, ∃ x ∈ jobList k w, p = ⟨x.1, x.2, eta⟩ := by
    intro j hj p hp
    rw [hc3 j hj] at hp
    obtain ⟨x, hx, rfl⟩ := List.mem_map.1 hp
    refine ⟨x, ?_, rfl⟩
    rw [← hc2]
    exact List.mem_flatten.2 ⟨chunk j, List.mem_map.2 ⟨j, List.mem_range.2 hj, rfl⟩, hx⟩
  refine ⟨h1, ?_, ?_, ?_⟩
  · intro j hj p hp
    obtain ⟨x, hx, rfl⟩ := hmem j hj p hp
    exact hres x hx
  · intro hd j hj j' hj' i i' p q hp hq he
    have hn := hkeys hd
    rw [← hc2, List.map_flatten, List.map_map, List.nodup_flatten] at hn
    obtain ⟨hn1, hn2⟩ := hn
    rw [hc3 j hj, List.getElem?_map, Option.map_eq_some_iff] at hp
    rw [hc3 j' hj', List.getElem?_map, Option.map_eq_some_iff] at hq
    obtain ⟨x, hx, rfl⟩ := hp
    obtain ⟨y, hy, rfl⟩ := hq
    rw [List.pairwise_map] at hn2
    have hjj : j = j' := by
      by_contra hne
      have hdis : ∀ a < b.count, ∀ a' < b.count, a < a' →
          ((chunk a).map (fun x => cacheKey (⟨x.1, x.2, eta⟩ : Point R))).Disjoint
            ((chunk a').map (fun x => cacheKey (⟨x.1, x.2, eta⟩ : Point R))) := by
        intro a ha a' ha' haa
        have := List.pairwise_iff_getElem.1 hn2 a a' (by simpa using ha) (by simpa using ha') haa
        simpa using this
      have m1 : cacheKey (⟨x.1, x.2, eta⟩ : Point R) ∈
          (chunk j).map (fun x => cacheKey (⟨x.1, x.2, eta⟩ : Point R)) :=
        List.mem_map.2 ⟨x, List.mem_of_getElem? hx, rfl⟩
      have m2 : cacheKey (⟨x.1, x.2, eta⟩ : Point R) ∈
          (chunk j').map (fun x => cacheKey (⟨x.1, x.2, eta⟩ : Point R)) :=
        List.mem_map.2 ⟨y, List.mem_of_getElem? hy, he.symm⟩
      rcases Nat.lt_or_gt_of_ne hne with h | h
      · exact hdis j hj j' hj' h m1 m2
      · exact hdis j' hj' j hj h m2 m1
    subst hjj
    refine ⟨rfl, ?_⟩
    have hnd := hn1 _ (List.mem_map.2 ⟨j, List.mem_range.2 hj, rfl⟩)
    simp only [Function.comp_apply] at hnd
    have hxl := (List.getElem?_eq_some_iff.1 hx)
    have hyl := (List.getElem?_eq_some_iff.1 hy)
    refine (List.Nodup.getElem_inj_iff hnd (i := i) (j := i') (hi := by simpa using hxl.1) (hj := by simpa using hyl.1)).1 ?_
    simp only [List.getElem_map, hxl.2, hyl.2]
    exact he
  · intro j hj p hp v hv
    obtain ⟨x, hx, rfl⟩ := hmem j hj p hp
    exact hstored x hx v hv

/-- C86 and the model of `greens_function` in C28: at the end of every interleaving, what the ranks have to hand to
the final `gather` is what `massGreens` collects with the serial loop. -/
theorem C86_gathered_partial {b : Brigades} (hw : 1 ≤ b.world) (hb : b.check = .ok ()) (k w : GridArg R) (ks ws ks' ws' : List R)
    (hk : floatToList k = .ok ks) (hkw : floatToList w = .ok ws) (hg : massGrid b ks ws = .ok (ks', ws')) (eta : R)
    (solve : List (Point R) → Py V) (f : Point R → V) (files : Option (Dict PyStr (Option V)))
    (S : Sound (Plan.of b ks' ws' eta solve) f files) (c : Crew.World V)
    (hc : Steps (Plan.of b ks' ws' eta solve) (Crew.World.start files) c) (hfin : Final (Plan.of b ks' ws' eta solve) c)
    (isNaN : V → Bool) :
    massGreens (fun x y => .ok (f ⟨x, y, eta⟩)) isNaN b k w = (do
      let picked ← pickCommanders b
        ((List.range b.world).map (fun rank => (c.ranks (rank / b.size) (rank % b.size)).done))
      reshapeGrid (picked.flatten.filter (fun v => !isNaN v)) ks'.length ws'.length) := by
  obtain ⟨h1, h2, h3, h4⟩ := b.facts hw hb
  obtain ⟨chunk, hc1, hc2, hc3⟩ := plan_jobs hw hb ks' ws' eta solve
  obtain ⟨-, -, -, -, hend⟩ := C86_brigades_partial _ f files S c hc
  obtain ⟨hdone, -⟩ := hend hfin
  have hall : mapPy (fun rank => do
      let mine ← b.jobs (jobList ks' ws') rank
      mapPy (fun j => (.ok (f ⟨j.1, j.2, eta⟩) : Py V)) mine) (List.range b.world) =
      .ok ((List.range b.world).map (fun rank => (c.ranks (rank / b.size) (rank % b.size)).done)) := by
    rw [mapPy_congr (g := fun rank => .ok ((c.ranks (rank / b.size) (rank % b.size)).done)), mapPy_pure]
    intro rank hrank
    rw [List.mem_range] at hrank
    have hj : rank / b.size < b.count := Nat.div_lt_of_lt_mul (by rw [Nat.mul_comm, h3]; exact hrank)
    have hd := hdone (rank / b.size) hj (rank % b.size) (Nat.mod_lt _ h1)
    rw [hc3 _ hj] at hd
    rw [hc1 rank hrank, hd]
    simp only [bind, Except.bind]
    rw [mapPy_pure, List.map_map]
    rfl
  unfold massGreens
  rw [hb, hk, hkw]
  simp only [bind, Except.bind, hg]
  simp only [bind, Except.bind] at hall
  rw [hall]

/-! ### two jobs with one result file -/

/-- one brigade of two ranks -/
def duo (jobs : List (Point R)) (solve : List (Point R) → Py V) : Plan R V := ⟨1, 2, fun _ => jobs, solve⟩

/-- its states -/
def duoWorld (files : Option (Dict PyStr (Option V))) (a b : Rank V) : Crew.World V :=
  ⟨files, fun j r => if j = 0 ∧ r = 0 then a else if j = 0 ∧ r = 1 then b else ⟨0, .idle, [], false⟩⟩

theorem duo_start (files : Option (Dict PyStr (Option V))) :
    Crew.World.start files = duoWorld files ⟨0, .idle, [], false⟩ ⟨0, .idle, [], false⟩ := by
  unfold Crew.World.start duoWorld
  congr 1
  funext j r
  split_ifs <;> rfl

theorem duo_set0 (fs fs' : Option (Dict PyStr (Option V))) (a b q : Rank V) :
    Crew.World.setRank { duoWorld fs a b with files := fs' } 0 0 q = duoWorld fs' q b := by
  unfold Crew.World.setRank duoWorld
  congr 1
  funext j r
  by_cases h1 : j = 0 ∧ r = 0 <;> simp [h1]

theorem duo_set1 (fs fs' : Option (Dict PyStr (Option V))) (a b q : Rank V) :
    Crew.World.setRank { duoWorld fs a b with files := fs' } 0 1 q = duoWorld fs' a q := by
  unfold Crew.World.setRank duoWorld
  congr 1
  funext j r
  by_cases h1 : j = 0 ∧ r = 1
  · obtain ⟨rfl, rfl⟩ := h1; simp
  · simp [h1]

theorem duo_look (fs : Option (Dict PyStr (Option V))) (a b : Rank V) (p : Point R) :
    (duoWorld fs a b).look p = fs.bind (fun d => d.get? (cacheKey p)) := rfl

section duo
variable {jobs : List (Point R)} {solve : List (Point R) → Py V} {c : Crew.World V} {fs : Option (Dict PyStr (Option V))}
  {a b : Rank V} {p q : Point R} {G : V} {d : Dict PyStr (Option V)}

theorem duo_enter0 (h : Steps (duo jobs solve) c (duoWorld fs a b)) (hf : a.failed = false) (hp : a.phase = .idle)
    (ht : jobs[a.pos]? = some p) (hg : fs.bind (fun d => d.get? (cacheKey p)) = none) :
    Steps (duo jobs solve) c (duoWorld fs { a with phase := .joined } b) := by
  have := Steps.tail h (.enter _ 0 0 p (by simp [duo]) (by simp [duo]) hf hp ht hg)
  rwa [show (duoWorld fs a b).setRank 0 0 _ = _ from duo_set0 fs fs a b _] at this

theorem duo_enter1 (h : Steps (duo jobs solve) c (duoWorld fs a b)) (hf : b.failed = false) (hp : b.phase = .idle)
    (ht : jobs[b.pos]? = some p) (hg : fs.bind (fun d => d.get? (cacheKey p)) = none) :
    Steps (duo jobs solve) c (duoWorld fs a { b with phase := .joined }) := by
  have := Steps.tail h (.enter _ 0 1 p (by simp [duo]) (by simp [duo]) hf hp ht hg)
  rwa [show (duoWorld fs a b).setRank 0 1 _ = _ from duo_set1 fs fs a b _] at this

theorem duo_hit0 (h : Steps (duo jobs solve) c (duoWorld fs a b)) (hf : a.failed = false) (hp : a.phase = .idle)
    (ht : jobs[a.pos]? = some p) (hg : fs.bind (fun d => d.get? (cacheKey p)) = some (some G)) :
    Steps (duo jobs solve) c (duoWorld fs (a.next G) b) := by
  have := Steps.tail h (.hit _ 0 0 p G (by simp [duo]) (by simp [duo]) hf hp ht hg)
  rwa [show (duoWorld fs a b).setRank 0 0 _ = _ from duo_set0 fs fs a b _] at this

theorem duo_hit1 (h : Steps (duo jobs solve) c (duoWorld fs a b)) (hf : b.failed = false) (hp : b.phase = .idle)
    (ht : jobs[b.pos]? = some p) (hg : fs.bind (fun d => d.get? (cacheKey p)) = some (some G)) :
    Steps (duo jobs solve) c (duoWorld fs a (b.next G)) := by
  have := Steps.tail h (.hit _ 0 1 p G (by simp [duo]) (by simp [duo]) hf hp ht hg)
  rwa [show (duoWorld fs a b).setRank 0 1 _ = _ from duo_set1 fs fs a b _] at this

theorem duo_eof1 (h : Steps (duo jobs solve) c (duoWorld fs a b)) (hf : b.failed = false) (hp : b.phase = .idle)
    (ht : jobs[b.pos]? = some p) (hg : fs.bind (fun d => d.get? (cacheKey p)) = some none) :
    Steps (duo jobs solve) c (duoWorld fs a { b with failed := true }) := by
  have := Steps.tail h (.eof _ 0 1 p (by simp [duo]) (by simp [duo]) hf hp ht hg)
  rwa [show (duoWorld fs a b).setRank 0 1 _ = _ from duo_set1 fs fs a b _] at this

theorem duo_meet (h : Steps (duo jobs solve) c (duoWorld fs a b)) (hfa : a.failed = false) (hpa : a.phase = .joined)
    (hfb : b.failed = false) (hpb : b.phase = .joined) (hta : jobs[a.pos]? = some p) (htb : jobs[b.pos]? = some q)
    (hs : solve [p, q] = .ok G) :
    Steps (duo jobs solve) c (duoWorld fs { a with phase := .computed G } (b.next G)) := by
  have := Steps.tail h (.meet _ 0 [p, q] G (by simp [duo]) ?_ rfl ?_ hs)
  · refine cast (congrArg _ ?_) this
    unfold Crew.World.setBrigade duoWorld
    congr 1
    funext j r
    by_cases hj : j = 0
    · subst hj
      match r with
      | 0 => simp [duo]
      | 1 => simp [duo]
      | r + 2 => simp [duo]
    · simp [hj]
  · intro r hr
    match r, hr with
    | 0, _ => exact ⟨hfa, hpa⟩
    | 1, _ => exact ⟨hfb, hpb⟩
  · intro r hr
    match r, hr with
    | 0, _ => exact hta
    | 1, _ => exact htb

theorem duo_open (h : Steps (duo jobs solve) c (duoWorld (some d) a b)) (hf : a.failed = false) (hp : a.phase = .computed G)
    (ht : jobs[a.pos]? = some p) :
    Steps (duo jobs solve) c (duoWorld (some (d.set (cacheKey p) none)) { a with phase := .opened G } b) := by
  have := Steps.tail h (.open _ 0 0 p G d (by simp [duo]) (by simp [duo]) hf hp ht rfl)
  rwa [duo_set0] at this

theorem duo_write (h : Steps (duo jobs solve) c (duoWorld (some d) a b)) (hf : a.failed = false) (hp : a.phase = .opened G)
    (ht : jobs[a.pos]? = some p) :
    Steps (duo jobs solve) c (duoWorld (some (d.set (cacheKey p) (some G))) (a.next G) b) := by
  have := Steps.tail h (.write _ 0 0 p G d (by simp [duo]) (by simp [duo]) hf hp ht rfl)
  rwa [duo_set0] at this

end duo

/-- solve the first job together, then rank 1 goes on to the second and finds no file yet -/
theorem duo_ahead (p : Point R) (rest : List (Point R)) (solve : List (Point R) → Py V) (G : V) (hs : solve [p, p] = .ok G) :
    Steps (duo (p :: p :: rest) solve) (Crew.World.start (some []))
      (duoWorld (some [(cacheKey p, none)]) ⟨0, .opened G, [], false⟩ ⟨1, .idle, [G], false⟩) ∧
    Steps (duo (p :: p :: rest) solve) (Crew.World.start (some []))
      (duoWorld (some [(cacheKey p, some G)]) ⟨1, .idle, [G], false⟩ ⟨1, .joined, [G], false⟩) := by
  have s0 : Steps (duo (p :: p :: rest) solve) (Crew.World.start (some [])) _ := .refl _
  rw [duo_start (V := V)] at s0 ⊢
  have s1 := duo_enter0 s0 rfl rfl rfl rfl
  have s2 := duo_enter1 s1 rfl rfl rfl rfl
  have s3 := duo_meet s2 rfl rfl rfl rfl rfl rfl hs
  refine ⟨duo_open s3 rfl rfl rfl, ?_⟩
  have s4 := duo_enter1 s3 rfl rfl rfl rfl
  have s5 := duo_open s4 rfl rfl rfl
  have s6 := duo_write s5 rfl rfl rfl
  simpa [Rank.next, Dict.set] using s6

/-- C86 fails for a repeated point: a rank can read the file while rank 0 is writing it, and stops with `EOFError`. -/
theorem C86_eof_fails (p : Point R) (solve : List (Point R) → Py V) (G : V) (hs : solve [p, p] = .ok G) :
    ∃ c, Steps (duo [p, p] solve) (Crew.World.start (some [])) c ∧ (c.ranks 0 1).failed = true := by
  refine ⟨_, duo_eof1 (duo_ahead p [] solve G hs).1 rfl rfl rfl ?_, rfl⟩
  simp [Dict.get?]

/-- C86 fails for a repeated point: rank 0 takes the second result from the file while rank 1, which looked before
the file was there, waits in the collective part for ever. -/
theorem C86_deadlock_fails (p : Point R) (solve : List (Point R) → Py V) (G : V) (hs : solve [p, p] = .ok G) :
    ∃ c, Steps (duo [p, p] solve) (Crew.World.start (some [])) c ∧ ¬ Final (duo [p, p] solve) c ∧
      ¬ ∃ d, Crew.Step (duo [p, p] solve) c d := by
  have s := duo_hit0 (G := G) (duo_ahead p [] solve G hs).2 rfl rfl rfl (by simp [Dict.get?])
  refine ⟨_, s, ?_, ?_⟩
  · intro hfin
    have := (hfin 0 (by simp [duo]) 1 (by simp [duo])).2.1
    simp [duoWorld] at this
  · rintro ⟨d, hd⟩
    generalize hc : duoWorld (some [(cacheKey p, some G)]) ((⟨1, .idle, [G], false⟩ : Rank V).next G) ⟨1, .joined, [G], false⟩ = c at hd
    have h0 : c.ranks 0 0 = ⟨2, .idle, [G, G], false⟩ := by rw [← hc]; rfl
    have h1 : c.ranks 0 1 = ⟨1, .joined, [G], false⟩ := by rw [← hc]; rfl
    have hidle : ∀ j < 1, ∀ r < 2, (c.ranks j r).phase = .idle → (c.ranks j r).pos = 2 := by
      intro j hj r hr
      obtain rfl : j = 0 := by omega
      match r, hr with
      | 0, _ => rw [h0]; simp
      | 1, _ => rw [h1]; simp
    have hphase : ∀ j < 1, ∀ r < 2, (c.ranks j r).phase.after = false := by
      intro j hj r hr
      obtain rfl : j = 0 := by omega
      match r, hr with
      | 0, _ => rw [h0]; rfl
      | 1, _ => rw [h1]; rfl
    cases hd with
    | hit j r p' G' hj hr hf hp ht hg => rw [hidle j hj r hr hp] at ht; simp [duo] at ht
    | eof j r p' hj hr hf hp ht hg => rw [hidle j hj r hr hp] at ht; simp [duo] at ht
    | enter j r p' hj hr hf hp ht hg => rw [hidle j hj r hr hp] at ht; simp [duo] at ht
    | meet j ps G' hj hall hlen hps hs' =>
      obtain rfl : j = 0 := by simp [duo] at hj; exact hj
      have := (hall 0 (by simp [duo])).2
      rw [h0] at this
      cases this
    | crash j ps e hj hall hlen hps hs' =>
      obtain rfl : j = 0 := by simp [duo] at hj; exact hj
      have := (hall 0 (by simp [duo])).2
      rw [h0] at this
      cases this
    | skip j r G' hj hr hf hp hd' => have := hphase j hj r hr; rw [hp] at this; cases this
    | «open» j r p' G' d' hj hr hf hp ht hd' => have := hphase j hj r hr; rw [hp] at this; cases this
    | write j r p' G' d' hj hr hf hp ht hd' => have := hphase j hj r hr; rw [hp] at this; cases this

/-- C86 fails for a repeated point followed by another: the ranks can meet at different points, each setting up its
rows of the matrix for its own point. All then finish without an error; rank 0 returns, and stores as the result of
the other point, the value `H` of the mixed system. -/
theorem C86_mixed_fails (p q : Point R) (hpq : cacheKey p ≠ cacheKey q) (solve : List (Point R) → Py V) (G H : V)
    (hs : solve [p, p] = .ok G) (hm : solve [q, p] = .ok H) :
    ∃ c, Steps (duo [p, p, q] solve) (Crew.World.start (some [])) c ∧ Final (duo [p, p, q] solve) c ∧
      (c.ranks 0 0).done = [G, G, H] ∧ c.look q = some (some H) := by
  have hqp := Ne.symm hpq
  have s1 := duo_hit0 (G := G) (duo_ahead p [q] solve G hs).2 rfl rfl rfl (by simp [Dict.get?])
  have s2 := duo_enter0 (p := q) s1 rfl rfl rfl (by simp [Dict.get?, hpq])
  have s3 := duo_meet s2 rfl rfl rfl rfl rfl rfl hm
  have s4 := duo_open s3 rfl rfl rfl
  have s5 := duo_write s4 rfl rfl rfl
  have s6 := duo_hit1 (G := H) s5 rfl rfl rfl (by simp [Dict.get?_set])
  refine ⟨_, s6, ?_, rfl, ?_⟩
  · intro j hj r hr
    obtain rfl : j = 0 := by simp [duo] at hj; exact hj
    match r, hr with
    | 0, _ => exact ⟨rfl, rfl, rfl⟩
    | 1, _ => exact ⟨rfl, rfl, rfl⟩
  · simp [duo_look, Dict.get?_set]

/-! ### the hypotheses are met -/

/-- four ranks in two brigades on a grid of two momenta and three frequencies, one result already there -/
example : Sound (V := ℚ) (Plan.of ⟨4, some 2⟩ [0, 1 / 2] [-1, 0, 1] (1 / 10) (fun ps => .ok ((ps.map (fun p => p.k + p.w)).sum / 2)))
    (fun p => p.k + p.w) (some [(cacheKey (⟨0, 0, 1 / 10⟩ : Point ℚ), some 0)]) := by
  refine C86_sound (by decide) rfl _ _ _ _ _ _ ?_ ?_ ?_
  · decide +kernel
  · intro _
    decide +kernel
  · decide +kernel

end GGCE.Props
