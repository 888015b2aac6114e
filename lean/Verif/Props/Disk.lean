import Verif.Proofs.Disk
import Verif.Model.Solver
import Verif.Props.Solver

/-!
Properties C33, C34, C35, C36 and C47: the checkpoint directory of a system.
-/

set_option linter.unusedSectionVars false

namespace GGCE.Props
open Sys

variable {R : Type} [Field R] [LinearOrder R]

/-! ### C33 -/

/-- The disk `fs'` can be reached from `fs` by any number of public operations on systems and solvers
(with any arguments and any roots), each finished, failed, or stopped at any of its writes. -/
inductive Later : FS R → FS R → Prop
  | refl (fs) : Later fs fs
  | construct {fs fs' fs''} (σ : SetOrder) (s : Sys R) (autoprime : Bool) (h : Later fs fs')
      (h' : fs'' ∈ (s.init σ autoprime fs').fs :: (s.init σ autoprime fs').states) : Later fs fs''
  | prime {fs fs' fs''} (σ : SetOrder) (s : Sys R) (h : Later fs fs')
      (h' : fs'' ∈ (s.prime σ fs').fs :: (s.prime σ fs').states) : Later fs fs''
  | checkpoint {fs fs' fs''} (s : Sys R) (h : Later fs fs')
      (h' : fs'' ∈ (s.checkpoint fs').fs :: (s.checkpoint fs').states) : Later fs fs''
  | load {fs fs' fs''} (σ : SetOrder) (r : String) (h : Later fs fs')
      (h' : fs'' ∈ (fromCheckpoint σ r fs').fs :: (fromCheckpoint σ r fs').states) : Later fs fs''
  | solver {fs fs' fs''} (σ : SetOrder) (s : Option (Sys R)) (r : Option String) (h : Later fs fs')
      (h' : fs'' ∈ (solverInit σ s r fs').fs :: (solverInit σ s r fs').states) : Later fs fs''

/-- C33 for the three pickles: once such a file exists, complete or not, no later operation on any root
changes it, at any moment. What is missing: `model.json` (`C33_model_fails`). -/
theorem C33_pickles_partial (fs fs' : FS R) (h : Later fs fs') (q : String) :
    (∀ x, (fs.at q).gens = some x → (fs'.at q).gens = some x) ∧
    (∀ x, (fs.at q).fargs = some x → (fs'.at q).fargs = some x) ∧
    (∀ x, (fs.at q).eqs = some x → (fs'.at q).eqs = some x) := by
  have key : ∀ {α : Type} (x : Io R α) (a b : FS R), Io.Keeps (fun s => Pickles (fs.at q) (s.at q)) x →
      Pickles (fs.at q) (a.at q) → b ∈ (x a).fs :: (x a).states → Pickles (fs.at q) (b.at q) := by
    intro α x a b hk ha hb
    obtain ⟨h1, h2⟩ := hk a ha
    rcases List.mem_cons.1 hb with rfl | hb
    · exact h1
    · exact h2 b hb
  induction h with
  | refl => exact Pickles.rfl
  | construct σ s auto _ h' ih => exact key _ _ _ (keeps_init σ s auto) ih h'
  | prime σ s _ h' ih => exact key _ _ _ (keeps_prime σ s) ih h'
  | checkpoint s _ h' ih => exact key _ _ _ (keeps_checkpoint s) ih h'
  | load σ r _ h' ih => exact key _ _ _ (keeps_fromCheckpoint σ r) ih h'
  | solver σ s r _ h' ih => exact key _ _ _ (keeps_solverInit σ s r) ih h'

/-- `model.json` after a construction is the model of that construction, whatever was there before. -/
theorem model_after_init (σ : SetOrder) (s : Sys R) (auto : Bool) (r : String) (hr : s.root = some r) (fs : FS R) :
    ((s.init σ auto fs).fs.at r).model = some (.full s.model.jsonRT) ∧
      ∃ x ∈ (s.init σ auto fs).states, (x.at r).model = some .torn := by
  unfold init
  rw [hr]
  simp only
  rw [Io.bind_ok (a := ()) rfl, Io.bind_ok (saveModel_ok ..)]
  have hs : ∀ fs, s.saveModel fs = Io.write r (fun f d => { d with model := some f }) s.model.jsonRT fs := by
    intro fs
    unfold saveModel
    rw [hr]
  simp only [hs, Io.write, Io.mkdir, FS.at_put, FS.put_put]
  refine ⟨?_, fs.put r { fs.at r with model := some .torn }, by simp, by simp⟩
  split
  · exact (keeps_model_prime σ s _ (by simp)).1
  · simp [Io.pure_apply]

/-- C33 is false: constructing a system on the root of another one replaces `model.json` (its docstring
says "Will not overwrite an existing file"). -/
theorem C33_model_fails (σ : SetOrder) (m1 m2 : Model R) (h : m1.jsonRT ≠ m2.jsonRT) (r : String) (lim : Int)
    (auto : Bool) (fs : FS R) (hf : (fs.at r).model = some (.full m1.jsonRT)) :
    ((Sys.new σ m2 (some r) lim auto fs).fs.at r).model = some (.full m2.jsonRT) ∧
      ((Sys.new σ m2 (some r) lim auto fs).fs.at r).model ≠ (fs.at r).model := by
  have := (model_after_init σ ⟨some r, m2, none, none, none, lim⟩ auto r rfl fs).1
  refine ⟨this, ?_⟩
  show ((Sys.init σ ⟨some r, m2, none, none, none, lim⟩ auto fs).fs.at r).model ≠ _
  rw [this, hf]
  simpa using Ne.symm h

/-- The consequence: after building systems for two models on one root, reloading gives the second model
with the equations of the first. -/
theorem C33_mixed_checkpoint (σ σ' : SetOrder) (m1 m2 : Model R) (b1 : Built R) (h1 : buildSystem σ m1 = .ok b1)
    (r : String) (lim lim' : Int) (hl : ((allEqs b1.eqs).length : Int) ≤ lim) (fs : FS R) (hf : fs.at r = {}) :
    let fs1 := (Sys.new σ m1 (some r) lim true fs).fs
    let fs2 := (Sys.new σ m2 (some r) lim' true fs1).fs
    (fromCheckpoint σ' r fs2).result =
      .ok ⟨some r, m2.jsonRT, some b1.gens, some b1.fargs, some b1.eqs, 1000000⟩ := by
  intro fs1 fs2
  have e1 := (new_fresh h1 r lim fs hf).2.2
  rw [if_neg (by omega)] at e1
  have e2 : (fs2.at r).model = some (.full m2.jsonRT) :=
    (model_after_init σ ⟨some r, m2, none, none, none, lim'⟩ true r rfl fs1).1
  have e3 : Pickles (fs1.at r) (fs2.at r) := (keeps_init (d := fs1.at r) (q := r) σ _ true fs1 Pickles.rfl).1
  have e1' : fs1.at r = _ := e1
  rw [e1'] at e3
  obtain ⟨g1, g2, g3⟩ := e3
  have g1 := g1 _ rfl
  have g2 := g2 _ rfl
  have g3 := g3 _ rfl
  rw [fromCheckpoint_result σ' r fs2 m2.jsonRT (some b1.gens) (some b1.fargs) (some b1.eqs)]
  · exact primed_full h1 σ' _ _ _
  · cases hd : fs2.at r
    rw [hd] at e2 g1 g2 g3
    simp only at e2 g1 g2 g3
    simp [complete, e2, g1, g2, g3]

/-! ### C34 -/

theorem denseR_jsonRT {K : Type} [Field K] (F : Phys R K) (m : Model R) (p : Point R)
    (basis : Dict Nat (Dict PyStr Nat)) (eqs : Dict Nat (List (Equation R))) (s n : Nat) :
    denseR F m.jsonRT p basis eqs s n = denseR F m p basis eqs s n := by
  induction s generalizing n with
  | zero => rfl
  | succ s ih =>
    unfold denseR
    rw [ih]
    rfl

theorem denseSolve_jsonRT {K : Type} [Field K] (F : Phys R K) (m : Model R) (p : Point R)
    (basis : Dict Nat (Dict PyStr Nat)) (eqs : Dict Nat (List (Equation R))) :
    denseSolve F m.jsonRT p basis eqs = denseSolve F m p basis eqs := by
  unfold denseSolve
  rw [denseR_jsonRT]
  rfl

/-- C34: reloading after construction on a fresh root gives a system with the same generalized equations,
argument lists and equations, and a model with the same public attributes, for every checkpoint limit
(above it the equations are not saved but built again). Solving gives the same results. -/
theorem C34_round_trip (σ σ' : SetOrder) (m : Model R) (b : Built R) (hb : buildSystem σ m = .ok b) (r : String)
    (lim : Int) (fs : FS R) (hf : fs.at r = {}) :
    ∃ s s', (Sys.new σ m (some r) lim true fs).result = .ok s ∧
      (fromCheckpoint σ' r (Sys.new σ m (some r) lim true fs).fs).result = .ok s' ∧
      s.gens = some b.gens ∧ s.fargs = some b.fargs ∧ s.eqs = some b.eqs ∧ s.model = m ∧
      s'.gens = s.gens ∧ s'.fargs = s.fargs ∧ s'.eqs = s.eqs ∧ s'.root = s.root ∧
      s'.model.latticeConstant = m.latticeConstant ∧ s'.model.temperature = m.temperature ∧
      s'.model.ham = m.ham ∧ s'.model.maxPerSite = m.maxPerSite ∧ s'.model.extent = m.extent ∧
      s'.model.number = m.number ∧ s'.model.absExtent = m.absExtent ∧ s'.model.nTypes = m.nTypes ∧
      (∀ {K : Type} [Field K] (F : Phys R K) (p : Point R),
        denseSolve F s'.model p (localBasis b.eqs) b.eqs = denseSolve F m p (localBasis b.eqs) b.eqs ∧
        ∀ spsolve, sparseSolve F s'.model p (fullBasis b.eqs) b.eqs spsolve =
          sparseSolve F m p (fullBasis b.eqs) b.eqs spsolve) := by
  obtain ⟨e1, -, e3⟩ := new_fresh hb r lim fs hf
  refine ⟨_, ⟨some r, m.jsonRT, some b.gens, some b.fargs, some b.eqs, 1000000⟩, e1, ?_, rfl, rfl, rfl, rfl, rfl, rfl,
    rfl, rfl, rfl, rfl, rfl, rfl, rfl, rfl, absExtent_jsonRT m, rfl, ?_⟩
  · split at e3
    · rw [fromCheckpoint_result σ' r _ m.jsonRT (some b.gens) (some b.fargs) none (by rw [e3]; rfl)]
      exact primed_half hb σ' _ _ _
    · rw [fromCheckpoint_result σ' r _ m.jsonRT (some b.gens) (some b.fargs) (some b.eqs) (by rw [e3]; rfl)]
      exact primed_full hb σ' _ _ _
  · intro K _ F p
    exact ⟨denseSolve_jsonRT F m p _ _, fun _ => rfl⟩

/-! ### C35 -/

/-- no file of the directory is unfinished -/
def Whole (d : Dir R) : Prop :=
  d.model ≠ some .torn ∧ d.gens ≠ some .torn ∧ d.fargs ≠ some .torn ∧ d.eqs ≠ some .torn

/-- C35: if construction on a fresh root stops between two writes, reloading gives the system that was
being built, except if it stops before `model.json` or between `generalized_equations.pkl` and
`f_arg_list.pkl`. -/
theorem C35_recover_partial (σ : SetOrder) (m : Model R) (b : Built R) (hb : buildSystem σ m = .ok b) (r : String)
    (lim : Int) (fs : FS R) (hf : fs.at r = {}) (x : FS R) (hx : x ∈ (Sys.new σ m (some r) lim true fs).states)
    (hw : Whole (x.at r)) (hm : (x.at r).model ≠ none) (hg : (x.at r).gens = none ∨ (x.at r).fargs ≠ none) :
    (fromCheckpoint σ r x).result = .ok ⟨some r, m.jsonRT, some b.gens, some b.fargs, some b.eqs, 1000000⟩ := by
  have hb' : buildSystem σ m.jsonRT = .ok b := by rw [buildSystem_jsonRT, hb]
  rw [(new_fresh hb r lim fs hf).2.1] at hx
  obtain ⟨d, hd, rfl⟩ := List.mem_map.1 hx
  rw [FS.at_put] at hw hm hg
  unfold constructionDirs at hd
  obtain ⟨w1, w2, w3, w4⟩ := hw
  have hcase : d = { model := some (.full m.jsonRT) } ∨
      d = { model := some (.full m.jsonRT), gens := some (.full b.gens), fargs := some (.full b.fargs) } ∨
      d = { model := some (.full m.jsonRT), gens := some (.full b.gens), fargs := some (.full b.fargs),
            eqs := some (.full b.eqs) } := by
    split at hd
    · simp only [List.append_nil, List.mem_cons, List.not_mem_nil, or_false] at hd
      rcases hd with rfl | rfl | rfl | rfl | rfl | rfl | rfl <;> simp_all
    · simp only [List.cons_append, List.nil_append, List.mem_cons, List.not_mem_nil, or_false] at hd
      rcases hd with rfl | rfl | rfl | rfl | rfl | rfl | rfl | rfl | rfl <;> simp_all
  rcases hcase with rfl | rfl | rfl
  · rw [fromCheckpoint_result σ r _ m.jsonRT none none none (by rw [FS.at_put]; rfl)]
    exact primed_fresh hb' _ _
  · rw [fromCheckpoint_result σ r _ m.jsonRT (some b.gens) (some b.fargs) none (by rw [FS.at_put]; rfl)]
    exact primed_half hb σ _ _ _
  · rw [fromCheckpoint_result σ r _ m.jsonRT (some b.gens) (some b.fargs) (some b.eqs) (by rw [FS.at_put]; rfl)]
    exact primed_full hb σ _ _ _

/-- C35 is false: a stop between `generalized_equations.pkl` and `f_arg_list.pkl` leaves a checkpoint that
cannot be loaded (`AttributeError`), and since existing pickles are never replaced this stays so after
every later reload. -/
theorem C35_between_pickles_fails (σ σ' : SetOrder) (m : Model R) (b : Built R) (hb : buildSystem σ m = .ok b)
    (r : String) (lim : Int) (fs : FS R) (hf : fs.at r = {}) :
    ∃ x ∈ (Sys.new σ m (some r) lim true fs).states, Whole (x.at r) ∧
      (fromCheckpoint σ' r x).result = .error .attributeError := by
  rw [(new_fresh hb r lim fs hf).2.1]
  refine ⟨fs.put r { model := some (.full m.jsonRT), gens := some (.full b.gens) }, ?_, ?_, ?_⟩
  · unfold constructionDirs
    simp
  · rw [FS.at_put]
    simp [Whole]
  · rw [fromCheckpoint_result σ' r _ m.jsonRT (some b.gens) none none (by rw [FS.at_put]; rfl)]
    exact primed_gens_only σ' _ _ _ _

/-- C35 is false: a stop before `model.json` leaves a directory from which nothing can be loaded. -/
theorem C35_before_model_fails (σ σ' : SetOrder) (m : Model R) (b : Built R) (hb : buildSystem σ m = .ok b)
    (r : String) (lim : Int) (fs : FS R) (hf : fs.at r = {}) :
    ∃ x ∈ (Sys.new σ m (some r) lim true fs).states, Whole (x.at r) ∧
      (fromCheckpoint σ' r x).result = .error .abort := by
  rw [(new_fresh hb r lim fs hf).2.1]
  refine ⟨fs.put r {}, ?_, ?_, ?_⟩
  · unfold constructionDirs
    simp
  · rw [FS.at_put]
    simp [Whole]
  · rw [fromCheckpoint_no_model]
    rw [FS.at_put]

/-- Beyond the claim: a stop while a pickle is being written leaves a file that no later operation ever
replaces, and every later reload with the model present fails with `EOFError`. -/
theorem C35_torn_pickle_permanent (fs fs' : FS R) (h : Later fs fs') (r : String)
    (ht : (fs.at r).gens = some .torn ∨ (fs.at r).fargs = some .torn ∨ (fs.at r).eqs = some .torn) (σ : SetOrder)
    (m : Model R) (hm : (fs'.at r).model = some (.full m)) : (fromCheckpoint σ r fs').result = .error .eofError := by
  obtain ⟨h1, h2, h3⟩ := C33_pickles_partial fs fs' h r
  apply fromCheckpoint_torn σ r fs' m hm
  rcases ht with ht | ht | ht
  · exact Or.inl (h1 _ ht)
  · exact Or.inr (Or.inl (h2 _ ht))
  · exact Or.inr (Or.inr (h3 _ ht))

/-- Beyond the claim: even reloading a complete checkpoint passes through a moment at which a stop
destroys it, because `model.json` is emptied and written again. -/
theorem C35_reload_can_destroy (σ σ' : SetOrder) (m : Model R) (b : Built R) (hb : buildSystem σ m = .ok b)
    (r : String) (fs : FS R) (hf : fs.at r = {}) :
    let fs1 := (Sys.new σ m (some r) 1000000 true fs).fs
    ∃ x ∈ (fromCheckpoint σ' r fs1).states, (fromCheckpoint σ' r x).result = .error .valueError := by
  intro fs1
  have e3 := (new_fresh hb r 1000000 fs hf).2.2
  have e3' : fs1.at r = _ := e3
  have : ∃ s : Sys R, s.root = some r ∧ (fromCheckpoint σ' r fs1).states = (s.init σ' true fs1).states := by
    unfold fromCheckpoint
    rw [Io.bind_ok (a := fs1.at r) rfl, e3']
    simp only
    rw [Io.bind_ok (a := some b.gens) rfl, Io.bind_ok (a := some b.fargs) rfl]
    by_cases hl : ((allEqs b.eqs).length : Int) > 1000000
    · simp only [hl, if_true]
      rw [Io.bind_ok (a := none) rfl]
      exact ⟨_, rfl, rfl⟩
    · simp only [hl, if_false]
      rw [Io.bind_ok (a := some b.eqs) rfl]
      exact ⟨_, rfl, rfl⟩
  obtain ⟨s, hs, he⟩ := this
  obtain ⟨x, hx, hx'⟩ := (model_after_init σ' s true r hs fs1).2
  rw [he]
  exact ⟨x, hx, by rw [fromCheckpoint_torn_model σ' r x hx']⟩

/-! ### C36 -/

/-- C36 is false: giving a solver a system and a path does not checkpoint the system there unless the
system already had that root: nothing is written, and a later solver created from the path aborts. -/
theorem C36_solver_root_fails (σ : SetOrder) (s : Sys R) (r : String) (hr : s.root ≠ some r) (fs : FS R)
    (hf : fs.at r = {}) :
    (solverInit σ (some s) (some r) fs).result = .ok s ∧
    (solverInit σ (some s) (some r) fs).fs.at r = {} ∧
    (solverInit σ none (some r) (solverInit σ (some s) (some r) fs).fs).result = .error .abort := by
  have h1 : (solverInit σ (some s) (some r) fs).result = .ok s ∧
      (solverInit σ (some s) (some r) fs).fs.at r = {} := by
    unfold solverInit
    simp only
    rw [Io.bind_ok (a := ()) rfl, Io.bind_ok (a := s) rfl, Io.bind_ok (checkpoint_ok ..)]
    refine ⟨rfl, ?_⟩
    simp only [Io.pure_apply, Io.mkdir, hf]
    rw [checkpoint_other s r hr, FS.at_put]
  refine ⟨h1.1, h1.2, ?_⟩
  generalize (solverInit σ (some s) (some r) fs).fs = fs' at h1 ⊢
  unfold solverInit
  simp only
  rw [Io.bind_ok (a := ()) rfl]
  simp only [Io.mkdir]
  rw [Io.bind_error (e := .abort)]
  rw [fromCheckpoint_no_model]
  simp [h1.2]

/-- C36 for a system that was constructed with that root (on a fresh directory): a later solver created
from the path alone gets the same equations. What is missing: all other systems
(`C36_solver_root_fails`). -/
theorem C36_same_root_partial (σ σ' : SetOrder) (m : Model R) (b : Built R) (hb : buildSystem σ m = .ok b)
    (r : String) (lim : Int) (fs : FS R) (hf : fs.at r = {}) :
    ∃ s, (Sys.new σ m (some r) lim true fs).result = .ok s ∧
      (let fs1 := (Sys.new σ m (some r) lim true fs).fs
       let o := sparseInit σ (some s) (some r) fs1
       o.result = .ok (s, fullBasis b.eqs) ∧
       (sparseInit σ' none (some r) o.fs).result =
        .ok (⟨some r, m.jsonRT, some b.gens, some b.fargs, some b.eqs, 1000000⟩, fullBasis b.eqs)) := by
  obtain ⟨e1, -, e3⟩ := new_fresh hb r lim fs hf
  refine ⟨_, e1, ?_⟩
  intro fs1
  have e3' : fs1.at r = _ := e3
  have ho : solverInit σ (some ⟨some r, m, some b.gens, some b.fargs, some b.eqs, lim⟩) (some r) fs1 =
      ⟨.ok ⟨some r, m, some b.gens, some b.fargs, some b.eqs, lim⟩, fs1.put r (fs1.at r), [fs1.put r (fs1.at r)]⟩ := by
    unfold solverInit
    simp only
    rw [Io.bind_ok (a := ()) rfl, Io.bind_ok (a := _) rfl, Io.bind_ok (checkpoint_ok ..)]
    have hc : checkpoint ⟨some r, m, some b.gens, some b.fargs, some b.eqs, lim⟩ (fs1.put r (fs1.at r)) =
        ⟨.ok (), fs1.put r (fs1.at r), []⟩ := by
      by_cases hl : ((allEqs b.eqs).length : Int) > lim
      · exact checkpoint_over _ _ (by simpa [overLimit] using hl)
      · exact checkpoint_present r _ rfl _ (by simp [e3']) (by simp [e3']) (by simp [e3', hl])
    simp [Io.mkdir, Io.pure_apply, hc]
  intro o
  have ho' : o = ⟨.ok (⟨some r, m, some b.gens, some b.fargs, some b.eqs, lim⟩, fullBasis b.eqs),
      fs1.put r (fs1.at r), [fs1.put r (fs1.at r)]⟩ := by
    show sparseInit σ _ _ fs1 = _
    unfold sparseInit
    rw [Io.bind_ok (a := (⟨some r, m, some b.gens, some b.fargs, some b.eqs, lim⟩ : Sys R)) (by rw [ho]), ho]
    simp [Io.pure_apply]
  refine ⟨by rw [ho'], ?_⟩
  rw [ho']
  simp only
  have hl : (fromCheckpoint σ' r (fs1.put r (fs1.at r))).result =
      .ok ⟨some r, m.jsonRT, some b.gens, some b.fargs, some b.eqs, 1000000⟩ := by
    split at e3'
    · rw [fromCheckpoint_result σ' r _ m.jsonRT (some b.gens) (some b.fargs) none (by rw [FS.at_put, e3']; rfl)]
      exact primed_half hb σ' _ _ _
    · rw [fromCheckpoint_result σ' r _ m.jsonRT (some b.gens) (some b.fargs) (some b.eqs)
        (by rw [FS.at_put, e3']; rfl)]
      exact primed_full hb σ' _ _ _
  have hi : (solverInit σ' none (some r) (fs1.put r (fs1.at r))).result =
      .ok ⟨some r, m.jsonRT, some b.gens, some b.fargs, some b.eqs, 1000000⟩ := by
    unfold solverInit
    simp only
    rw [Io.bind_ok (a := ()) rfl]
    simp only [Io.mkdir, FS.at_put, FS.put_put]
    rw [Io.bind_ok hl, Io.bind_ok (checkpoint_ok ..)]
    rfl
  unfold sparseInit
  rw [Io.bind_ok hi]
  rfl

/-! ### C47 -/

/-- C47 is false: a solver does not prime a lazy system; it fails with `AttributeError`. -/
theorem C47_lazy_fails (σ : SetOrder) (m : Model R) (root root' : Option String) (lim : Int) (fs fs' : FS R) :
    ∃ s, (Sys.new σ m root lim false fs).result = .ok s ∧
      (sparseInit σ (some s) root' fs').result = .error .attributeError ∧
      (denseInit σ (some s) root' fs').result = .error .attributeError := by
  refine ⟨⟨root, m, none, none, none, lim⟩, ?_, ?_⟩
  · unfold Sys.new init
    cases root with
    | none => rfl
    | some r =>
      simp only
      rw [Io.bind_ok (a := ()) rfl, Io.bind_ok (saveModel_ok ..)]
      rfl
  · have h := solverInit_given σ ⟨root, m, none, none, none, lim⟩ root' fs'
    exact ⟨by unfold sparseInit; rw [Io.bind_ok h]; rfl, by unfold denseInit; rw [Io.bind_ok h]; rfl⟩

/-- C47 with an explicit call of `_prime_system`: both solvers then have what they need, the same as for a
system primed at once. What is missing: the solver does not make that call (`C47_lazy_fails`). -/
theorem C47_primed_partial (σ : SetOrder) (m : Model R) (b : Built R) (hb : buildSystem σ m = .ok b)
    (root root' : Option String) (lim : Int) (fs fs' fs'' : FS R) :
    ∃ s s', (Sys.new σ m root lim false fs).result = .ok s ∧ (s.prime σ fs').result = .ok s' ∧
      (Sys.new σ m root lim true fs).result = .ok s' ∧
      (sparseInit σ (some s') root' fs'').result = .ok (s', fullBasis b.eqs) ∧
      (denseInit σ (some s') root' fs'').result = .ok (s', localBasis b.eqs) := by
  refine ⟨⟨root, m, none, none, none, lim⟩, ⟨root, m, some b.gens, some b.fargs, some b.eqs, lim⟩, ?_, ?_, ?_, ?_⟩
  · unfold Sys.new init
    cases root with
    | none => rfl
    | some r =>
      simp only
      rw [Io.bind_ok (a := ()) rfl, Io.bind_ok (saveModel_ok ..)]
      rfl
  · rw [prime_result]; exact primed_fresh hb _ _
  · rw [Sys.new, init_result]; exact primed_fresh hb _ _
  · have h := solverInit_given σ ⟨root, m, some b.gens, some b.fargs, some b.eqs, lim⟩ root' fs''
    exact ⟨by unfold sparseInit; rw [Io.bind_ok h]; rfl, by unfold denseInit; rw [Io.bind_ok h]; rfl⟩

/-- C47, defaults: `System(model, root=root)` primes at once, so both solvers accept it as it is. -/
theorem C47_default_primed (σ : SetOrder) (m : Model R) (b : Built R) (hb : buildSystem σ m = .ok b)
    (root root' : Option String) (fs fs' : FS R) :
    ∃ s, ((Sys.new σ m root : Io R (Sys R)) fs).result = .ok s ∧
      (sparseInit σ (some s) root' fs').result = .ok (s, fullBasis b.eqs) ∧
      (denseInit σ (some s) root' fs').result = .ok (s, localBasis b.eqs) := by
  obtain ⟨s, s', -, -, h1, h2, h3⟩ := C47_primed_partial σ m b hb root root' 1000000 fs fs fs'
  exact ⟨s', h1, h2, h3⟩

/-- C34, defaults: `System(model, root=root)` on a fresh root writes the equations exactly if there are at
most 1,000,000 of them, as the docstring of `checkpoint` says. The model, the generalized equations and the
argument lists are written for any number of equations, so the "does not work" of that docstring holds for the
equations only. -/
theorem C34_default_limit (σ : SetOrder) (m : Model R) (b : Built R) (hb : buildSystem σ m = .ok b) (r : String)
    (fs : FS R) (hf : fs.at r = {}) :
    let d := ((Sys.new σ m (some r) : Io R (Sys R)) fs).fs.at r
    (d.eqs = some (.full b.eqs) ↔ (allEqs b.eqs).length ≤ 10 ^ 6) ∧
      (d.eqs = none ↔ 10 ^ 6 < (allEqs b.eqs).length) ∧
      d.model = some (.full m.jsonRT) ∧ d.gens = some (.full b.gens) ∧ d.fargs = some (.full b.fargs) := by
  have h := (new_fresh hb r 1000000 fs hf).2.2
  intro d
  have hd : d = _ := h
  rw [hd]
  by_cases hl : ((allEqs b.eqs).length : Int) > 1000000
  · have h' : 10 ^ 6 < (allEqs b.eqs).length := by omega
    simpa [hl] using h'
  · have h' : (allEqs b.eqs).length ≤ 10 ^ 6 := by omega
    simpa [hl] using h'

/-! ### Examples -/

/-- the small model of Verif/Props/Solver.lean on an empty disk meets the premises of the theorems above -/
example : buildSystem ⟨id, fun l => .refl l⟩ exSmall = .ok exSmallBuilt ∧
    FS.at (fun _ => none : FS ℚ) "root" = {} ∧ (allEqs exSmallBuilt.eqs).length = 2 ∧
    exSmall.jsonRT ≠ { exSmall with temperature := 1 }.jsonRT := by decide +kernel

/-- primitives for the example -/
def exPrimsQ : Prims ℚ := ⟨fun _ _ _ l => .ok l, fun _ _ => (1, 0)⟩

/-- The restored model is not interchangeable with the original: a coupling with a larger extent added
later raises the absolute extent of the original only. -/
theorem C34_later_addition_fails : ∃ (m : Model ℚ) (a : AddArgs ℚ) (m1 m2 : Model ℚ),
    (Model.fromParameters (1 : ℚ) 1 0 none 1).adds exPrimsQ
      [{ ctype := "Holstein", freq := 1, M := 2, N := 2, g := some 1 }] = .ok m ∧
    m.add exPrimsQ a = .ok m1 ∧ m.jsonRT.add exPrimsQ a = .ok m2 ∧ m1.absExtent = some 3 ∧
      m2.absExtent = some 2 := by
  refine ⟨_, { ctype := "Holstein", freq := 2, M := 3, N := 1, g := some 1 }, _, _, rfl, rfl, rfl, ?_, ?_⟩ <;>
    decide +kernel

end GGCE.Props
