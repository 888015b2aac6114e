import Verif.Proofs.Disk
import Verif.Proofs.Grid
import Verif.Model.Script

/-! What the files of the checkpoints hold while programs for one model run. -/

set_option linter.unusedSectionVars false

namespace GGCE
open Sys

variable {R : Type} [Field R] [LinearOrder R]

/-- generalized equations and arguments of one construction for the model -/
def GensOf (m : Model R) (g : Option (EqDict R)) (f : Option FArgs) : Prop :=
  (g = none ∧ f = none) ∨ ∃ σ b, buildSystem σ m = .ok b ∧ g = some b.gens ∧ f = some b.fargs

/-- equations of one construction for the model -/
def EqsOf (m : Model R) (e : Option (EqDict R)) : Prop :=
  e = none ∨ ∃ σ b, buildSystem σ m = .ok b ∧ e = some b.eqs

/-- a directory that programs for the model have used -/
def GoodDir (m : Model R) (d : Dir R) : Prop :=
  ∃ g f e, GensOf m g f ∧ EqsOf m e ∧ d.gens = complete g ∧ d.fargs = complete f ∧ d.eqs = complete e ∧
    (d.model = some (.full m.jsonRT) ∨ (d.model = none ∧ g = none ∧ e = none))

/-- a system for the model as a program holds it -/
structure GoodSys (m : Model R) (s : Sys R) : Prop where
  model : s.model = m ∨ s.model = m.jsonRT
  gens : ∃ σ b, buildSystem σ m = .ok b ∧ s.gens = some b.gens ∧ s.fargs = some b.fargs
  eqs : ∃ σ b, buildSystem σ m = .ok b ∧ s.eqs = some b.eqs

/-- what a solver needs of a system -/
structure HasEqs (m : Model R) (s : Sys R) : Prop where
  model : s.model = m ∨ s.model = m.jsonRT
  eqs : ∃ σ b, buildSystem σ m = .ok b ∧ s.eqs = some b.eqs

theorem GoodSys.hasEqs {m : Model R} {s : Sys R} (h : GoodSys m s) : HasEqs m s := ⟨h.model, h.eqs⟩

theorem GoodDir.empty (m : Model R) : GoodDir m ({} : Dir R) :=
  ⟨none, none, none, Or.inl ⟨rfl, rfl⟩, Or.inl rfl, rfl, rfl, rfl, Or.inr ⟨rfl, rfl, rfl⟩⟩

/-- what holds of the disk, if every root belongs to one model: good directories, and a model in the known ones -/
def GoodFS (own : String → Model R) (known : String → Prop) (fs : FS R) : Prop :=
  (∀ q, GoodDir (own q) (fs.at q)) ∧ ∀ q, known q → (fs.at q).model = some (.full (own q).jsonRT)

theorem GoodFS.put {own : String → Model R} {known : String → Prop} {fs : FS R} (h : GoodFS own known fs) (r : String)
    {d : Dir R} (hd : GoodDir (own r) d) (hm : (fs.at r).model ≠ none → d.model = some (.full (own r).jsonRT)) :
    GoodFS own known (fs.put r d) := by
  constructor
  · intro q
    by_cases e : q = r
    · subst e; rw [FS.at_put]; exact hd
    · rw [FS.at_put_ne _ e]; exact h.1 q
  · intro q hq
    by_cases e : q = r
    · subst e
      rw [FS.at_put]
      exact hm (by rw [h.2 q hq]; simp)
    · rw [FS.at_put_ne _ e]; exact h.2 q hq

theorem GoodFS.mkdir {own : String → Model R} {known : String → Prop} {fs : FS R} (h : GoodFS own known fs) (r : String) :
    GoodFS own known ((Io.mkdir r : Io R Unit) fs).fs := by
  refine h.put r (h.1 r) (fun hn => ?_)
  obtain ⟨g, f, e, -, -, -, -, -, hm⟩ := h.1 r
  rcases hm with hm | hm
  · exact hm
  · exact absurd hm.1 hn

theorem GoodFS.saveModel {own : String → Model R} {m : Model R} {known : String → Prop} {fs : FS R}
    (h : GoodFS own known fs) (s : Sys R) (hs : s.model = m ∨ s.model = m.jsonRT)
    (ho : ∀ r, s.root = some r → own r = m) : GoodFS own (fun q => known q ∨ s.root = some q) (s.saveModel fs).fs := by
  have hj : s.model.jsonRT = m.jsonRT := by
    rcases hs with e | e
    · rw [e]
    · rw [e, jsonRT_jsonRT]
  unfold Sys.saveModel
  cases hr : s.root with
  | none => exact ⟨h.1, fun q hq => h.2 q (by simpa using hq)⟩
  | some r =>
    have hor := ho r hr
    simp only [Io.write, hj]
    rw [← hor]
    have h1 : GoodFS own known (fs.put r { fs.at r with model := some (.full (own r).jsonRT) }) := by
      refine h.put r ?_ (fun _ => rfl)
      obtain ⟨g, f, e, a1, a2, a3, a4, a5, -⟩ := h.1 r
      exact ⟨g, f, e, a1, a2, a3, a4, a5, Or.inl rfl⟩
    refine ⟨h1.1, fun q hq => ?_⟩
    rcases hq with hq | hq
    · exact h1.2 q hq
    · cases hq
      rw [FS.at_put]

theorem saveAttr_fs {β : Type} (r : String) (get : Dir R → Option (File β)) (upd : File β → Dir R → Dir R)
    (obj : Option β) (fs : FS R) : (saveAttr r get upd obj fs).fs = fs ∨
      ∃ b, obj = some b ∧ get (fs.at r) = none ∧ (saveAttr r get upd obj fs).fs = fs.put r (upd (.full b) (fs.at r)) := by
  cases obj with
  | none => left; rw [saveAttr_skip _ _ _ _ _ (Or.inl rfl)]
  | some b =>
    cases hg : get (fs.at r) with
    | none => right; exact ⟨b, rfl, rfl, by rw [saveAttr_write _ _ _ _ _ hg]⟩
    | some x => left; rw [saveAttr_skip _ _ _ _ _ (Or.inr (by rw [hg]; rfl))]

/-- writing a checkpoint of a good system -/
theorem GoodFS.checkpoint {own : String → Model R} {m : Model R} {known : String → Prop} {fs : FS R}
    (h : GoodFS own known fs) (s : Sys R) (hk : ∀ r, s.root = some r → known r ∧ own r = m)
    (hg : GensOf m s.gens s.fargs) (he : EqsOf m s.eqs) : GoodFS own known (s.checkpoint fs).fs := by
  unfold Sys.checkpoint
  cases hr : s.root with
  | none => exact h
  | some r =>
    simp only
    split
    · exact h
    obtain ⟨hkr, rfl⟩ := hk r hr
    have hmod : (fs.at r).model = some (.full (own r).jsonRT) := h.2 r hkr
    rw [Io.bind_ok (saveAttr_ok ..), Io.bind_ok (saveAttr_ok ..)]
    simp only
    obtain ⟨g0, f0, e0, a1, a2, a3, a4, a5, -⟩ := h.1 r
    -- the two files of generalized equations are written together
    have hd : ∀ d : Dir R, d.model = some (.full (own r).jsonRT) → GoodDir (own r) d → GoodFS own known (fs.put r d) :=
      fun d h1 h2 => h.put r h2 (fun _ => h1)
    set fs1 := (saveAttr r Dir.gens (fun f d => { d with gens := some f }) s.gens fs).fs with hfs1
    set fs2 := (saveAttr r Dir.fargs (fun f d => { d with fargs := some f }) s.fargs fs1).fs with hfs2
    have key : GoodFS own known fs2 ∧ ∃ g f, GensOf (own r) g f ∧ (fs2.at r).gens = complete g ∧ (fs2.at r).fargs = complete f ∧
        (fs2.at r).eqs = complete e0 ∧ (fs2.at r).model = some (.full (own r).jsonRT) := by
      rcases a1 with ⟨rfl, rfl⟩ | ⟨σ0, b0, c1, rfl, rfl⟩
      · -- nothing there yet
        rcases hg with ⟨n1, n2⟩ | ⟨σ1, b1, c1, n1, n2⟩
        · have e1 : fs1 = fs := by rw [hfs1, n1, saveAttr_skip _ _ _ _ _ (Or.inl rfl)]
          have e2 : fs2 = fs := by rw [hfs2, n2, saveAttr_skip _ _ _ _ _ (Or.inl rfl), e1]
          rw [e2]
          exact ⟨h, none, none, Or.inl ⟨rfl, rfl⟩, a3, a4, a5, hmod⟩
        · have e1 : fs1 = fs.put r { fs.at r with gens := some (.full b1.gens) } := by
            rw [hfs1, n1, saveAttr_write _ _ _ _ _ (by rw [a3]; rfl)]
          have e2 : fs2 = fs.put r { fs.at r with gens := some (.full b1.gens), fargs := some (.full b1.fargs) } := by
            rw [hfs2, n2, e1, saveAttr_write _ _ _ _ _ (by rw [FS.at_put]; exact a4), FS.at_put, FS.put_put]
          have gens : GensOf (own r) (some b1.gens) (some b1.fargs) := Or.inr ⟨σ1, b1, c1, rfl, rfl⟩
          rw [e2]
          refine ⟨hd _ hmod ⟨_, _, e0, gens, a2, rfl, rfl, a5, Or.inl hmod⟩, _, _, gens, ?_⟩
          rw [FS.at_put]
          exact ⟨rfl, rfl, a5, hmod⟩
      · have e1 : fs1 = fs := by rw [hfs1, saveAttr_skip _ _ _ _ _ (Or.inr (by rw [a3]; rfl))]
        have e2 : fs2 = fs := by rw [hfs2, e1, saveAttr_skip _ _ _ _ _ (Or.inr (by rw [a4]; rfl))]
        rw [e2]
        exact ⟨h, _, _, Or.inr ⟨σ0, b0, c1, rfl, rfl⟩, a3, a4, a5, hmod⟩
    obtain ⟨k1, g, f, k2, k3, k4, k5, k6⟩ := key
    rcases saveAttr_fs r Dir.eqs (fun f d => { d with eqs := some f }) s.eqs fs2 with e | ⟨b, e1, -, e3⟩
    · rw [e]; exact k1
    · rw [e3]
      refine k1.put r ?_ (fun _ => k6)
      rw [e1] at he
      exact ⟨g, f, some b, k2, he, k3, k4, rfl, Or.inl k6⟩

/-- what priming gives from good parts -/
theorem prime_good {own : String → Model R} {m : Model R} (σ : SetOrder) (hb : ∀ σ, ∃ b, buildSystem σ m = .ok b) (s : Sys R)
    (hm : s.model = m ∨ s.model = m.jsonRT) (hg : GensOf m s.gens s.fargs) (he : EqsOf m s.eqs)
    {known : String → Prop} (hk : ∀ r, s.root = some r → known r ∧ own r = m) {fs : FS R} (h : GoodFS own known fs) :
    ∃ s', (s.prime σ fs).result = .ok s' ∧ GoodSys m s' ∧ s'.root = s.root ∧ GoodFS own known (s.prime σ fs).fs := by
  -- generalized equations
  obtain ⟨s1, p1, g1, q1⟩ : ∃ s1, primeGens σ s = .ok s1 ∧
      (∃ σ b, buildSystem σ m = .ok b ∧ s1.gens = some b.gens ∧ s1.fargs = some b.fargs) ∧
      s1.root = s.root ∧ s1.model = s.model ∧ s1.eqs = s.eqs := by
    rcases hg with ⟨n1, n2⟩ | ⟨σ0, b0, c1, n1, n2⟩
    · obtain ⟨b, hb⟩ := hb σ
      have hbm : buildSystem σ s.model = .ok b := by
        rcases hm with e | e
        · rw [e]; exact hb
        · rw [e, buildSystem_jsonRT]; exact hb
      obtain ⟨confs, h1, h2, -, -⟩ := buildSystem_steps hbm
      refine ⟨{ s with gens := some b.gens, fargs := some b.fargs }, ?_, ⟨σ, b, hb, rfl, rfl⟩, rfl, rfl, rfl⟩
      unfold primeGens
      rw [n1, n2]
      simp only [bind, Except.bind, h1, h2]
      rfl
    · refine ⟨s, ?_, ⟨σ0, b0, c1, n1, n2⟩, rfl, rfl, rfl⟩
      unfold primeGens
      rw [n1]
  obtain ⟨q1, q2, q3⟩ := q1
  have k1 : GoodFS own known (s1.checkpoint fs).fs :=
    h.checkpoint s1 (by rw [q1]; exact hk) (Or.inr g1) (by rw [q3]; exact he)
  -- equations
  obtain ⟨s2, p2, ⟨σ2, b2, c2, n2⟩, q4, q5, q6, q7⟩ : ∃ s2, primeEqs s1 = .ok s2 ∧
      (∃ σ b, buildSystem σ m = .ok b ∧ s2.eqs = some b.eqs) ∧ s2.root = s.root ∧ s2.model = s.model ∧
      s2.gens = s1.gens ∧ s2.fargs = s1.fargs := by
    rcases he with n | ⟨σ0, b0, c0, n⟩
    · obtain ⟨σ1, b1, c1, n1, n2⟩ := g1
      obtain ⟨confs, -, -, h3, -⟩ := buildSystem_steps c1
      refine ⟨{ s1 with eqs := some b1.eqs }, ?_, ⟨σ1, b1, c1, rfl⟩, q1, q2, rfl, rfl⟩
      unfold primeEqs
      rw [q3, n, n1, n2]
      simp only [bind, Except.bind, h3]
      rfl
    · refine ⟨s1, ?_, ⟨σ0, b0, c0, by rw [q3, n]⟩, q1, q2, rfl, rfl⟩
      unfold primeEqs
      rw [q3, n]
  obtain ⟨-, -, -, -, h4⟩ := buildSystem_steps c2
  have g2 : ∃ σ b, buildSystem σ m = .ok b ∧ s2.gens = some b.gens ∧ s2.fargs = some b.fargs := by
    obtain ⟨σ1, b1, c1, n1, n3⟩ := g1
    exact ⟨σ1, b1, c1, by rw [q6, n1], by rw [q7, n3]⟩
  refine ⟨s2, ?_, ⟨by rw [q5]; exact hm, g2, ⟨σ2, b2, c2, n2⟩⟩, q4, ?_⟩
  · rw [prime_result]
    unfold primed
    simp only [p1, Except.bind, p2, n2, h4]
  · have k2 := k1.checkpoint s2 (by rw [q4]; exact hk) (Or.inr g2) (Or.inr ⟨σ2, b2, c2, n2⟩)
    unfold prime
    rw [Io.bind_ok (a := s1) (by simp [Io.lift, p1]), Io.bind_ok (checkpoint_ok ..), Io.bind_ok (a := s2)
      (by simp [Io.lift, p2]), Io.bind_ok (checkpoint_ok ..)]
    simp only [Io.lift, n2]
    rw [Io.bind_ok (a := ()) h4]
    exact k2

/-- constructing or reloading a system -/
theorem init_good {own : String → Model R} {m : Model R} (σ : SetOrder) (hb : ∀ σ, ∃ b, buildSystem σ m = .ok b) (s : Sys R)
    (hm : s.model = m ∨ s.model = m.jsonRT) (hg : GensOf m s.gens s.fargs) (he : EqsOf m s.eqs)
    (ho : ∀ r, s.root = some r → own r = m)
    {known : String → Prop} {fs : FS R} (h : GoodFS own known fs) :
    ∃ s', (s.init σ true fs).result = .ok s' ∧ GoodSys m s' ∧ s'.root = s.root ∧
      GoodFS own (fun q => known q ∨ s.root = some q) (s.init σ true fs).fs := by
  have key : ∀ fs1 : FS R, GoodFS own known fs1 → ∃ s', ((do s.saveModel; s.prime σ : Io R (Sys R)) fs1).result = .ok s' ∧
      GoodSys m s' ∧ s'.root = s.root ∧ GoodFS own (fun q => known q ∨ s.root = some q)
        ((do s.saveModel; s.prime σ : Io R (Sys R)) fs1).fs := by
    intro fs1 h1
    rw [Io.bind_ok (saveModel_ok ..)]
    exact prime_good σ hb s hm hg he (fun r hr => ⟨Or.inr hr, ho r hr⟩) (h1.saveModel s hm ho)
  unfold Sys.init
  cases hr : s.root with
  | none =>
    simp only [if_true]
    rw [hr] at key
    exact key fs h
  | some r =>
    simp only [if_true]
    rw [Io.bind_ok (a := ()) rfl]
    rw [hr] at key
    exact key _ (h.mkdir r)

/-- a solver from a given system -/
theorem solverInit_given {own : String → Model R} {m : Model R} (σ : SetOrder) {s : Sys R} (hs : GoodSys m s) (root : Option String)
    {known : String → Prop} (hk : ∀ r, s.root = some r → known r ∧ own r = m) {fs : FS R} (h : GoodFS own known fs) :
    (solverInit σ (some s) root fs).result = .ok s ∧ GoodFS own known (solverInit σ (some s) root fs).fs := by
  have key : ∀ fs1 : FS R, GoodFS own known fs1 → ((do s.checkpoint; pure s : Io R (Sys R)) fs1).result = .ok s ∧
      GoodFS own known ((do s.checkpoint; pure s : Io R (Sys R)) fs1).fs := by
    intro fs1 h1
    rw [Io.bind_ok (checkpoint_ok ..)]
    refine ⟨rfl, ?_⟩
    obtain ⟨σ1, b1, c1, n1⟩ := hs.eqs
    exact h1.checkpoint s hk (Or.inr hs.gens) (Or.inr ⟨σ1, b1, c1, n1⟩)
  unfold solverInit
  cases root with
  | none =>
    simp only
    rw [Io.bind_ok (a := s) rfl]
    exact key fs h
  | some r =>
    simp only
    rw [Io.bind_ok (a := ()) rfl, Io.bind_ok (a := s) rfl]
    exact key _ (h.mkdir r)

/-- a solver from a directory that holds the model -/
theorem solverInit_resume {own : String → Model R} {m : Model R} (σ : SetOrder) (hb : ∀ σ, ∃ b, buildSystem σ m = .ok b) {r : String}
    {known : String → Prop} (hk : known r) (ho : own r = m) {fs : FS R} (h : GoodFS own known fs) :
    ∃ s, (solverInit σ none (some r) fs).result = .ok s ∧ GoodSys m s ∧
      GoodFS own known (solverInit σ none (some r) fs).fs := by
  unfold solverInit
  simp only
  rw [Io.bind_ok (a := ()) rfl]
  have h1 := h.mkdir r
  set fs1 := ((Io.mkdir r : Io R Unit) fs).fs with hfs1
  have hmod := h1.2 r hk
  have hgd := h1.1 r
  rw [ho] at hmod hgd
  obtain ⟨g, f, e, a1, a2, a3, a4, a5, -⟩ := hgd
  have hload : ∃ s', (fromCheckpoint σ r fs1).result = .ok s' ∧ GoodSys m s' ∧ s'.root = some r ∧
      GoodFS own known (fromCheckpoint σ r fs1).fs := by
    obtain ⟨s', e1, e2, e3, e4⟩ := init_good σ hb ⟨some r, m.jsonRT, g, f, e, 1000000⟩ (Or.inr rfl) a1 a2
      (by intro q hq; cases hq; exact ho) h1
    have e5 : (fromCheckpoint σ r fs1).result = .ok s' ∧
        (fromCheckpoint σ r fs1).fs = (Sys.init σ ⟨some r, m.jsonRT, g, f, e, 1000000⟩ true fs1).fs := by
      unfold fromCheckpoint
      rw [Io.bind_ok (a := fs1.at r) rfl, hmod]
      simp only [a3, a4, a5, load_complete]
      rw [Io.bind_ok (a := g) rfl, Io.bind_ok (a := f) rfl, Io.bind_ok (a := e) rfl]
      exact ⟨e1, rfl⟩
    refine ⟨s', e5.1, e2, e3, ?_⟩
    rw [e5.2]
    refine ⟨e4.1, fun q hq => e4.2 q (Or.inl hq)⟩
  obtain ⟨s', e1, e2, e3, e4⟩ := hload
  rw [Io.bind_ok e1, Io.bind_ok (checkpoint_ok ..)]
  obtain ⟨σ1, b1, c1, n1⟩ := e2.eqs
  refine ⟨s', rfl, e2, ?_⟩
  exact e4.checkpoint s' (by rw [e3]; intro q hq; cases hq; exact ⟨hk, ho⟩) (Or.inr e2.gens) (Or.inr ⟨σ1, b1, c1, n1⟩)

variable {K : Type} [Field K]

/-- a solver object for the model -/
def GoodObj (m : Model R) (kind : SolverKind K) : SolverObj R K → Prop
  | .sparse s basis sp => kind = .sparse sp ∧ HasEqs m s ∧ ∀ e, s.eqs = some e → basis = fullBasis e
  | .dense s basis => kind = .dense ∧ HasEqs m s ∧ ∀ e, s.eqs = some e → basis = localBasis e

theorem new_obj {own : String → Model R} {m : Model R} (σ : SetOrder) (kind : SolverKind K) (system : Option (Sys R)) (root : Option String)
    {known : String → Prop} {fs : FS R} {s : Sys R} (h1 : (solverInit σ system root fs).result = .ok s)
    (h2 : GoodSys m s) (h3 : GoodFS own known (solverInit σ system root fs).fs) :
    ∃ o, (SolverObj.new σ kind system root fs).result = .ok o ∧ GoodObj m kind o ∧
      GoodFS own known (SolverObj.new σ kind system root fs).fs := by
  obtain ⟨σ1, b1, c1, n1⟩ := h2.eqs
  cases kind with
  | sparse sp =>
    have e : sparseInit σ system root fs = ⟨.ok (s, fullBasis b1.eqs), (solverInit σ system root fs).fs,
        (solverInit σ system root fs).states⟩ := by
      unfold sparseInit
      rw [Io.bind_ok h1]
      simp [n1, Io.pure_apply]
    refine ⟨.sparse s (fullBasis b1.eqs) sp, ?_, ⟨rfl, h2.hasEqs, fun e he => ?_⟩, ?_⟩
    · unfold SolverObj.new
      simp only
      rw [Io.bind_ok (a := (s, fullBasis b1.eqs)) (by rw [e])]
      rfl
    · rw [n1] at he; cases he; rfl
    · unfold SolverObj.new
      simp only
      rw [Io.bind_ok (a := (s, fullBasis b1.eqs)) (by rw [e]), e]
      exact h3
  | dense =>
    have e : denseInit σ system root fs = ⟨.ok (s, localBasis b1.eqs), (solverInit σ system root fs).fs,
        (solverInit σ system root fs).states⟩ := by
      unfold denseInit
      rw [Io.bind_ok h1]
      simp [n1, Io.pure_apply]
    refine ⟨.dense s (localBasis b1.eqs), ?_, ⟨rfl, h2.hasEqs, fun e he => ?_⟩, ?_⟩
    · unfold SolverObj.new
      simp only
      rw [Io.bind_ok (a := (s, localBasis b1.eqs)) (by rw [e])]
      rfl
    · rw [n1] at he; cases he; rfl
    · unfold SolverObj.new
      simp only
      rw [Io.bind_ok (a := (s, localBasis b1.eqs)) (by rw [e]), e]
      exact h3

/-- the roots a program constructs a system in -/
def Source.adds : Source → String → Prop
  | .fresh r _ _, q => r = some q
  | .resume _, _ => False

/-- the roots a program names -/
def Source.uses : Source → String → Prop
  | .fresh r _ r', q => r = some q ∨ r' = some q
  | .resume r, q => r = q

/-- the construction in a program succeeds -/
theorem construct_good {own : String → Model R} {m : Model R} (hb : ∀ σ, ∃ b, buildSystem σ m = .ok b) (s : Script R K) {known : String → Prop}
    (hk : ∀ r, s.source = .resume r → known r) (ho : ∀ r, s.source.uses r → own r = m) {fs : FS R} (h : GoodFS own known fs) :
    ∃ o, (s.construct m fs).result = .ok o ∧ GoodObj m s.kind o ∧
      GoodFS own (fun q => known q ∨ s.source.adds q) (s.construct m fs).fs := by
  unfold Script.construct
  cases hs : s.source with
  | fresh sysRoot lim solverRoot =>
    simp only
    obtain ⟨s', e1, e2, e3, e4⟩ := init_good s.order hb ⟨sysRoot, m, none, none, none, lim⟩ (Or.inl rfl)
      (Or.inl ⟨rfl, rfl⟩) (Or.inl rfl) (fun r hr => ho r (by rw [hs]; exact Or.inl hr)) h
    rw [Io.bind_ok (x := Sys.new s.order m sysRoot lim) (a := s') e1]
    obtain ⟨f1, f2⟩ := solverInit_given s.order e2 solverRoot (known := fun q => known q ∨ sysRoot = some q)
      (by rw [e3]; intro r hr; exact ⟨Or.inr hr, ho r (by rw [hs]; exact Or.inl hr)⟩) e4
    exact new_obj s.order s.kind (some s') solverRoot f1 e2 f2
  | resume r =>
    obtain ⟨s', e1, e2, e3⟩ := solverInit_resume s.order hb (hk r hs) (ho r (by rw [hs]; rfl)) h
    obtain ⟨o, g1, g2, g3⟩ := new_obj s.order s.kind none (some r) e1 e2 e3
    exact ⟨o, g1, g2, g3.1, fun q hq => g3.2 q (hq.elim id (fun x => x.elim))⟩

end GGCE
