import Verif.Proofs.Script
import Verif.Proofs.Merge
import Verif.Model.Interrupt

/-! What the checkpoint files hold when programs for one model run and some are killed. -/

set_option linter.unusedSectionVars false

namespace GGCE
open Sys

variable {R : Type} [Field R] [LinearOrder R]

/-! ### Invariants -/

namespace Io
variable {α β : Type}

/-- `I` holds in every state the disk goes through, and `Q` of the result if there is one -/
def Safe (I : FS R → Prop) (Q : α → Prop) (x : Io R α) : Prop :=
  ∀ fs, I fs → I (x fs).fs ∧ (∀ s ∈ (x fs).states, I s) ∧ ∀ a, (x fs).result = .ok a → Q a

theorem Safe.bind {I : FS R → Prop} {Q : α → Prop} {Q' : β → Prop} {x : Io R α} {f : α → Io R β} (hx : Safe I Q x)
    (hf : ∀ a, Q a → Safe I Q' (f a)) : Safe I Q' (x >>= f) := by
  intro fs hI
  obtain ⟨h1, h2, h3⟩ := hx fs hI
  cases hr : (x fs).result with
  | error e => rw [bind_error hr]; exact ⟨h1, h2, fun a ha => by cases ha⟩
  | ok a =>
    rw [bind_ok hr]
    obtain ⟨h4, h5, h6⟩ := hf a (h3 a hr) _ h1
    refine ⟨h4, fun s hs => ?_, h6⟩
    rcases List.mem_append.1 hs with h | h
    · exact h2 s h
    · exact h5 s h

theorem Safe.pure {I : FS R → Prop} {Q : α → Prop} {a : α} (h : Q a) : Safe I Q (Pure.pure a : Io R α) :=
  fun fs hI => ⟨hI, by simp [pure_apply], fun b hb => by cases hb; exact h⟩

theorem Safe.lift {I : FS R → Prop} {Q : α → Prop} {x : Py α} (h : ∀ a, x = .ok a → Q a) :
    Safe I Q (Io.lift x : Io R α) := fun fs hI => ⟨hI, by simp [Io.lift], h⟩

theorem Safe.weaken {I : FS R → Prop} {Q Q' : α → Prop} {x : Io R α} (hx : Safe I Q x) (h : ∀ a, Q a → Q' a) :
    Safe I Q' x := fun fs hI => ⟨(hx fs hI).1, (hx fs hI).2.1, fun a ha => h a ((hx fs hI).2.2 a ha)⟩

/-- what a complete file holds -/
theorem load_safe {I : FS R → Prop} (f : Option (File β)) :
    Safe I (fun x => (x = none ∧ f = none) ∨ ∃ a, x = some a ∧ f = some (.full a)) (Io.load f : Io R _) := by
  intro fs hI
  match f with
  | none => exact ⟨hI, by simp [Io.load, ret], fun a ha => by cases ha; exact Or.inl ⟨rfl, rfl⟩⟩
  | some .torn => exact ⟨hI, by simp [Io.load, Io.lift], fun a ha => by cases ha⟩
  | some (.full a) => exact ⟨hI, by simp [Io.load, ret], fun a ha => by cases ha; exact Or.inr ⟨_, rfl, rfl⟩⟩

end Io

/-- Every complete file is as some construction for the model writes it, not necessarily the same one for each file. -/
structure FineDir (m : Model R) (d : Dir R) : Prop where
  model : ∀ x, d.model = some (.full x) → x = m.jsonRT
  gens : ∀ x, d.gens = some (.full x) → ∃ σ b, buildSystem σ m = .ok b ∧ x = b.gens
  fargs : ∀ x, d.fargs = some (.full x) → ∃ σ b, buildSystem σ m = .ok b ∧ x = b.fargs
  eqs : ∀ x, d.eqs = some (.full x) → ∃ σ b, buildSystem σ m = .ok b ∧ x = b.eqs

/-- the same for a system in memory -/
structure FineSys (m : Model R) (s : Sys R) : Prop where
  model : s.model = m ∨ s.model = m.jsonRT
  gens : ∀ x, s.gens = some x → ∃ σ b, buildSystem σ m = .ok b ∧ x = b.gens
  fargs : ∀ x, s.fargs = some x → ∃ σ b, buildSystem σ m = .ok b ∧ x = b.fargs
  eqs : ∀ x, s.eqs = some x → ∃ σ b, buildSystem σ m = .ok b ∧ x = b.eqs

/-- the whole disk -/
def FineFS (m : Model R) (fs : FS R) : Prop := ∀ q, FineDir m (fs.at q)

theorem FineDir.empty (m : Model R) : FineDir m ({} : Dir R) :=
  ⟨by simp, by simp, by simp, by simp⟩

theorem FineFS.put {m : Model R} {fs : FS R} (h : FineFS m fs) (r : String) {d : Dir R} (hd : FineDir m d) :
    FineFS m (fs.put r d) := by
  intro q
  by_cases e : q = r
  · subst e; rw [FS.at_put]; exact hd
  · rw [FS.at_put_ne _ e]; exact h q

theorem mkdir_safe (m : Model R) (r : String) : Io.Safe (FineFS m) (fun _ => True) (Io.mkdir r) := by
  intro fs h
  have := h.put r (h r)
  refine ⟨this, fun s hs => ?_, fun _ _ => trivial⟩
  simp only [Io.mkdir, List.mem_singleton] at hs
  rw [hs]; exact this

/-- the generalized equations do not depend on the order of sets -/
theorem gens_unique {σ σ' : SetOrder} {m : Model R} {b b' : Built R} (h : buildSystem σ m = .ok b)
    (h' : buildSystem σ' m = .ok b') : b.gens = b'.gens := by
  obtain ⟨confs, h1, h2, -, -⟩ := buildSystem_steps h
  obtain ⟨confs', h1', h2', -, -⟩ := buildSystem_steps h'
  rw [h1] at h1'; cases h1'
  unfold initGeneralized at h2 h2'
  simp only [bind, Except.bind] at h2 h2'
  split at h2
  · cases h2
  · rename_i gens hg
    rw [hg] at h2'
    simp only at h2'
    split at h2
    · cases h2
    · rename_i green hgr
      rw [hgr] at h2'
      simp only [pure, Except.pure, Except.ok.injEq, Prod.mk.injEq] at h2 h2'
      rw [← h2.1, ← h2'.1]

theorem saveModel_safe {m : Model R} {s : Sys R} (hs : s.model = m ∨ s.model = m.jsonRT) :
    Io.Safe (FineFS m) (fun _ => True) s.saveModel := by
  have hj : s.model.jsonRT = m.jsonRT := by
    rcases hs with e | e
    · rw [e]
    · rw [e, jsonRT_jsonRT]
  intro fs h
  unfold Sys.saveModel
  cases s.root with
  | none => exact ⟨h, by simp [Io.pure_apply], fun _ _ => trivial⟩
  | some r =>
    have hd := h r
    simp only [Io.write, hj]
    have h1 : FineFS m (fs.put r { fs.at r with model := some .torn }) :=
      h.put r ⟨by simp, hd.gens, hd.fargs, hd.eqs⟩
    have h2 : FineFS m (fs.put r { fs.at r with model := some (.full m.jsonRT) }) :=
      h.put r ⟨by simp, hd.gens, hd.fargs, hd.eqs⟩
    refine ⟨h2, fun x hx => ?_, fun _ _ => trivial⟩
    rcases List.mem_pair.1 hx with rfl | rfl
    · exact h1
    · exact h2

/-- one round of the loop: nothing happens, or a file that was not there is written -/
theorem saveAttr_cases {β : Type} (r : String) (get : Dir R → Option (File β)) (upd : File β → Dir R → Dir R)
    (obj : Option β) (fs : FS R) :
    (saveAttr r get upd obj fs = ⟨.ok (), fs, []⟩ ∧ (obj = none ∨ get (fs.at r) ≠ none)) ∨
      ∃ b, obj = some b ∧ get (fs.at r) = none ∧ saveAttr r get upd obj fs =
        ⟨.ok (), fs.put r (upd (.full b) (fs.at r)), [fs.put r (upd .torn (fs.at r)), fs.put r (upd (.full b) (fs.at r))]⟩ := by
  cases obj with
  | none => exact Or.inl ⟨rfl, Or.inl rfl⟩
  | some b =>
    cases hg : get (fs.at r) with
    | none =>
      right
      refine ⟨b, rfl, rfl, ?_⟩
      unfold saveAttr
      simp only
      rw [Io.bind_ok (a := fs.at r) rfl]
      simp [hg, Io.look, Io.write]
    | some x =>
      left
      refine ⟨?_, Or.inr (by simp)⟩
      unfold saveAttr
      simp only
      rw [Io.bind_ok (a := fs.at r) rfl]
      simp [hg, Io.look, Io.pure_apply]

theorem checkpoint_safe {m : Model R} {s : Sys R} (hs : FineSys m s) :
    Io.Safe (FineFS m) (fun _ => True) s.checkpoint := by
  intro fs h
  unfold Sys.checkpoint
  cases hr : s.root with
  | none => exact ⟨h, by simp [Io.pure_apply], fun _ _ => trivial⟩
  | some r =>
    simp only
    split
    · exact ⟨h, by simp [Io.pure_apply], fun _ _ => trivial⟩
    rw [Io.bind_ok (saveAttr_ok ..), Io.bind_ok (saveAttr_ok ..)]
    simp only
    -- the first file
    have k1 : FineFS m (saveAttr r Dir.gens (fun f d => { d with gens := some f }) s.gens fs).fs ∧
        (∀ x ∈ (saveAttr r Dir.gens (fun f d => { d with gens := some f }) s.gens fs).states, FineFS m x) := by
      have hd := h r
      rcases saveAttr_cases r Dir.gens (fun f d => { d with gens := some f }) s.gens fs with ⟨e, -⟩ | ⟨b, e1, e2, e⟩
      · rw [e]
        exact ⟨h, by simp⟩
      · rw [e]
        have h1 : FineFS m (fs.put r { fs.at r with gens := some .torn }) :=
          h.put r ⟨hd.model, by simp, hd.fargs, hd.eqs⟩
        have h2 : FineFS m (fs.put r { fs.at r with gens := some (.full b) }) :=
          h.put r ⟨hd.model, fun x hx => by cases hx; exact hs.gens b e1, hd.fargs, hd.eqs⟩
        refine ⟨h2, fun x hx => ?_⟩
        rcases List.mem_pair.1 hx with rfl | rfl
        · exact h1
        · exact h2
    obtain ⟨a1, a2⟩ := k1
    generalize saveAttr r Dir.gens (fun f d => { d with gens := some f }) s.gens fs = o1 at a1 a2 ⊢
    have k2 : FineFS m (saveAttr r Dir.fargs (fun f d => { d with fargs := some f }) s.fargs o1.fs).fs ∧
        (∀ x ∈ (saveAttr r Dir.fargs (fun f d => { d with fargs := some f }) s.fargs o1.fs).states, FineFS m x) := by
      have hd := a1 r
      rcases saveAttr_cases r Dir.fargs (fun f d => { d with fargs := some f }) s.fargs o1.fs with ⟨e, -⟩ | ⟨b, e1, e2, e⟩
      · rw [e]
        exact ⟨a1, by simp⟩
      · rw [e]
        have h1 : FineFS m (o1.fs.put r { o1.fs.at r with fargs := some .torn }) :=
          a1.put r ⟨hd.model, hd.gens, by simp, hd.eqs⟩
        have h2 : FineFS m (o1.fs.put r { o1.fs.at r with fargs := some (.full b) }) :=
          a1.put r ⟨hd.model, hd.gens, fun x hx => by cases hx; exact hs.fargs b e1, hd.eqs⟩
        refine ⟨h2, fun x hx => ?_⟩
        rcases List.mem_pair.1 hx with rfl | rfl
        · exact h1
        · exact h2
    obtain ⟨b1, b2⟩ := k2
    generalize saveAttr r Dir.fargs (fun f d => { d with fargs := some f }) s.fargs o1.fs = o2 at b1 b2 ⊢
    have k3 : FineFS m (saveAttr r Dir.eqs (fun f d => { d with eqs := some f }) s.eqs o2.fs).fs ∧
        (∀ x ∈ (saveAttr r Dir.eqs (fun f d => { d with eqs := some f }) s.eqs o2.fs).states, FineFS m x) := by
      have hd := b1 r
      rcases saveAttr_cases r Dir.eqs (fun f d => { d with eqs := some f }) s.eqs o2.fs with ⟨e, -⟩ | ⟨b, e1, e2, e⟩
      · rw [e]
        exact ⟨b1, by simp⟩
      · rw [e]
        have h1 : FineFS m (o2.fs.put r { o2.fs.at r with eqs := some .torn }) :=
          b1.put r ⟨hd.model, hd.gens, hd.fargs, by simp⟩
        have h2 : FineFS m (o2.fs.put r { o2.fs.at r with eqs := some (.full b) }) :=
          b1.put r ⟨hd.model, hd.gens, hd.fargs, fun x hx => by cases hx; exact hs.eqs b e1⟩
        refine ⟨h2, fun x hx => ?_⟩
        rcases List.mem_pair.1 hx with rfl | rfl
        · exact h1
        · exact h2
    refine ⟨k3.1, fun x hx => ?_, fun _ _ => trivial⟩
    rcases List.mem_append.1 hx with hx | hx
    · exact a2 x hx
    rcases List.mem_append.1 hx with hx | hx
    · exact b2 x hx
    · exact k3.2 x hx

section
variable {m : Model R} (hb : ∀ σ, ∃ b, buildSystem σ m = .ok b)
include hb

theorem primeGens_fine (σ : SetOrder) {s s1 : Sys R} (hs : FineSys m s) (h : primeGens σ s = .ok s1) :
    FineSys m s1 := by
  unfold primeGens at h
  cases hg : s.gens with
  | some g => rw [hg] at h; cases h; exact hs
  | none =>
    have hm : ∀ σ, buildSystem σ s.model = buildSystem σ m := by
      intro σ
      rcases hs.model with e | e
      · rw [e]
      · rw [e, buildSystem_jsonRT]
    have key : ∃ σ' confs, generateAll s.model = .ok confs ∧ (match s.fargs with
        | none => initGeneralized σ s.model confs
        | some d0 => initGeneralizedFrom σ s.model confs d0) = initGeneralized σ' s.model confs := by
      cases hf : s.fargs with
      | none =>
        obtain ⟨b, hb⟩ := hb σ
        rw [← hm] at hb
        obtain ⟨confs, h1, -, -, -⟩ := buildSystem_steps hb
        exact ⟨σ, confs, h1, rfl⟩
      | some f =>
        obtain ⟨σ', b, h1, rfl⟩ := hs.fargs f hf
        rw [← hm] at h1
        obtain ⟨confs, h2, h3, -, -⟩ := buildSystem_steps h1
        exact ⟨σ.after σ', confs, h2, initGeneralizedFrom_again σ σ' h3⟩
    obtain ⟨σ', confs, h1, h2⟩ := key
    obtain ⟨b, hb⟩ := hb σ'
    have hbm := hb
    rw [← hm] at hbm
    obtain ⟨confs', h1', h3, -, -⟩ := buildSystem_steps hbm
    rw [h1] at h1'
    cases h1'
    rw [hg] at h
    cases hf : s.fargs <;>
    · simp only [hf] at h h2
      simp only [bind, Except.bind, h1, h2, h3] at h
      cases h
      exact ⟨hs.model, fun x hx => by cases hx; exact ⟨σ', b, hb, rfl⟩, fun x hx => by cases hx; exact ⟨σ', b, hb, rfl⟩,
        hs.eqs⟩

omit hb in
theorem primeEqs_fine {s s1 : Sys R} (hs : FineSys m s) (h : primeEqs s = .ok s1) : FineSys m s1 := by
  unfold primeEqs at h
  cases he : s.eqs with
  | some e => rw [he] at h; cases h; exact hs
  | none =>
    rw [he] at h
    cases hf : s.fargs with
    | none => rw [hf] at h; simp at h
    | some f =>
      cases hg : s.gens with
      | none => rw [hf, hg] at h; simp at h
      | some g =>
        rw [hf, hg] at h
        obtain ⟨σ, b, h1, rfl⟩ := hs.gens g hg
        obtain ⟨σ', b', h1', rfl⟩ := hs.fargs f hf
        obtain ⟨confs, -, -, h2, -⟩ := buildSystem_steps h1'
        rw [gens_unique h1 h1'] at h
        simp only [bind, Except.bind, h2] at h
        cases h
        exact ⟨hs.model, fun x hx => by cases hx; exact ⟨σ', b', h1', rfl⟩,
          fun x hx => by cases hx; exact ⟨σ', b', h1', rfl⟩, fun x hx => by cases hx; exact ⟨σ', b', h1', rfl⟩⟩

/-- priming: complete or not, the disk stays fine; and if it succeeds there are equations -/
theorem prime_safe (σ : SetOrder) {s : Sys R} (hs : FineSys m s) :
    Io.Safe (FineFS m) (fun s' => FineSys m s' ∧ HasEqs m s') (s.prime σ) := by
  unfold prime
  refine Io.Safe.bind (Q := fun s1 => FineSys m s1) (Io.Safe.lift (fun s1 h1 => primeGens_fine hb σ hs h1)) (fun s1 h1 => ?_)
  refine Io.Safe.bind (checkpoint_safe h1) (fun _ _ => ?_)
  refine Io.Safe.bind (Q := fun s2 => FineSys m s2) (Io.Safe.lift (fun s2 h2 => primeEqs_fine h1 h2)) (fun s2 h2 => ?_)
  refine Io.Safe.bind (checkpoint_safe h2) (fun _ _ => ?_)
  cases he : s2.eqs with
  | none => exact Io.Safe.lift (fun a ha => by cases ha)
  | some e =>
    obtain ⟨σ', b, h3, rfl⟩ := h2.eqs e he
    exact Io.Safe.bind (Q := fun _ => True) (Io.Safe.lift (fun _ _ => trivial))
      (fun _ _ => Io.Safe.pure ⟨h2, h2.model, σ', b, h3, he⟩)

theorem init_safe (σ : SetOrder) {s : Sys R} (hs : FineSys m s) :
    Io.Safe (FineFS m) (fun s' => FineSys m s' ∧ HasEqs m s') (s.init σ true) := by
  unfold Sys.init
  have key : Io.Safe (FineFS m) (fun s' => FineSys m s' ∧ HasEqs m s') (do s.saveModel; s.prime σ) :=
    Io.Safe.bind (saveModel_safe hs.model) (fun _ _ => prime_safe hb σ hs)
  simp only [if_true]
  cases hr : s.root with
  | none => exact key
  | some r => exact Io.Safe.bind (mkdir_safe m r) (fun _ _ => key)

theorem fromCheckpoint_safe (σ : SetOrder) (r : String) :
    Io.Safe (FineFS m) (fun s' => FineSys m s' ∧ HasEqs m s') (fromCheckpoint σ r) := by
  unfold fromCheckpoint
  refine Io.Safe.bind (Q := fun d => FineDir m d) (fun fs h => ⟨h, by simp [Io.look], fun d hd => ?_⟩) (fun d hd => ?_)
  · cases hd; exact h r
  · match hm : d.model with
    | none => exact Io.Safe.lift (fun a ha => by cases ha)
    | some .torn => exact Io.Safe.lift (fun a ha => by cases ha)
    | some (.full m') =>
      simp only
      refine Io.Safe.bind (Io.load_safe d.gens) (fun g hg => ?_)
      refine Io.Safe.bind (Io.load_safe d.fargs) (fun f hf => ?_)
      refine Io.Safe.bind (Io.load_safe d.eqs) (fun e he => ?_)
      refine init_safe hb σ ⟨Or.inr (hd.model m' hm), ?_, ?_, ?_⟩
      · intro x hx
        rcases hg with ⟨h1, h2⟩ | ⟨a, h1, h2⟩
        · simp only [h1] at hx; cases hx
        · simp only [h1] at hx; cases hx; exact hd.gens _ h2
      · intro x hx
        rcases hf with ⟨h1, h2⟩ | ⟨a, h1, h2⟩
        · simp only [h1] at hx; cases hx
        · simp only [h1] at hx; cases hx; exact hd.fargs _ h2
      · intro x hx
        rcases he with ⟨h1, h2⟩ | ⟨a, h1, h2⟩
        · simp only [h1] at hx; cases hx
        · simp only [h1] at hx; cases hx; exact hd.eqs _ h2

theorem solverInit_safe (σ : SetOrder) (system : Option (Sys R)) (hs : ∀ s, system = some s → FineSys m s ∧ HasEqs m s)
    (root : Option String) :
    Io.Safe (FineFS m) (fun s' => FineSys m s' ∧ HasEqs m s') (solverInit σ system root) := by
  unfold solverInit
  have h1 : ∀ x : Io R (Sys R), Io.Safe (FineFS m) (fun s' => FineSys m s' ∧ HasEqs m s') x →
      Io.Safe (FineFS m) (fun s' => FineSys m s' ∧ HasEqs m s') (do let s ← x; s.checkpoint; pure s) :=
    fun x hx => Io.Safe.bind hx (fun s hs => Io.Safe.bind (checkpoint_safe hs.1) (fun _ _ => Io.Safe.pure hs))
  cases root with
  | none =>
    cases system with
    | none => exact h1 _ (Io.Safe.lift (fun a ha => by cases ha))
    | some s => exact h1 _ (Io.Safe.pure (hs s rfl))
  | some r =>
    refine Io.Safe.bind (mkdir_safe m r) (fun _ _ => ?_)
    cases system with
    | none => exact h1 _ (fromCheckpoint_safe hb σ r)
    | some s => exact h1 _ (Io.Safe.pure (hs s rfl))

variable {K : Type} [Field K]

theorem newObj_safe (σ : SetOrder) (kind : SolverKind K) (system : Option (Sys R))
    (hs : ∀ s, system = some s → FineSys m s ∧ HasEqs m s) (root : Option String) :
    Io.Safe (FineFS m) (GoodObj m kind) (SolverObj.new σ kind system root) := by
  unfold SolverObj.new
  cases kind with
  | sparse sp =>
    simp only
    refine Io.Safe.bind (Q := fun x => HasEqs m x.1 ∧ ∀ e, x.1.eqs = some e → x.2 = fullBasis e) ?_
      (fun x hx => Io.Safe.pure ⟨rfl, hx.1, hx.2⟩)
    unfold sparseInit
    refine Io.Safe.bind (solverInit_safe hb σ system hs root) (fun s hs => ?_)
    cases he : s.eqs with
    | none => exact Io.Safe.lift (fun a ha => by cases ha)
    | some e => exact Io.Safe.pure ⟨hs.2, fun e' h => by simp only [he] at h; cases h; rfl⟩
  | dense =>
    simp only
    refine Io.Safe.bind (Q := fun x => HasEqs m x.1 ∧ ∀ e, x.1.eqs = some e → x.2 = localBasis e) ?_
      (fun x hx => Io.Safe.pure ⟨rfl, hx.1, hx.2⟩)
    unfold denseInit
    refine Io.Safe.bind (solverInit_safe hb σ system hs root) (fun s hs => ?_)
    cases he : s.eqs with
    | none => exact Io.Safe.lift (fun a ha => by cases ha)
    | some e => exact Io.Safe.pure ⟨hs.2, fun e' h => by simp only [he] at h; cases h; rfl⟩

/-- the construction in a program, on any disk that killed programs have left -/
theorem construct_safe (s : Script R K) : Io.Safe (FineFS m) (GoodObj m s.kind) (s.construct m) := by
  unfold Script.construct
  cases s.source with
  | fresh sysRoot lim solverRoot =>
    simp only
    refine Io.Safe.bind (init_safe hb s.order (s := ⟨sysRoot, m, none, none, none, lim⟩)
      ⟨Or.inl rfl, by simp, by simp, by simp⟩) (fun s' hs' => ?_)
    exact newObj_safe hb s.order s.kind (some s') (fun x hx => by cases hx; exact hs') solverRoot
  | resume r => exact newObj_safe hb s.order s.kind none (fun x hx => by cases hx) (some r)

end

end GGCE
