import Verif.Proofs.Interrupt
import Verif.Model.Parallel

/-! What the processes of several programs for one model do with the checkpoint files. -/

set_option linter.unusedSectionVars false

namespace GGCE
open Sys

namespace Todo
variable {S A α β : Type}

theorem bind_def (x : Todo S A α) (f : α → Todo S A β) : x >>= f = x.andThen f := rfl

theorem pure_def (a : α) : (pure a : Todo S A α) = .stop (.ok a) := rfl

/-- Whatever other processes do, as long as they keep `I`: the process keeps `I`, its answer number `n` has the property
`P n`, and it ends with a value in `Q` (where the number of answers is counted) or an exception in `E`. -/
def Safe (I : S → Prop) (P : Nat → A → Prop) (E : Err → Prop) (Q : Nat → α → Prop) : Nat → Todo S A α → Prop
  | n, .stop (.ok a) => Q n a
  | _, .stop (.error e) => E e
  | n, .read f k => ∀ s, I s → Safe I P E Q n (k (f s))
  | n, .write f k => (∀ s, I s → I (f s)) ∧ Safe I P E Q n k
  | n, .say a k => P n a ∧ Safe I P E Q (n + 1) k

theorem Safe.bind {I : S → Prop} {P : Nat → A → Prop} {E : Err → Prop} {Q : Nat → α → Prop} {Q' : Nat → β → Prop}
    {n : Nat} {x : Todo S A α} {f : α → Todo S A β} (hx : Safe I P E Q n x)
    (hf : ∀ n a, Q n a → Safe I P E Q' n (f a)) : Safe I P E Q' n (x >>= f) := by
  rw [bind_def]
  induction x generalizing n with
  | stop r => cases r with
    | error e => exact hx
    | ok a => exact hf n a hx
  | read g k ih => exact fun s hs => ih _ (hx s hs)
  | write g k ih => exact ⟨hx.1, ih hx.2⟩
  | say a k ih => exact ⟨hx.1, ih hx.2⟩

theorem Safe.weaken {I : S → Prop} {P P' : Nat → A → Prop} {E E' : Err → Prop} {Q Q' : Nat → α → Prop} {n : Nat}
    {x : Todo S A α} (hx : Safe I P E Q n x) (h0 : ∀ n a, P n a → P' n a) (h1 : ∀ e, E e → E' e)
    (h2 : ∀ n a, Q n a → Q' n a) : Safe I P' E' Q' n x := by
  induction x generalizing n with
  | stop r => cases r with
    | error e => exact h1 e hx
    | ok a => exact h2 n a hx
  | read g k ih => exact fun s hs => ih _ (hx s hs)
  | write g k ih => exact ⟨hx.1, ih hx.2⟩
  | say a k ih => exact ⟨h0 _ _ hx.1, ih hx.2⟩

/-- a process that prints nothing -/
def Quiet (I : S → Prop) (E : Err → Prop) (Q : α → Prop) (x : Todo S A α) : Prop :=
  ∀ n, Safe I (fun _ _ => False) E (fun n' a => n' = n ∧ Q a) n x

theorem Quiet.bind {I : S → Prop} {E : Err → Prop} {Q : α → Prop} {Q' : β → Prop} {x : Todo S A α} {f : α → Todo S A β}
    (hx : Quiet I E Q x) (hf : ∀ a, Q a → Quiet I E Q' (f a)) : Quiet I E Q' (x >>= f) :=
  fun n => Safe.bind (hx n) (fun n' a h => by obtain ⟨rfl, h⟩ := h; exact hf a h n')

theorem Quiet.pure {I : S → Prop} {E : Err → Prop} {Q : α → Prop} {a : α} (h : Q a) :
    Quiet I E Q (Pure.pure a : Todo S A α) := fun _ => ⟨rfl, h⟩

theorem Quiet.stop {I : S → Prop} {E : Err → Prop} {Q : α → Prop} {r : Py α} (h : ∀ a, r = .ok a → Q a)
    (h' : ∀ e, r = .error e → E e) : Quiet I E Q (Todo.stop r : Todo S A α) := fun _ => by
  cases r with
  | ok a => exact ⟨rfl, h a rfl⟩
  | error e => exact h' e rfl

theorem Quiet.weaken {I : S → Prop} {E : Err → Prop} {Q Q' : α → Prop} {x : Todo S A α} (hx : Quiet I E Q x)
    (h : ∀ a, Q a → Q' a) : Quiet I E Q' x :=
  fun n => (hx n).weaken (fun _ _ h => h) (fun _ h => h) (fun _ _ hq => ⟨hq.1, h _ hq.2⟩)

theorem Quiet.attempt {I : S → Prop} {E E' : Err → Prop} {Q : α → Prop} {P : Nat → A → Prop} {x : Todo S A α}
    (hx : Quiet I E Q x) (n : Nat) : Safe I P E' (fun n' (r : Py α) => n' = n ∧ match r with
      | .ok a => Q a
      | .error e => E e) n x.attempt := by
  have h := hx n
  clear hx
  induction x with
  | stop r => cases r with
    | error e => exact ⟨rfl, h⟩
    | ok a => exact h
  | read g k ih => exact fun s hs => ih _ (h s hs)
  | write g k ih => exact ⟨h.1, ih h.2⟩
  | say a k ih => exact h.1.elim

/-- the process never changes what `V` sees -/
def Keeps {W : Type} (V : S → W) : Todo S A α → Prop
  | .stop _ => True
  | .read _ k => ∀ b, Keeps V (k b)
  | .write f k => (∀ s, V (f s) = V s) ∧ Keeps V k
  | .say _ k => Keeps V k

theorem Keeps.bind {W : Type} {V : S → W} {x : Todo S A α} {f : α → Todo S A β} (hx : Keeps V x)
    (hf : ∀ a, Keeps V (f a)) : Keeps V (x >>= f) := by
  rw [bind_def]
  induction x with
  | stop r => cases r with
    | error e => trivial
    | ok a => exact hf a
  | read g k ih => exact fun b => ih b (hx b)
  | write g k ih => exact ⟨hx.1, ih hx.2⟩
  | say a k ih => exact ih hx

theorem Keeps.attempt {W : Type} {V : S → W} {x : Todo S A α} (hx : Keeps V x) : Keeps V x.attempt := by
  induction x with
  | stop r => trivial
  | read g k ih => exact fun b => ih b (hx b)
  | write g k ih => exact ⟨hx.1, ih hx.2⟩
  | say a k ih => exact ih hx

/-- As `Safe`, for a process with a part of the disk (what `V` sees) that no other process changes. `C` is what it knows about
this part, `D` what it knows in the end. -/
def Own {W : Type} (V : S → W) (I : S → Prop) (P : Nat → A → Prop) (E : Err → Prop) (Q : Nat → α → Prop) (D : W → Prop) :
    (W → Prop) → Nat → Todo S A α → Prop
  | C, n, .stop (.ok a) => Q n a ∧ ∀ w, C w → D w
  | _, _, .stop (.error e) => E e
  | C, n, .read f k => ∀ s, I s → C (V s) → Own V I P E Q D (fun w => w = V s) n (k (f s))
  | C, n, .write f k => ∃ C' : W → Prop, (∀ s, I s → C (V s) → C' (V (f s))) ∧ Own V I P E Q D C' n k
  | C, n, .say a k => P n a ∧ Own V I P E Q D C (n + 1) k

section
variable {W : Type} {V : S → W} {I : S → Prop} {P : Nat → A → Prop} {E : Err → Prop} {C C' D D' : W → Prop}

theorem Own.weaken {Q : Nat → α → Prop} {n : Nat} {x : Todo S A α} (h : Own V I P E Q D C n x) (hC : ∀ w, C' w → C w) :
    Own V I P E Q D C' n x := by
  induction x generalizing n C C' with
  | stop r => cases r with
    | error e => exact h
    | ok a => exact ⟨h.1, fun w hw => h.2 w (hC w hw)⟩
  | read g k ih => exact fun s hs hc => h s hs (hC _ hc)
  | write g k ih =>
    obtain ⟨C'', h1, h2⟩ := h
    exact ⟨C'', fun s hs hc => h1 s hs (hC _ hc), h2⟩
  | say a k ih => exact ⟨h.1, ih h.2 hC⟩

theorem Own.bind {Q : Nat → α → Prop} {Q' : Nat → β → Prop} {n : Nat} {x : Todo S A α} {f : α → Todo S A β}
    (hx : Own V I P E Q D C n x) (hf : ∀ n a, Q n a → Own V I P E Q' D' D n (f a)) : Own V I P E Q' D' C n (x >>= f) := by
  rw [bind_def]
  induction x generalizing n C with
  | stop r => cases r with
    | error e => exact hx
    | ok a => exact (hf n a hx.1).weaken hx.2
  | read g k ih => exact fun s hs hc => ih _ (hx s hs hc)
  | write g k ih =>
    obtain ⟨C', h1, h2⟩ := hx
    exact ⟨C', h1, ih h2⟩
  | say a k ih => exact ⟨hx.1, ih hx.2⟩

theorem Own.attempt {Q : Nat → α → Prop} {n : Nat} {x : Todo S A α} {E' : Err → Prop}
    (hx : Own V I (fun _ _ => False) (fun _ => False) Q D C n x) :
    Own V I P E' (fun n' (r : Py α) => ∃ a, r = .ok a ∧ Q n' a) D C n x.attempt := by
  induction x generalizing n C with
  | stop r => cases r with
    | error e => exact hx.elim
    | ok a => exact ⟨⟨a, rfl, hx.1⟩, hx.2⟩
  | read g k ih => exact fun s hs hc => ih _ (hx s hs hc)
  | write g k ih =>
    obtain ⟨C', h1, h2⟩ := hx
    exact ⟨C', h1, ih h2⟩
  | say a k ih => exact hx.1.elim

/-- a process that leaves its own part alone -/
theorem Own.of_safe {Q : Nat → α → Prop} {n : Nat} {x : Todo S A α} (h : Safe I P E Q n x) (hk : Keeps V x) :
    Own V I P E Q C C n x := by
  have key : ∀ (n : Nat) (C' : W → Prop), (∀ w, C' w → C w) → Safe I P E Q n x → Own V I P E Q C C' n x := by
    clear h
    intro n C' hC h
    induction x generalizing n C' with
    | stop r => cases r with
      | error e => exact h
      | ok a => exact ⟨h, hC⟩
    | read g k ih => exact fun s hs hc => ih _ (hk _) _ _ (fun w hw => by rw [hw]; exact hC _ hc) (h s hs)
    | write g k ih => exact ⟨C', fun s _ hc => by rw [hk.1]; exact hc, ih hk.2 _ _ hC h.2⟩
    | say a k ih => exact ⟨h.1, ih hk _ _ hC h.2⟩
  exact key n C (fun _ => id) h

end

end Todo

variable {R K : Type} [Field R] [LinearOrder R] [Field K]

namespace Act
open Todo

variable {β : Type}

/-- what the disk holds, for the processes of this file: the results are somebody else's business -/
def FineAll (m : Model R) (J : (String → Dict PyStr (File (Option K))) → Prop) (st : Store R K) : Prop :=
  FineFS m st.fs ∧ J st.results

variable {m : Model R} {J : (String → Dict PyStr (File (Option K))) → Prop} {E : Err → Prop}

theorem look_quiet (root : String) (get : Dir R → Option (File β)) :
    Quiet (FineAll m J) E (fun x => ∃ d, FineDir m d ∧ get d = x) (look (K := K) root get) :=
  fun _ _ h => ⟨rfl, _, h.1 root, rfl⟩

theorem change_quiet (root : String) (upd : Dir R → Dir R) (h : ∀ d, FineDir m d → FineDir m (upd d)) :
    Quiet (FineAll m J) E (fun _ => True) (change (K := K) root upd) :=
  fun _ => ⟨fun _ hs => ⟨hs.1.put root (h _ (hs.1 root)), hs.2⟩, rfl, trivial⟩

theorem mkdir_quiet (root : String) : Quiet (FineAll m J) E (fun _ => True) (mkdir (R := R) (K := K) root) :=
  change_quiet root id (fun _ h => h)

theorem writeFile_quiet (root : String) (upd : File β → Dir R → Dir R) (b : β)
    (h : ∀ d, FineDir m d → FineDir m (upd .torn d)) (h' : ∀ d, FineDir m d → FineDir m (upd (.full b) d)) :
    Quiet (FineAll m J) E (fun _ => True) (writeFile (K := K) root upd b) :=
  Quiet.bind (change_quiet root _ h) (fun _ _ => change_quiet root _ h')

theorem load_quiet (hE : ∀ e, E e) (root : String) (get : Dir R → Option (File β)) :
    Quiet (FineAll m J) E (fun x => ∀ a, x = some a → ∃ d, FineDir m d ∧ get d = some (.full a)) (load (K := K) root get) := by
  refine Quiet.bind (look_quiet root get) (fun there _ => ?_)
  split
  · exact Quiet.pure (fun a ha => by cases ha)
  · refine Quiet.bind (look_quiet root get) (fun x hx => ?_)
    match x, hx with
    | none, _ => exact Quiet.stop (fun a ha => by cases ha) (fun e _ => hE e)
    | some .torn, _ => exact Quiet.stop (fun a ha => by cases ha) (fun e _ => hE e)
    | some (.full a), hx => exact Quiet.pure (fun a' ha' => by cases ha'; exact hx)

theorem saveModel_quiet {s : Sys R} (hs : s.model = m ∨ s.model = m.jsonRT) :
    Quiet (FineAll m J) E (fun _ => True) (saveModel (K := K) s) := by
  have hj : s.model.jsonRT = m.jsonRT := by
    rcases hs with e | e
    · rw [e]
    · rw [e, jsonRT_jsonRT]
  unfold saveModel
  cases s.root with
  | none => exact Quiet.pure trivial
  | some r =>
    exact writeFile_quiet r _ _ (fun d hd => ⟨by simp, hd.gens, hd.fargs, hd.eqs⟩)
      (fun d hd => ⟨fun x hx => by cases hx; exact hj, hd.gens, hd.fargs, hd.eqs⟩)

theorem saveAttr_quiet (root : String) (get : Dir R → Option (File β)) (upd : File β → Dir R → Dir R) (obj : Option β)
    (h : ∀ d, FineDir m d → FineDir m (upd .torn d))
    (h' : ∀ b, obj = some b → ∀ d, FineDir m d → FineDir m (upd (.full b) d)) :
    Quiet (FineAll m J) E (fun _ => True) (saveAttr (K := K) root get upd obj) := by
  cases obj with
  | none => exact Quiet.pure trivial
  | some b =>
    refine Quiet.bind (look_quiet root get) (fun there _ => ?_)
    split
    · exact writeFile_quiet root upd b h (h' b rfl)
    · exact Quiet.pure trivial

theorem checkpoint_quiet {s : Sys R} (hs : FineSys m s) :
    Quiet (FineAll m J) E (fun _ => True) (checkpoint (K := K) s) := by
  unfold checkpoint
  cases s.root with
  | none => exact Quiet.pure trivial
  | some r =>
    simp only
    split
    · exact Quiet.pure trivial
    refine Quiet.bind (saveAttr_quiet r _ _ _ (fun d hd => ⟨hd.model, by simp, hd.fargs, hd.eqs⟩) (fun b e d hd =>
      ⟨hd.model, fun x hx => by cases hx; exact hs.gens b e, hd.fargs, hd.eqs⟩)) (fun _ _ => ?_)
    refine Quiet.bind (saveAttr_quiet r _ _ _ (fun d hd => ⟨hd.model, hd.gens, by simp, hd.eqs⟩) (fun b e d hd =>
      ⟨hd.model, hd.gens, fun x hx => by cases hx; exact hs.fargs b e, hd.eqs⟩)) (fun _ _ => ?_)
    exact saveAttr_quiet r _ _ _ (fun d hd => ⟨hd.model, hd.gens, hd.fargs, by simp⟩) (fun b e d hd =>
      ⟨hd.model, hd.gens, hd.fargs, fun x hx => by cases hx; exact hs.eqs b e⟩)

/-- with the generalized equations, there are arguments or equations -/
def Complete (s : Sys R) : Prop := s.gens ≠ none → s.fargs ≠ none ∨ s.eqs ≠ none

section
variable (hb : ∀ σ, ∃ b, buildSystem σ m = .ok b)
include hb

theorem primeGens_ok (σ : SetOrder) {s : Sys R} (hs : FineSys m s) :
    ∃ s1, primeGens σ s = .ok s1 ∧ (Complete s → Complete s1) := by
  unfold primeGens
  cases hg : s.gens with
  | some g => exact ⟨s, rfl, id⟩
  | none =>
    have hm : ∀ σ, buildSystem σ s.model = buildSystem σ m := by
      intro σ
      rcases hs.model with e | e
      · rw [e]
      · rw [e, buildSystem_jsonRT]
    cases hf : s.fargs with
    | none =>
      obtain ⟨b, hb⟩ := hb σ
      rw [← hm] at hb
      obtain ⟨confs, h1, h2, -, -⟩ := buildSystem_steps hb
      simp only [bind, Except.bind, h1, h2]
      exact ⟨_, rfl, fun _ _ => Or.inl (by simp)⟩
    | some f =>
      obtain ⟨σ', b', h1, rfl⟩ := hs.fargs f hf
      rw [← hm] at h1
      obtain ⟨confs', h2, h3, -, -⟩ := buildSystem_steps h1
      obtain ⟨b, hb⟩ := hb (σ.after σ')
      rw [← hm] at hb
      obtain ⟨confs, k1, k2, -, -⟩ := buildSystem_steps hb
      rw [h2] at k1
      cases k1
      simp only [bind, Except.bind, h2, initGeneralizedFrom_again σ σ' h3, k2]
      exact ⟨_, rfl, fun _ _ => Or.inl (by simp)⟩

omit hb in
theorem primeEqs_ok {s : Sys R} (hs : FineSys m s) (hg : s.gens ≠ none) (hc : Complete s) : ∃ s1, primeEqs s = .ok s1 := by
  unfold primeEqs
  cases he : s.eqs with
  | some e => exact ⟨s, rfl⟩
  | none =>
    cases hf : s.fargs with
    | none => exact absurd (hc hg) (by simp [he, hf])
    | some f =>
      cases hg' : s.gens with
      | none => exact absurd hg' hg
      | some g =>
        obtain ⟨σ, b, h1, rfl⟩ := hs.gens g hg'
        obtain ⟨σ', b', h1', rfl⟩ := hs.fargs f hf
        obtain ⟨confs, -, -, h2, -⟩ := buildSystem_steps h1'
        rw [gens_unique h1 h1']
        simp only [bind, Except.bind, h2]
        exact ⟨_, rfl⟩

theorem prime_quiet (σ : SetOrder) {s : Sys R} (hs : FineSys m s) (hE : (∀ e, E e) ∨ Complete s) :
    Quiet (FineAll m J) E (fun s' => FineSys m s' ∧ HasEqs m s') (prime (K := K) σ s) := by
  obtain ⟨s1, h1, h2⟩ := primeGens_ok hb σ hs
  have f1 := primeGens_fine hb σ hs h1
  have g1 : s1.gens ≠ none := by
    unfold primeGens at h1
    cases hg : s.gens with
    | some g => rw [hg] at h1; cases h1; simp [hg]
    | none =>
      rw [hg] at h1
      simp only [bind, Except.bind] at h1
      split at h1
      · cases h1
      · split at h1 <;>
        · split at h1
          · cases h1
          · cases h1; simp
  unfold prime
  refine Quiet.bind (Q := fun x => x = s1) (Quiet.stop (fun a ha => by rw [h1] at ha; cases ha; rfl)
    (fun e he => by rw [h1] at he; cases he)) (fun x hx => ?_)
  subst hx
  refine Quiet.bind (checkpoint_quiet f1) (fun _ _ => ?_)
  refine Quiet.bind (Q := fun s2 => primeEqs x = .ok s2) (Quiet.stop (fun a ha => ha) (fun e he => ?_)) (fun s2 h3 => ?_)
  · rcases hE with hE | hE
    · exact hE e
    · obtain ⟨s2, h3⟩ := primeEqs_ok f1 g1 (h2 hE)
      rw [h3] at he; cases he
  have f2 := primeEqs_fine f1 h3
  have e2 : s2.eqs ≠ none := by
    unfold primeEqs at h3
    cases he : x.eqs with
    | some e => rw [he] at h3; cases h3; simp [he]
    | none =>
      rw [he] at h3
      simp only [bind, Except.bind] at h3
      split at h3
      · split at h3
        · cases h3
        · cases h3; simp
      · cases h3
  refine Quiet.bind (checkpoint_quiet f2) (fun _ _ => ?_)
  cases he : s2.eqs with
  | none => exact absurd he e2
  | some e =>
    obtain ⟨σ', b, h5, rfl⟩ := f2.eqs e he
    obtain ⟨confs, -, -, -, h6⟩ := buildSystem_steps h5
    exact Quiet.bind (Q := fun _ => True) (Quiet.stop (fun _ _ => trivial) (fun e he => by rw [h6] at he; cases he))
      (fun _ _ => Quiet.pure ⟨f2, f2.model, σ', b, h5, he⟩)

theorem init_quiet (σ : SetOrder) {s : Sys R} (hs : FineSys m s) (hE : (∀ e, E e) ∨ Complete s) :
    Quiet (FineAll m J) E (fun s' => FineSys m s' ∧ HasEqs m s') (init (K := K) σ s) := by
  unfold init
  have key : Quiet (FineAll m J) E (fun s' => FineSys m s' ∧ HasEqs m s') (do saveModel (K := K) s; prime σ s) :=
    Quiet.bind (saveModel_quiet hs.model) (fun _ _ => prime_quiet hb σ hs hE)
  cases hr : s.root with
  | none => exact key
  | some r => exact Quiet.bind (mkdir_quiet r) (fun _ _ => key)

theorem fromCheckpoint_quiet (hE : ∀ e, E e) (σ : SetOrder) (r : String) :
    Quiet (FineAll m J) E (fun s' => FineSys m s' ∧ HasEqs m s') (fromCheckpoint (K := K) σ r) := by
  unfold fromCheckpoint
  refine Quiet.bind (look_quiet r _) (fun there _ => ?_)
  split
  · exact Quiet.stop (fun a ha => by cases ha) (fun e _ => hE e)
  refine Quiet.bind (look_quiet r _) (fun x hx => ?_)
  match x, hx with
  | none, _ => exact Quiet.stop (fun a ha => by cases ha) (fun e _ => hE e)
  | some .torn, _ => exact Quiet.stop (fun a ha => by cases ha) (fun e _ => hE e)
  | some (.full m'), ⟨d, hd, hm⟩ =>
    refine Quiet.bind (load_quiet hE r Dir.gens) (fun g hg => ?_)
    refine Quiet.bind (load_quiet hE r Dir.fargs) (fun f hf => ?_)
    refine Quiet.bind (load_quiet hE r Dir.eqs) (fun e he => ?_)
    refine init_quiet hb σ ⟨Or.inr (hd.model m' hm), fun x hx => ?_, fun x hx => ?_, fun x hx => ?_⟩ (Or.inl hE)
    · obtain ⟨d, h1, h2⟩ := hg x hx; exact h1.gens x h2
    · obtain ⟨d, h1, h2⟩ := hf x hx; exact h1.fargs x h2
    · obtain ⟨d, h1, h2⟩ := he x hx; exact h1.eqs x h2

theorem newSolver_quiet (σ : SetOrder) (kind : SolverKind K) (system : Option (Sys R))
    (hs : ∀ s, system = some s → FineSys m s ∧ HasEqs m s) (root : Option String) (hE : (∀ e, E e) ∨ system ≠ none) :
    Quiet (FineAll m J) E (GoodObj m kind) (newSolver σ kind system root) := by
  unfold newSolver
  refine Quiet.bind (Q := fun s => HasEqs m s) ?_ (fun s hs => ?_)
  · unfold solverInit
    have h1 : ∀ x : Act R K (Sys R), Quiet (FineAll m J) E (fun s' => FineSys m s' ∧ HasEqs m s') x →
        Quiet (FineAll m J) E (fun s' => HasEqs m s') (do let s ← x; checkpoint s; pure s) :=
      fun x hx => Quiet.bind hx (fun s hs => Quiet.bind (checkpoint_quiet hs.1) (fun _ _ => Quiet.pure hs.2))
    cases root with
    | none =>
      cases system with
      | none => exact h1 _ (Quiet.stop (fun a ha => by cases ha) (fun e _ => hE.elim (· e) (fun h => absurd rfl h)))
      | some s => exact h1 _ (Quiet.pure (hs s rfl))
    | some r =>
      refine Quiet.bind (mkdir_quiet r) (fun _ _ => ?_)
      cases system with
      | none => exact h1 _ (fromCheckpoint_quiet hb (hE.elim id (fun h => absurd rfl h)) σ r)
      | some s => exact h1 _ (Quiet.pure (hs s rfl))
  · obtain ⟨σ', b, h1, h2⟩ := hs.eqs
    simp only [h2]
    cases kind with
    | sparse sp => exact Quiet.pure ⟨rfl, hs, fun e he => by rw [h2] at he; cases he; rfl⟩
    | dense => exact Quiet.pure ⟨rfl, hs, fun e he => by rw [h2] at he; cases he; rfl⟩

/-- the construction in a program, while others run; a program that constructs its system raises nothing -/
theorem construct_quiet (s : Script R K) (hE : (∀ e, E e) ∨ ∃ r lim r', s.source = .fresh r lim r') :
    Quiet (FineAll m J) E (GoodObj m s.kind) (construct m s) := by
  unfold construct
  cases hs : s.source with
  | fresh sysRoot lim solverRoot =>
    simp only
    refine Quiet.bind (init_quiet hb s.order (s := ⟨sysRoot, m, none, none, none, lim⟩)
      ⟨Or.inl rfl, by simp, by simp, by simp⟩ (Or.inr (fun h => absurd rfl h))) (fun s' hs' => ?_)
    exact newSolver_quiet hb s.order s.kind (some s') (fun x hx => by cases hx; exact hs') solverRoot (Or.inr (by simp))
  | resume r =>
    refine newSolver_quiet hb s.order s.kind none (fun x hx => by cases hx) (some r) (Or.inl ?_)
    rcases hE with h | ⟨_, _, _, h⟩
    · exact h
    · rw [hs] at h; cases h

end

/-! ### nothing but the calls changes the result files -/

section
variable {W : Type} {V : (String → Dict PyStr (File (Option K))) → W}

theorem look_keeps (root : String) (get : Dir R → Option (File β)) :
    Keeps (fun st => V st.results) (look (K := K) root get) := fun _ => trivial

theorem change_keeps (root : String) (upd : Dir R → Dir R) :
    Keeps (fun st => V st.results) (change (K := K) root upd) := ⟨fun _ => rfl, trivial⟩

theorem writeFile_keeps (root : String) (upd : File β → Dir R → Dir R) (b : β) :
    Keeps (fun st => V st.results) (writeFile (K := K) root upd b) :=
  Keeps.bind (change_keeps root _) (fun _ => change_keeps root _)

theorem load_keeps (root : String) (get : Dir R → Option (File β)) :
    Keeps (fun st => V st.results) (load (K := K) root get) := by
  refine Keeps.bind (look_keeps root get) (fun there => ?_)
  split
  · trivial
  · refine Keeps.bind (look_keeps root get) (fun x => ?_)
    rcases x with _ | _ | a <;> trivial

theorem saveModel_keeps (s : Sys R) : Keeps (fun st => V st.results) (saveModel (K := K) s) := by
  unfold saveModel
  cases s.root with
  | none => trivial
  | some r => exact writeFile_keeps r _ _

theorem saveAttr_keeps (root : String) (get : Dir R → Option (File β)) (upd : File β → Dir R → Dir R) (obj : Option β) :
    Keeps (fun st => V st.results) (saveAttr (K := K) root get upd obj) := by
  cases obj with
  | none => trivial
  | some b =>
    refine Keeps.bind (look_keeps root get) (fun there => ?_)
    split
    · exact writeFile_keeps root upd b
    · trivial

theorem checkpoint_keeps (s : Sys R) : Keeps (fun st => V st.results) (checkpoint (K := K) s) := by
  unfold checkpoint
  cases s.root with
  | none => trivial
  | some r =>
    simp only
    split
    · trivial
    exact Keeps.bind (saveAttr_keeps r _ _ _) (fun _ => Keeps.bind (saveAttr_keeps r _ _ _) (fun _ => saveAttr_keeps r _ _ _))

theorem init_keeps (σ : SetOrder) (s : Sys R) : Keeps (fun st => V st.results) (init (K := K) σ s) := by
  have key : Keeps (fun st => V st.results) (do saveModel (K := K) s; prime σ s) := by
    refine Keeps.bind (saveModel_keeps s) (fun _ => ?_)
    unfold prime
    refine Keeps.bind trivial (fun s1 => Keeps.bind (checkpoint_keeps s1) (fun _ => Keeps.bind trivial (fun s2 =>
      Keeps.bind (checkpoint_keeps s2) (fun _ => ?_))))
    cases s2.eqs with
    | none => trivial
    | some e => exact Keeps.bind trivial (fun _ => trivial)
  unfold init
  cases hr : s.root with
  | none => exact key
  | some r => exact Keeps.bind (change_keeps r _) (fun _ => key)

theorem fromCheckpoint_keeps (σ : SetOrder) (r : String) :
    Keeps (fun st => V st.results) (fromCheckpoint (R := R) (K := K) σ r) := by
  unfold fromCheckpoint
  refine Keeps.bind (look_keeps r _) (fun there => ?_)
  split
  · trivial
  refine Keeps.bind (look_keeps r _) (fun x => ?_)
  rcases x with _ | _ | a
  · trivial
  · trivial
  · exact Keeps.bind (load_keeps r _) (fun _ => Keeps.bind (load_keeps r _) (fun _ => Keeps.bind (load_keeps r _) (fun _ =>
      init_keeps σ _)))

theorem newSolver_keeps (σ : SetOrder) (kind : SolverKind K) (system : Option (Sys R)) (root : Option String) :
    Keeps (fun st => V st.results) (newSolver σ kind system root) := by
  unfold newSolver
  refine Keeps.bind ?_ (fun s => ?_)
  · have key : ∀ x : Act R K (Sys R), Keeps (fun st => V st.results) x →
        Keeps (fun st => V st.results) (do let s ← x; checkpoint s; pure s : Act R K (Sys R)) :=
      fun x hx => Keeps.bind hx (fun s => Keeps.bind (checkpoint_keeps s) (fun _ => trivial))
    unfold solverInit
    cases root with
    | none =>
      cases system with
      | none => exact key _ trivial
      | some s => exact key _ trivial
    | some r =>
      refine Keeps.bind (change_keeps r _) (fun _ => ?_)
      cases system with
      | none => exact key _ (fromCheckpoint_keeps σ r)
      | some s => exact key _ trivial
  · cases s.eqs <;> cases kind <;> trivial

theorem construct_keeps (m : Model R) (s : Script R K) : Keeps (fun st => V st.results) (construct m s) := by
  unfold construct
  cases s.source with
  | fresh sysRoot lim solverRoot => exact Keeps.bind (init_keeps _ _) (fun _ => newSolver_keeps _ _ _ _)
  | resume r => exact newSolver_keeps _ _ _ _

end

/-! ### the result files of a program -/

section
variable {W : Type} {V : (String → Dict PyStr (File (Option K))) → W} [FloorRing R]

/-- what one file looks like to `V` does not depend on the file `c` under `r` -/
def Apart (V : (String → Dict PyStr (File (Option K))) → W) (r : String) (c : PyStr) : Prop :=
  ∀ (res : String → Dict PyStr (File (Option K))) f, V (fun q => if q = r then (res r).set c f else res q) = V res

theorem solve_keeps (raw : Point R → Py (Option K)) (root : Option String) (p : Point R)
    (h : ∀ r, root = some r → Apart V r (cacheKey p)) : Keeps (fun st => V st.results) (solve raw root p) := by
  unfold solve
  cases root with
  | none => trivial
  | some r =>
    refine Keeps.bind (fun _ => trivial) (fun there => ?_)
    split
    · refine Keeps.bind trivial (fun G => Keeps.bind ⟨fun st => h r rfl _ _, trivial⟩ (fun _ =>
        Keeps.bind ⟨fun st => h r rfl _ _, trivial⟩ (fun _ => trivial)))
    · refine Keeps.bind (fun _ => trivial) (fun x => ?_)
      rcases x with _ | _ | a <;> trivial

theorem solveAll_keeps (raw : Point R → Py (Option K)) (root : Option String) (ps : List (Point R))
    (h : ∀ r, root = some r → ∀ p ∈ ps, Apart V r (cacheKey p)) :
    Keeps (fun st => V st.results) (solveAll raw root ps) := by
  induction ps with
  | nil => trivial
  | cons p ps ih =>
    exact Keeps.bind (solve_keeps raw root p (fun r hr => h r hr p (by simp))) (fun _ =>
      Keeps.bind (ih (fun r hr q hq => h r hr q (by simp [hq]))) (fun _ => trivial))

end

end Act
end GGCE
