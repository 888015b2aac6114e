import Verif.Proofs.Heap
import Verif.Spec.Heap
import Verif.Props.Model

/-!
C50: models and systems do not share state.
-/

set_option linter.unusedSectionVars false

namespace GGCE.Props
open GGCE.Mem GGCE.Spec

variable {R : Type} [Field R] [LinearOrder R]

theorem sep_runAll (P : Prims R) (ops : List (Step R)) : ∀ (h : Heap R), Sep h → NoHamSetter ops → Sep (runAll P h ops) := by
  induction ops with
  | nil => intro h s _; exact s
  | cons op ops ih =>
    intro h s hn
    refine ih _ (s.run P op ?_) (fun a b hm => hn a b (List.mem_cons_of_mem _ hm))
    rintro a b rfl
    exact hn a b List.mem_cons_self

theorem runAll_append (P : Prims R) (ops ops' : List (Step R)) : ∀ h, runAll P h (ops ++ ops') = runAll P (runAll P h ops) ops' := by
  induction ops with
  | nil => intro h; rfl
  | cons op ops ih => intro h; exact ih _

theorem view_quiet (P : Prims R) (b : Nat) (ops : List (Step R)) : ∀ (h : Heap R), Sep h → NoHamSetter ops →
    b < h.models.length → Quiet P b h ops → (runAll P h ops).view b = h.view b := by
  induction ops with
  | nil => intro h _ _ _ _; rfl
  | cons op ops ih =>
    intro h s hn hb hq
    have hop : ∀ a b, op ≠ .setHam a b := by
      rintro a b rfl
      exact hn a b List.mem_cons_self
    have := ih _ (s.run P op hop) (fun a b hm => hn a b (List.mem_cons_of_mem _ hm))
      (lt_of_lt_of_le hb (run_models s P op)) hq.2
    refine this.trans ?_
    have hob := List.getElem?_eq_getElem hb
    have hq1 := hq.1
    cases op with
    | newHam t f d x => exact newHam_view s _ _ _ _ b hb
    | newModel l T H c e n ae nt => exact newModel_view s _ _ _ _ _ _ _ _ b hb
    | fromParameters x l T c d => exact fromParameters_view s _ _ _ _ _ b hb
    | newSystem a => exact newSystem_view s _ b hb
    | addHam a ct i f g l mu =>
      exact hamAdd_view s P _ _ _ _ _ _ _ b _ hob (fun e => hq1 ⟨_, hob, e⟩)
    | addModel a x => exact modelAdd_view s P a x b hb (fun e => hq1 e.symm)
    | appendInt a x =>
      exact append_view a x b _ hob (fun e => hq1 ⟨_, hob, Or.inl e⟩) (fun e => hq1 ⟨_, hob, Or.inr e⟩)
    | setNumbers a l T c ae nt => exact modModel_view a _ b (fun e => hq1 e.symm)
    | setEmpty a x => exact setEmpty_view s a x b hb (fun e => hq1 e.symm)
    | setHam a x => exact absurd rfl (hop a x)
    | edit a ts fs => exact edit_view s a ts fs b _ hob (fun e => hq1 ⟨_, hob, e⟩)

/-- **C50**, isolation. Take any program (constructions, additions, assignments of numbers or to attributes of
single terms, changes of lists, in any order, successful or not) that never assigns a Hamiltonian to a model, and a
model that exists at some point of it. However the program goes on, as long as no step is addressed to that model, all of its
attributes stay the same. The private model of a `System` is such a model. -/
theorem C50_history (P : Prims R) (past future : List (Step R)) (hp : NoHamSetter past) (hf : NoHamSetter future)
    (b : Nat) (hb : b < (runAll P Heap.initial past).models.length)
    (hq : Quiet P b (runAll P Heap.initial past) future) :
    (runAll P Heap.initial (past ++ future)).view b = (runAll P Heap.initial past).view b := by
  rw [runAll_append]
  exact view_quiet P b future _ (sep_runAll P past _ sep_initial hp) hf hb hq

/-- **C50**, the additions themselves. After any such program, adding to a model does to it what the model of
`Verif/Model/Model.lean` (models as values) does, and adding to it changes no other model, also when it
fails half way. -/
theorem C50_add (P : Prims R) (past : List (Step R)) (hp : NoHamSetter past) (a : Nat) (m : Model R)
    (hm : (runAll P Heap.initial past).view a = some m) (x : AddArgs R) :
    (match m.add P x with
    | .ok m' => ((runAll P Heap.initial past).modelAdd P a x).2 = .ok () ∧
        ((runAll P Heap.initial past).modelAdd P a x).1.view a = some m'
    | .error e => ((runAll P Heap.initial past).modelAdd P a x).2 = .error e) ∧
    ∀ b, b < (runAll P Heap.initial past).models.length → b ≠ a →
      ((runAll P Heap.initial past).modelAdd P a x).1.view b = (runAll P Heap.initial past).view b := by
  have s := sep_runAll P past _ sep_initial hp
  exact ⟨modelAdd_value s P a m hm x, fun b hb hne => modelAdd_view s P a x b hb hne⟩

/-- **C50**, assignments. After any such program, assigning to an attribute of a model replaces that attribute of that
model, keeps its other attributes, and changes no other model. -/
theorem C50_assign (P : Prims R) (past : List (Step R)) (hp : NoHamSetter past) (a : Nat) (m : Model R)
    (hm : (runAll P Heap.initial past).view a = some m) :
    ((runAll P Heap.initial past).setEmpty a true).view a = some { m with extent := [] } ∧
    ((runAll P Heap.initial past).setEmpty a false).view a = some { m with number := [] } ∧
    (∀ (l T : R) (c e : Option Int) (n : Nat), ((runAll P Heap.initial past).setNumbers a l T c e n).view a =
      some { m with latticeConstant := l, temperature := T, maxPerSite := c, absExtentOpt := e, nTypes := n }) ∧
    ∀ b, b < (runAll P Heap.initial past).models.length → b ≠ a →
      (∀ x, ((runAll P Heap.initial past).setEmpty a x).view b = (runAll P Heap.initial past).view b) ∧
      ∀ (l T : R) (c e : Option Int) (n : Nat),
        ((runAll P Heap.initial past).setNumbers a l T c e n).view b = (runAll P Heap.initial past).view b := by
  have s := sep_runAll P past _ sep_initial hp
  generalize runAll P Heap.initial past = h at s hm
  have hv := hm
  unfold Heap.view at hv
  cases ho : h.models[a]? with
  | none => rw [ho] at hv; cases hv
  | some o =>
    rw [ho] at hv
    have hr := s.range a o ho
    cases hH : h.ham o.ham with
    | none => simp [hH] at hv
    | some H =>
      have he := List.getElem?_eq_getElem hr.2.1
      have hn := List.getElem?_eq_getElem hr.2.2.1
      simp only [Option.bind_eq_bind, Option.bind_some, hH, he, hn, Option.pure_def, Option.some.injEq] at hv
      subst hv
      refine ⟨?_, ?_, fun l T c e n => ?_, fun b hb hne => ⟨fun x => setEmpty_view s a x b hb hne,
        fun l T c e n => modModel_view a _ b hne⟩⟩
      · have hH' : (h.setEmpty a true).ham o.ham = h.ham o.ham := rfl
        have ho' : (h.setEmpty a true).models[a]? = some { o with extent := h.ints.length } := by
          simp [Heap.setEmpty, List.getElem?_modify, ho]
        unfold Heap.view
        simp only [ho', Option.bind_eq_bind, Option.bind_some, hH', hH]
        simp [Heap.setEmpty, List.getElem?_append_left hr.2.2.1, hn]
      · have hH' : (h.setEmpty a false).ham o.ham = h.ham o.ham := rfl
        have ho' : (h.setEmpty a false).models[a]? = some { o with number := h.ints.length } := by
          simp [Heap.setEmpty, List.getElem?_modify, ho]
        unfold Heap.view
        simp only [ho', Option.bind_eq_bind, Option.bind_some, hH', hH]
        simp [Heap.setEmpty, List.getElem?_append_left hr.2.1, he]
      · have hH' : (h.setNumbers a l T c e n).ham o.ham = h.ham o.ham := rfl
        have ho' : (h.setNumbers a l T c e n).models[a]? = some { o with latticeConstant := l, temperature := T, maxPerSite := c, absExtentOpt := e, nTypes := n } := by
          simp [Heap.setNumbers, List.getElem?_modify, ho]
        unfold Heap.view
        simp only [ho', Option.bind_eq_bind, Option.bind_some, hH', hH]
        simp [Heap.setNumbers, he, hn]

/-- **C50**, new models. After any such program `Model.from_parameters` gives a model with no couplings: the
default arguments of `Hamiltonian.__init__`, which Python creates once, were never changed. -/
theorem C50_fresh (P : Prims R) (past : List (Step R)) (hp : NoHamSetter past) (t a T : R) (c : Option Int) (d : Nat) :
    ((runAll P Heap.initial past).fromParameters t a T c d).view (runAll P Heap.initial past).models.length =
      some { latticeConstant := a, temperature := T, ham := ⟨[], [], d, t⟩, maxPerSite := c, extent := [],
             number := [], absExtentOpt := none, nTypes := 0 } := by
  have s := sep_runAll P past _ sep_initial hp
  generalize runAll P Heap.initial past = h at s
  have ht := (List.getElem?_eq_some_iff.1 s.defaults.1).1
  have hf := (List.getElem?_eq_some_iff.1 s.defaults.2.1).1
  have e1 := (List.getElem?_eq_some_iff.1 s.defaults.1).2
  have e2 := (List.getElem?_eq_some_iff.1 s.defaults.2.1).2
  unfold Heap.fromParameters
  simp only
  rw [newHam_ok ht hf, e1, e2]
  have s2 := (s.addHamObj [] [] d t).addInts [[], []]
  have hH : Heap.ham { h with
      terms := h.terms ++ [[]]
      freqs := h.freqs ++ [[]]
      hams := h.hams ++ [⟨h.terms.length, h.freqs.length, d, t⟩]
      ints := h.ints ++ [[], []] } h.hams.length = some ⟨[], [], d, t⟩ := by
    unfold Heap.ham
    simp
  have l1 : (h.hams ++ [(⟨h.terms.length, h.freqs.length, d, t⟩ : HamObj R)]).length - 1 = h.hams.length := by simp
  have l2 : (h.ints ++ [[], []]).length - 2 = h.ints.length := by simp
  have l3 : (h.ints ++ [[], []]).length - 1 = h.ints.length + 1 := by simp
  simp only [l1, l2, l3]
  rw [newModel_ok (ext := []) (num := []) s2 hH (by simp) (by simp)]
  exact addModelObj_new (h := { h with
      terms := h.terms ++ [[]]
      freqs := h.freqs ++ [[]]
      hams := h.hams ++ [⟨h.terms.length, h.freqs.length, d, t⟩]
      ints := h.ints ++ [[], []] }) ..

/-- **C50**, the default arguments of `Model.__init__`. `Model()` also gives a model with no couplings after
any such program that does not change the default objects themselves (nothing in the API hands them out). -/
theorem C50_default (P : Prims R) (past : List (Step R)) (hp : NoHamSetter past)
    (h1 : ∀ ct i f g l mu, Step.addHam 0 ct i f g l mu ∉ past) (h2 : ∀ a x, Step.appendInt a x ∈ past → 2 ≤ a)
    (h3 : ∀ ts fs, Step.edit 0 ts fs ∉ past)
    (a T : R) (c : Option Int) :
    ((runAll P Heap.initial past).newModel a T 0 c 0 1 none 0).view (runAll P Heap.initial past).models.length =
      some { latticeConstant := a, temperature := T, ham := ⟨[], [], 1, 1⟩, maxPerSite := c, extent := [],
             number := [], absExtentOpt := none, nTypes := 0 } := by
  have s := sep_runAll P past _ sep_initial hp
  have c' : Intact (runAll P Heap.initial past) := by
    have key : ∀ (ops : List (Step R)) (h : Heap R), Sep h → Intact h → NoHamSetter ops →
        (∀ ct i f g l mu, Step.addHam 0 ct i f g l mu ∉ ops) → (∀ a x, Step.appendInt a x ∈ ops → 2 ≤ a) →
        (∀ ts fs, Step.edit 0 ts fs ∉ ops) →
        Intact (runAll P h ops) := by
      intro ops
      induction ops with
      | nil => intro h _ c _ _ _ _; exact c
      | cons op ops ih =>
        intro h s c hn k1 k2 k3
        refine ih _ (s.run P op ?_) (c.run s P op ?_ ?_ ?_) (fun a b hm => hn a b (List.mem_cons_of_mem _ hm))
          (fun ct i f g l mu hm => k1 ct i f g l mu (List.mem_cons_of_mem _ hm))
          (fun a x hm => k2 a x (List.mem_cons_of_mem _ hm)) (fun ts fs hm => k3 ts fs (List.mem_cons_of_mem _ hm))
        · rintro a b rfl; exact hn a b List.mem_cons_self
        · rintro ct i f g l mu rfl; exact k1 _ _ _ _ _ _ List.mem_cons_self
        · rintro a x rfl; exact k2 a x List.mem_cons_self
        · rintro ts fs rfl; exact k3 ts fs List.mem_cons_self
    exact key past _ sep_initial clean_initial hp h1 h2 h3
  generalize runAll P Heap.initial past = h at s c'
  rw [newModel_ok s c'.ham c'.ints.1 c'.ints.2]
  exact addModelObj_new ..

/-- **C50**, systems. `System(model)` holds its own copy: it has the value the model had, whatever the program
before, and by `C50_history` it keeps it whatever is added to the model later. -/
theorem C50_system (P : Prims R) (past future : List (Step R)) (hp : NoHamSetter past) (hf : NoHamSetter future)
    (a : Nat) (m : Model R) (hm : (runAll P Heap.initial past).view a = some m)
    (hq : Quiet P (runAll P Heap.initial past).models.length ((runAll P Heap.initial past).newSystem a) future) :
    (runAll P Heap.initial (past ++ .newSystem a :: future)).view (runAll P Heap.initial past).models.length =
      some m := by
  have s := sep_runAll P past _ sep_initial hp
  rw [runAll_append]
  generalize runAll P Heap.initial past = h at s hm hq
  show (runAll P (h.newSystem a) future).view h.models.length = some m
  have hnew : (h.newSystem a).view h.models.length = some m := by
    obtain ⟨o, ho⟩ := obj_of_view hm
    obtain ⟨r1, r2, r3, -⟩ := s.range a o ho
    obtain ⟨H, hH⟩ := s.ham_some r1
    unfold Heap.newSystem
    rw [ho]
    simp only
    rw [newModel_ok s hH (List.getElem?_eq_getElem r2) (List.getElem?_eq_getElem r3), addModelObj_new]
    unfold Heap.view at hm
    rw [ho] at hm
    simp only [Option.bind_eq_bind, Option.bind_some, hH, List.getElem?_eq_getElem r2,
      List.getElem?_eq_getElem r3, Option.pure_def, Option.some.injEq] at hm
    exact congrArg some hm
  obtain ⟨o, ho⟩ := obj_of_view hnew
  rw [view_quiet P _ future _ (s.newSystem a) hf (List.getElem?_eq_some_iff.1 ho).1 hq, hnew]

/-! ### Examples and the setter -/

/-- two models, a coupling on the first, a system of it, and more couplings -/
def exPast : List (Step ℚ) :=
  [.fromParameters 1 1 0 none 1, .fromParameters 1 1 0 none 1, .addModel 0 exHolstein, .newSystem 0]

def exFuture : List (Step ℚ) :=
  [.addModel 0 exPeierls, .addModel 1 exHolstein, .addHam 4 "Holstein" 0 1 (some 1) none 1, .setEmpty 0 true,
    .newSystem 0, .fromParameters 2 1 1 none 1, .edit 4 [] []]

/-- the hypotheses of `C50_history` and `C50_system` are met; the values are not trivial: the system (number 2)
has one coupling, the model it was made from now has two, and lists of different lengths -/
example : NoHamSetter exPast ∧ NoHamSetter exFuture ∧
    2 < (runAll exPrims Heap.initial exPast).models.length ∧
    Quiet exPrims 2 (runAll exPrims Heap.initial exPast) exFuture ∧
    ((runAll exPrims Heap.initial (exPast ++ exFuture)).view 2).map (fun m => (m.ham.terms.length, m.extent)) =
      some (2, [2]) ∧
    ((runAll exPrims Heap.initial (exPast ++ exFuture)).view 0).map (fun m => (m.ham.terms.length, m.extent)) =
      some (10, []) := by
  refine ⟨by simp [NoHamSetter, exPast], by simp [NoHamSetter, exFuture], by decide +kernel, ?_, by decide +kernel,
    by decide +kernel⟩
  refine ⟨by simp [Touches], by simp [Touches], ?_, by simp [Touches], by simp [Touches], by simp [Touches], ?_,
    trivial⟩
  · rintro ⟨o, ho, he⟩
    have : (runAll exPrims (runAll exPrims Heap.initial exPast) (exFuture.take 2)).models[2]?.map (fun o => o.ham) =
        some 5 := by decide +kernel
    have ho' : (runAll exPrims (runAll exPrims Heap.initial exPast) (exFuture.take 2)).models[2]? = some o := ho
    rw [ho'] at this
    simp [he] at this
  · rintro ⟨o, ho, he⟩
    have : (runAll exPrims (runAll exPrims Heap.initial exPast) (exFuture.take 6)).models[2]?.map (fun o => o.ham) =
        some 5 := by decide +kernel
    have ho' : (runAll exPrims (runAll exPrims Heap.initial exPast) (exFuture.take 6)).models[2]? = some o := ho
    rw [ho'] at this
    simp [he] at this

/-- the hypotheses of `C50_default` are met by the same program -/
example : NoHamSetter (exPast ++ exFuture) ∧
    (∀ ct i f g l mu, Step.addHam 0 ct i f g l mu ∉ exPast ++ exFuture) ∧
    (∀ a x, Step.appendInt a x ∈ exPast ++ exFuture → 2 ≤ a) ∧ (∀ ts fs, Step.edit 0 ts fs ∉ exPast ++ exFuture) := by
  refine ⟨by simp [NoHamSetter, exPast, exFuture], by simp [exPast, exFuture], by simp [exPast, exFuture],
    by simp [exPast, exFuture]⟩

/-- **C50**, the exception. Assigning `m1.hamiltonian = m0.hamiltonian` makes the two models share the
Hamiltonian: adding to one then changes the other, which never gets the matching cloud sizes. -/
theorem C50_setter_fails : ∃ (past : List (Step ℚ)) (x : AddArgs ℚ),
    ((runAll exPrims Heap.initial past).modelAdd exPrims 1 x).2 = .ok () ∧
    ((runAll exPrims Heap.initial past).view 0).map (fun m => (m.ham.terms.length, m.extent)) = some (0, []) ∧
    ((((runAll exPrims Heap.initial past).modelAdd exPrims 1 x).1).view 0).map
      (fun m => (m.ham.terms.length, m.extent)) = some (2, []) :=
  ⟨[.fromParameters 1 1 0 none 1, .fromParameters 1 1 0 none 1, .setHam 1 2], exHolstein,
    by decide +kernel, by decide +kernel, by decide +kernel⟩

end GGCE.Props
