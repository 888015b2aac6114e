import Verif.Props.Setters
import Verif.Props.Exact
import Verif.Props.Redundant

/-!
Property C99: which `phonon_absolute_extent` is in force, and what it does.
-/

set_option linter.unusedSectionVars false

namespace GGCE.Props
open Spec Arr

variable {R K : Type} [Field R] [LinearOrder R] [Field K]

/-- not an assignment to `phonon_absolute_extent` -/
def NoAbs : ModelOp R → Prop
  | .absExtent _ => False
  | _ => True

/-- not a reset of `phonon_extent` -/
def NoReset : ModelOp R → Prop
  | .extent _ => False
  | _ => True

/-- one statement: the number of limits does not shrink, and the absolute extent changes by an accepted assignment
only -/
theorem step_abs {P : Prims R} {m m' : Model R} {o : ModelOp R} (h : m.step P o = .ok m') :
    (NoReset o → m.extent.length ≤ m'.extent.length) ∧ (NoAbs o → m'.absExtentOpt = m.absExtentOpt) ∧
      (2 ≤ m.extent.length → m'.absExtentOpt = m.absExtentOpt) := by
  cases o with
  | add a =>
    have e := (add_fixed h).2.2.2.2.1
    refine ⟨fun _ => ?_, fun _ => e, fun _ => e⟩
    have h' : m.add P a = .ok m' := h
    rcases add_cases h' with ⟨-, rfl⟩ | ⟨-, H1, h1, ⟨-, rfl⟩ | ⟨-, H2, Mt, Nt, -, -, h2, rfl⟩⟩
    · exact le_rfl
    · simp
    · simp only [List.length_append, List.length_cons, List.length_nil]; omega
  | temperature x =>
    cases x with
    | none => cases h; simp
    | some x => cases h; unfold Model.setTemperature; split <;> simp
  | latticeConstant x =>
    cases x with
    | none => cases h; simp
    | some x => cases h; unfold Model.setLatticeConstant; split <;> simp
  | absExtent x =>
    cases h
    unfold Model.setAbsExtent
    split
    · simp
    · exact ⟨fun _ => le_rfl, fun hc => hc.elim, fun hc => by omega⟩
  | maxPerSite x => cases x <;> cases h; simp
  | extent b => cases b <;> cases h; simp [NoReset]
  | number b => cases b <;> cases h; simp

theorem run_append {P : Prims R} : ∀ (os os' : List (ModelOp R)) (m : Model R),
    m.run P (os ++ os') = match m.run P os with
      | .error e => .error e
      | .ok m' => m'.run P os'
  | [], os', m => rfl
  | o :: os, os', m => by
    rw [List.cons_append, Model.run, Model.run]
    cases m.step P o with
    | error e => rfl
    | ok m' => exact run_append os os' m'

/-- **C99**. With two or more phonon types registered, nothing assigned to `phonon_absolute_extent` has an effect, then or
later (as long as the lists of limits are not thrown away). -/
theorem C99_ignored (P : Prims R) (os : List (ModelOp R)) (hos : ∀ o ∈ os, NoReset o) (m m' : Model R)
    (h2 : 2 ≤ m.extent.length) (h : m.run P os = .ok m') : m'.absExtentOpt = m.absExtentOpt := by
  induction os generalizing m with
  | nil => cases h; rfl
  | cons o os ih =>
    unfold Model.run at h
    cases h1 : m.step P o with
    | error e => rw [h1] at h; cases h
    | ok m1 =>
      rw [h1] at h
      obtain ⟨e1, -, e3⟩ := step_abs h1
      rw [ih (fun o ho => hos o (List.mem_cons_of_mem _ ho)) m1 (h2.trans (e1 (hos o List.mem_cons_self))) h, e3 h2]

theorem run_noAbs (P : Prims R) (os : List (ModelOp R)) (hos : ∀ o ∈ os, NoAbs o) (m m' : Model R)
    (h : m.run P os = .ok m') : m'.absExtentOpt = m.absExtentOpt := by
  induction os generalizing m with
  | nil => cases h; rfl
  | cons o os ih =>
    unfold Model.run at h
    cases h1 : m.step P o with
    | error e => rw [h1] at h; cases h
    | ok m1 =>
      rw [h1] at h
      rw [ih (fun o ho => hos o (List.mem_cons_of_mem _ ho)) m1 h, (step_abs h1).2.1 (hos o List.mem_cons_self)]

/-- **C99**. A value assigned while at most one phonon type is registered is in force from then on, whatever is added
or assigned to other properties afterwards; `None` brings back the largest extent. -/
theorem C99_kept (P : Prims R) (os os' : List (ModelOp R)) (x : Option Int) (m m1 m' : Model R)
    (h1 : m.run P os = .ok m1) (hle : m1.extent.length ≤ 1) (hos : ∀ o ∈ os', NoAbs o)
    (h : m.run P (os ++ .absExtent x :: os') = .ok m') :
    m'.absExtentOpt = x ∧ (∀ v, x = some v → m'.absExtent = some v) ∧ (x = none → m'.absExtent = m'.extent.max?) := by
  have key : m'.absExtentOpt = x := by
    rw [run_append, h1] at h
    simp only [Model.run, Model.step] at h
    rw [run_noAbs P os' hos _ m' h]
    unfold Model.setAbsExtent
    rw [if_neg (by omega)]
  refine ⟨key, ?_, ?_⟩ <;> (intros; unfold Model.absExtent; rw [key]; simp_all)

theorem add_abs (P : Prims R) (m : Model R) (a : AddArgs R) (x : Option Int) :
    ({ m with absExtentOpt := x } : Model R).add P a =
      match m.add P a with
      | .error e => .error e
      | .ok m' => .ok { m' with absExtentOpt := x } := by
  have hr : ({ m with absExtentOpt := x } : Model R).addRejected a = m.addRejected a := rfl
  unfold Model.add
  rw [hr]
  split
  · rfl
  · have e1 : ({ m with absExtentOpt := x } : Model R).tfdPrefactors P a.freq = m.tfdPrefactors P a.freq := rfl
    have e2 : ({ m with absExtentOpt := x } : Model R).callIndex a = m.callIndex a := rfl
    simp only [e1, e2]
    cases m.ham.add P a.ctype (m.callIndex a) a.freq a.g a.lam (m.tfdPrefactors P a.freq).1 with
    | error e => rfl
    | ok H =>
      simp only
      split
      · cases H.add P a.ctype (m.callIndex a + 1) (-a.freq) a.g a.lam (m.tfdPrefactors P a.freq).2 with
        | error e => rfl
        | ok H' =>
          simp only
          cases a.Mtfd <;> cases a.Ntfd <;> rfl
      · rfl

theorem adds_abs (P : Prims R) (x : Option Int) : ∀ (as : List (AddArgs R)) (m : Model R),
    ({ m with absExtentOpt := x } : Model R).adds P as =
      match m.adds P as with
      | .error e => .error e
      | .ok m' => .ok { m' with absExtentOpt := x }
  | [], m => rfl
  | a :: as, m => by
    rw [Model.adds, Model.adds, add_abs]
    cases m.add P a with
    | error e => rfl
    | ok m' => exact adds_abs P x as m'

theorem run_adds (P : Prims R) : ∀ (as : List (AddArgs R)) (m : Model R),
    m.run P (as.map .add) = m.adds P as
  | [], m => rfl
  | a :: as, m => by
    rw [List.map_cons, Model.run, Model.adds]
    show (match m.add P a with | .error e => _ | .ok m' => _) = _
    cases m.add P a with
    | error e => rfl
    | ok m' => exact run_adds P as m'

/-- a well-formed model with another absolute extent -/
theorem wellFormed_abs {m : Model R} {ae x : Int} (hm : WellFormed m ae) (hx : 1 ≤ x) :
    WellFormed { m with absExtentOpt := some x } x where
  ext := hm.ext
  num := hm.num
  absExtent := rfl
  freqs := hm.freqs
  index := hm.index
  dim := hm.dim
  types := hm.types
  aePos := hx
  extPos := hm.extPos
  numPos := hm.numPos
  capPos := hm.capPos
  plus := hm.plus
  minus := hm.minus
  dtype := hm.dtype

/-- **C99**, the effect. Couplings that register at most one phonon type, then `phonon_absolute_extent = x` with
`x ≥ 1`, then further couplings: the model is the one without the assignment except for the absolute extent, the system
can be built, and both solvers return the exact Green's function of the Hamiltonian restricted to the occupations in
which all phonons, of all types together, lie within `x` neighbouring sites (and each type within its own limits). -/
theorem C99_effect (σ : SetOrder) (hopping lattice T : ℝ)
    (hl : hopping = 0 ∨ (0 < hopping ∧ lattice = 1)) (cap : Option Int) (hcap : ∀ c, cap = some c → 1 ≤ c)
    (as bs : List (AddArgs ℝ)) (hne : as ++ bs ≠ []) (hc : Clean realPrims hopping T (as ++ bs))
    (hf : ((modes T (as ++ bs)).map (·.freq)).Nodup)
    (hb : (∀ a ∈ as ++ bs, a.ctype = "BondPeierls") ∨ (∀ a ∈ as ++ bs, a.ctype ≠ "BondPeierls"))
    (hle : (modes T as).length ≤ 1) (x : Int) (hx : 1 ≤ x) :
    ∃ m m' b, (Model.fromParameters hopping lattice T cap 1).adds realPrims (as ++ bs) = .ok m ∧
      (Model.fromParameters hopping lattice T cap 1).run realPrims
        (as.map .add ++ .absExtent (some x) :: bs.map .add) = .ok m' ∧
      m' = { m with absExtentOpt := some x } ∧ m'.absExtent = some x ∧ buildSystem σ m' = .ok b ∧
      ∀ k w eta : ℝ, 0 < eta → ∃ Ψ, Resolvent m' x ⟨k, w, eta⟩ Ψ ∧ (∀ Ψ', Resolvent m' x ⟨k, w, eta⟩ Ψ' → Ψ' = Ψ) ∧
        Gives m' b ⟨k, w, eta⟩ (Ψ 0 0) := by
  obtain ⟨m, b0, h1, ⟨ae, h2⟩, h3⟩ := C16_assembled σ realPrims C42_names hopping lattice T cap hcap (as ++ bs) hne hc hf hb
  have hp := physical_assembled h1 hb hl
  have hw := wellFormed_abs h2 hx
  obtain ⟨b, L, h4, -⟩ := buildSystem_ok σ hw
  have hp' : Physical { m with absExtentOpt := some x } := ⟨hp.shifts, hp.adj, hp.lattice⟩
  refine ⟨m, _, b, h1, ?_, rfl, rfl, h4, ?_⟩
  · rw [adds_append] at h1
    rw [run_append, run_adds]
    cases ha : (Model.fromParameters hopping lattice T cap 1).adds realPrims as with
    | error e => rw [ha] at h1; cases h1
    | ok m1 =>
      rw [ha] at h1
      have hr := adds_records (records_new hopping lattice T cap 1) ha
      simp only [Model.run, Model.step]
      have hlen : ¬ m1.extent.length > 1 := by
        rw [hr.extent]
        simpa [Model.fromParameters] using hle
      unfold Model.setAbsExtent
      rw [if_neg hlen, run_adds, adds_abs, show m1.adds realPrims bs = .ok m from h1]
  · intro k w eta heta
    obtain ⟨Ψ, e1, e2, e3, e4⟩ := C55_exact σ _ x hw b h4 hp' ⟨k, w, eta⟩ heta
    exact ⟨Ψ, e1, e2, e3, e4⟩

/-! ### the hypotheses are met -/

/-- A Holstein mode, the absolute extent, a Peierls mode. -/
example (σ : SetOrder) : ∃ m m' b, (Model.fromParameters (1 : ℝ) 1 0 none 1).adds realPrims (exCalls.take 1 ++ exCalls.drop 1) = .ok m ∧
    (Model.fromParameters (1 : ℝ) 1 0 none 1).run realPrims
      ((exCalls.take 1).map .add ++ .absExtent (some 7) :: (exCalls.drop 1).map .add) = .ok m' ∧
    m' = { m with absExtentOpt := some 7 } ∧ m'.absExtent = some 7 ∧ buildSystem σ m' = .ok b ∧ exCalls.length = 2 := by
  obtain ⟨h1, h2, h3⟩ := exCalls_clean
  obtain ⟨m, m', b, e1, e2, e3, e4, e5, -⟩ := C99_effect σ 1 1 0 (Or.inr ⟨one_pos, rfl⟩) none (by simp)
    (exCalls.take 1) (exCalls.drop 1) (by simp [exCalls]) (by rw [List.take_append_drop]; exact h1)
    (by rw [List.take_append_drop]; exact h2) (Or.inr (by rw [List.take_append_drop]; exact h3))
    (by
      rw [modes_of_clean (⟨fun a h => h1.valid a (List.mem_of_mem_take h), fun a h => h1.known a (List.mem_of_mem_take h),
        fun a h => h1.noOverride a (List.mem_of_mem_take h), fun a h => h1.defined a (List.mem_of_mem_take h)⟩ : Clean realPrims 1 0 _)]
      simp [exCalls, modesAt]) 7 (by norm_num)
  exact ⟨m, m', b, e1, e2, e3, e4, e5, by simp [exCalls]⟩

/-- Assigned after both modes, the value is ignored. -/
example : ∃ m m', (Model.fromParameters (1 : ℚ) 1 0 none 1).run exPrims [.add exHolstein, .add exPeierls] = .ok m ∧
    2 ≤ m.extent.length ∧ m.run exPrims [.absExtent (some 9)] = .ok m' ∧ m'.absExtentOpt = m.absExtentOpt := by
  have h : (match (Model.fromParameters (1 : ℚ) 1 0 none 1).run exPrims [.add exHolstein, .add exPeierls] with
    | .ok m => some m.extent.length
    | _ => none) = some 2 := by decide +kernel
  split at h
  · rename_i m hm
    simp only [Option.some.injEq] at h
    refine ⟨m, _, hm, by omega, rfl, ?_⟩
    exact C99_ignored exPrims [.absExtent (some 9)] (by simp [NoReset]) m _ (by omega) rfl
  · cases h

end GGCE.Props
