import Verif.Proofs.EquationsND
import Verif.Props.ConfigND
import Verif.Props.System
import Mathlib.Data.Rat.Floor

/-!
Properties C92 and C93: equations and legality of configurations in any number of spatial
dimensions.
-/

set_option linter.unusedSectionVars false

namespace GGCE.Props
open Spec NArr

variable {d : Nat} {R : Type} [Field R] [LinearOrder R]

/-! ### C93: legality -/

/-- The configuration with two phonons of one type in one row: `[[[1, 0, 1]]]`, shape (1, 1, 3). -/
def rowPair : NArr 2 := arr2 [[[1, 0, 1]]] 1 3

/-- The same two phonons in one column: `[[[1], [0], [1]]]`, shape (1, 3, 1). -/
def columnPair : NArr 2 := arr2 [[[1], [0], [1]]] 3 1

/-- C93, as far as it holds: for an array with at least one spatial axis and no empty axis, and
limit lists with an entry for every phonon type, `config_legal` answers, and it answers `True`
exactly for the clouds that obey the per-site limit, the number limits and, along the first spatial
axis, the extent limits (and for every array without phonons if `allow_green` is set). Missing: the
extent limits along the other axes. -/
theorem C93_config_legal_partial (hd : 0 < d) (a : NArr d) (hs : ∀ j, 0 < a.shape j)
    (cap : Option Int) (extent number : Option (List Int)) (allowGreen : Bool)
    (hM : ∀ M, extent = some M → a.types ≤ M.length)
    (hN : ∀ N, number = some N → a.types ≤ N.length) :
    ∃ b, a.configLegal cap extent number allowGreen = .ok b ∧
      (b = true ↔ (allowGreen = true ∧ (∑ t ∈ Finset.range a.types, typeTotalND a t) = 0) ∨
        LegalND firstAxis cap extent number a) := by
  have e : (∑ t ∈ Finset.range a.types, typeTotalND a t) = a.total :=
    Finset.sum_congr rfl (fun t ht => typeTotalND_eq a (Finset.mem_range.1 ht))
  rw [e]
  exact nConfigLegal_ok hd hs cap extent number allowGreen hM hN

/-- C93: no configuration that obeys the extent limits along every axis is refused. -/
theorem C93_accepts (hd : 0 < d) (a : NArr d) (cap : Option Int)
    (extent number : Option (List Int)) (allowGreen : Bool)
    (h : LegalND (fun _ => True) cap extent number a) :
    a.configLegal cap extent number allowGreen = .ok true := by
  have hf : LegalND firstAxis cap extent number a :=
    ⟨h.toCloudND, h.capOk, fun M hM t ht => by
      obtain ⟨m, h1, h2⟩ := h.extentOk M hM t ht
      exact ⟨m, h1, fun j _ => h2 j trivial⟩, h.numberOk⟩
  have hlen : ∀ (L : List Int), (∀ t, t < a.types → ∃ m, L[t]? = some m) → a.types ≤ L.length := by
    intro L hL
    by_contra hc
    obtain ⟨m, hm⟩ := hL L.length (by omega)
    rw [List.getElem?_eq_none (by omega)] at hm
    cases hm
  obtain ⟨b, h1, h2⟩ := nConfigLegal_ok hd (cloudND_pos h.toCloudND) cap extent number allowGreen
    (fun M hM => hlen M (fun t ht => by
      obtain ⟨m, e, -⟩ := h.extentOk M hM t ht; exact ⟨m, e⟩))
    (fun N hN => hlen N (fun t ht => by
      obtain ⟨n, e, -⟩ := h.numberOk N hN t ht; exact ⟨n, e⟩))
  rw [h1, h2.2 (Or.inr hf)]

/-- C93 fails: with extent limit 2, `config_legal` accepts two phonons three sites apart in a row
and refuses the same two phonons in a column. The accepted one violates the limit along the second
axis. -/
theorem C93_extent_first_axis_only :
    rowPair.configLegal none (some [2]) (some [2]) false = .ok true ∧
    ¬ LegalND (fun _ => True) none (some [2]) (some [2]) rowPair ∧
    columnPair.configLegal none (some [2]) (some [2]) false = .ok false ∧
    (∀ x y, lattice columnPair 0 ![x, y] = lattice rowPair 0 ![y, x]) := by
  refine ⟨by decide +kernel, ?_, by decide +kernel, ?_⟩
  · intro h
    obtain ⟨m, h1, h2⟩ := h.extentOk [2] rfl 0 (by decide)
    simp only [List.getElem?_cons_zero, Option.some.injEq] at h1
    subst h1
    have := (h2 1 trivial).2 ![0, 0] ![0, 2] (by decide +kernel) (by decide +kernel)
    simp at this
  · intro x y
    unfold lattice
    have e : (0 < columnPair.types ∧ ∀ j, 0 ≤ ![x, y] j ∧ ![x, y] j < (columnPair.shape j : Int)) ↔
        (0 < rowPair.types ∧ ∀ j, 0 ≤ ![y, x] j ∧ ![y, x] j < (rowPair.shape j : Int)) := by
      simp [columnPair, rowPair, arr2, Fin.forall_fin_two]
      omega
    by_cases h : 0 < columnPair.types ∧
        ∀ j, 0 ≤ ![x, y] j ∧ ![x, y] j < (columnPair.shape j : Int)
    · rw [if_pos h, if_pos (e.1 h)]
      have h0 := h.2 0
      have h1 := h.2 1
      simp [columnPair, arr2] at h0 h1
      obtain ⟨l0, u0⟩ := h0
      have hy : y = 0 := by omega
      subst hy
      obtain rfl | rfl | rfl : x = 0 ∨ x = 1 ∨ x = 2 := by omega
      all_goals rfl
    · rw [if_neg h, if_neg (fun hh => h (e.2 hh))]

/-! ### C92: equations -/

/-- C92: for a Holstein model in `d ≥ 1` dimensions and a cloud of its truncated space,
`Equation.from_config` succeeds; its right-hand side lists, Hamiltonian term by Hamiltonian term,
exactly one term for each lattice site at which that term can act without leaving the truncated
space, with the prefactor, arguments, phase and energy of the acted-on cloud. -/
theorem C92_right_hand_side (hd : 0 < d) (m : Model R) (ae : Int) (hm : SoundND m d ae)
    (a : NArr d) (ha : InTruncationND m ae a) :
    ∃ tss : List (List (NTerm R d)), mkEquationND m a = .ok tss.flatten ∧
      List.Forall₂ (fun h th => ∃ sites : List (Fin d → Int), sites.Nodup ∧
        (∀ γ, γ ∈ sites ↔ PossibleND m ae a h γ) ∧
        List.Forall₂ (TermOkND m ae a h) sites th) m.ham.terms tss := by
  obtain ⟨ts, h1, tss, rfl, h3⟩ := mkEquationND_ok hd hm ha
  exact ⟨tss, h1, h3⟩

/-- C92: a removal is possible wherever there is a phonon of the right type. -/
theorem C92_removals_always_possible (m : Model R) (ae : Int) (a : NArr d)
    (ha : InTruncationND m ae a) (h : SingleTerm R) (hdag : h.dag = .minus) (γ : Fin d → Int) :
    PossibleND m ae a h γ ↔ 1 ≤ lattice a h.phononIndex γ :=
  possibleND_minus ha hdag γ

/-- C92 for the Green's function equation of a Holstein model: one term for each creation term, on
the one-phonon cloud of its type, with zero argument and phase and with the coupling as prefactor. -/
theorem C92_green (m : Model R) (ae : Int) (hd : 0 < m.ham.dimension)
    (hm : SoundND m m.ham.dimension ae) :
    ∃ ts, mkGreenND m = .ok ts ∧
      List.Forall₂ (fun (h : SingleTerm R) (t : NEom R m.ham.dimension) =>
        t.hterm.base = h ∧ t.pref = h.coupling ∧
        t.fArg.tw = List.replicate m.ham.dimension 0 ∧
        t.expShift.tw = List.replicate m.ham.dimension 0 ∧
        CloudND t.config ∧
        (∀ t' x, lattice t.config t' x = if t' = h.phononIndex ∧ x = (fun _ => 0) then 1 else 0))
        (m.ham.terms.filter (fun h => h.dag = .plus)) ts := by
  obtain ⟨ts, h1, h2⟩ := mkGreenND_ok hd hm.index
  refine ⟨ts, h1, ?_⟩
  refine h2.imp ?_
  rintro h t ⟨hh, rfl⟩
  have he : HTerm.ofSingle m.ham.dimension h = ⟨h, ⟨false, List.replicate m.ham.dimension 0⟩,
      ⟨false, List.replicate m.ham.dimension 0⟩⟩ := by
    unfold HTerm.ofSingle; rw [if_pos (hm.holstein h hh)]
  refine ⟨by rw [he], rfl, by rw [he], by rw [he, sub_holstein], cloud_one _ _ (hm.index h hh),
    lattice_one _ _ (hm.index h hh)⟩

/-- C92: in two or more dimensions no equation is produced for a coupling other than Holstein: as
soon as the cloud carries a phonon that such a coupling can absorb, `Equation.from_config` does not
return. -/
theorem C92_other_couplings_fail (hd : d ≠ 1) (m : Model R) (a : NArr d) (h : SingleTerm R)
    (hh : h ∈ m.ham.terms) (hct : h.ctype ≠ "Holstein") (hdag : h.dag = .minus) (x : Fin d → Int)
    (hocc : lattice a h.phononIndex x ≠ 0) : ∀ ts, mkEquationND m a ≠ .ok ts := by
  intro ts
  have he : HTerm.ofSingle m.ham.dimension h =
      ⟨h, ⟨h.psi.flt, [h.psi.tw]⟩, ⟨h.phi.flt, [h.phi.tw]⟩⟩ := by
    unfold HTerm.ofSingle; rw [if_neg hct]
  obtain ⟨i, hi, -, -, ev⟩ := lattice_site hocc
  unfold mkEquationND
  cases a.validate with
  | error e => simp [bind, Except.bind]
  | ok u =>
    refine initTermsND_fails (h := HTerm.ofSingle m.ham.dimension h) (List.mem_map_of_mem hh) ?_ ts
    rw [he]
    simp only [hdag]
    refine annTermsND_fails ?_ hi ?_
    · simp only [List.length_singleton]; exact fun e => hd e.symm
    · simp only; rw [← ev]; exact hocc

/-- C92: a configuration whose number of spatial axes differs from the dimension of the model does
not get an equation either. -/
theorem C92_dimension_mismatch (m : Model R) (hd : m.ham.dimension ≠ d) (a : NArr d)
    (h : SingleTerm R) (hh : h ∈ m.ham.terms) (hct : h.ctype = "Holstein") (hdag : h.dag = .minus)
    (x : Fin d → Int) (hocc : lattice a h.phononIndex x ≠ 0) :
    ∀ ts, mkEquationND m a ≠ .ok ts := by
  intro ts
  have he : HTerm.ofSingle m.ham.dimension h = ⟨h, ⟨false, List.replicate m.ham.dimension 0⟩,
      ⟨false, List.replicate m.ham.dimension 0⟩⟩ := by
    unfold HTerm.ofSingle; rw [if_pos hct]
  obtain ⟨i, hi, -, -, ev⟩ := lattice_site hocc
  unfold mkEquationND
  cases a.validate with
  | error e => simp [bind, Except.bind]
  | ok u =>
    refine initTermsND_fails (h := HTerm.ofSingle m.ham.dimension h) (List.mem_map_of_mem hh) ?_ ts
    rw [he]
    simp only [hdag]
    refine annTermsND_fails ?_ hi ?_
    · simpa using hd
    · simp only; rw [← ev]; exact hocc

/-- C92: the system itself is never built in more than one dimension. -/
theorem C92_no_system (σ : SetOrder) (m : Model R) (hd : 1 < m.ham.dimension) :
    buildSystem σ m = .error .abort := by
  unfold buildSystem generateAll
  rw [if_pos hd]; rfl

/-- C92: with one axis the truncated space of the general theorem is the one of C12. -/
theorem C92_one_dimension (m : Model R) (ae : Int) (a : Arr) (ha : Cloud a) :
    InTruncationND m ae a.toND ↔ InTruncation m ae a :=
  inTruncation_toND ha

/-! ### examples -/

/-- a two-dimensional Holstein model with extent 2, at most 2 phonons -/
def exModel2 : Model ℚ := { exModel with ham := { exModel.ham with dimension := 2 } }

theorem exModel2_sound : SoundND exModel2 2 2 where
  ext := rfl
  num := rfl
  absExtent := by decide
  freqs := by decide
  index := by decide
  dimension := rfl
  holstein := by decide

/-- two phonons on the diagonal of a plaquette -/
def exDiag : NArr 2 := arr2 [[[1, 0], [0, 1]]] 2 2

theorem exDiag_in : InTruncationND exModel2 2 exDiag := by
  have hs : ∀ j, 0 < exDiag.shape j := by decide
  obtain ⟨b, h1, h2⟩ := nConfigLegal_ok (by decide) hs (none : Option Int) (some [2]) (some [2])
    false (by decide) (by decide)
  have hb : b = true := by
    have h3 : exDiag.configLegal none (some [2]) (some [2]) false = .ok true := by decide +kernel
    rw [h1] at h3; simpa using h3
  have h4 := h2.1 hb
  simp only [Bool.false_eq_true, false_and, false_or] at h4
  exact ⟨by decide, by decide, h4⟩

/-- entries, shape, doubled arguments and prefactor of a term -/
def shownTerm (t : NTerm ℚ d) : List Nat × List (List Int) × List ℚ :=
  (List.ofFn t.config.shape,
    [t.config.flatten, List.ofFn t.fArg.tw, List.ofFn t.gArg.tw, List.ofFn t.expShift.tw],
    [t.pref, t.freqShift])

/-- The equation of the diagonal pair: no phonon can be added, and each of the two can be removed. -/
example : (mkEquationND exModel2 exDiag).map (fun ts => ts.map shownTerm) =
    .ok [([1, 1], [[1], [2, 2], [0, 0], [-2, -2]], [-1, 4]),
         ([1, 1], [[1], [-2, -2], [2, 2], [0, 0]], [-1, 4])] := by decide +kernel

/-- One phonon: it can be doubled, joined by another one at eight of the sites around it (three by
three minus the centre), or absorbed. -/
example : (mkEquationND exModel2 (arr2 [[[1]]] 1 1)).map
    (fun ts => ts.map (fun t => (t.config.flatten, List.ofFn t.config.shape, List.ofFn t.gArg.tw))) =
    .ok [([1, 0, 0, 1], [2, 2], [-2, -2]), ([1, 1], [2, 1], [-2, 0]),
         ([0, 1, 1, 0], [2, 2], [-2, 2]), ([1, 1], [1, 2], [0, -2]), ([2], [1, 1], [0, 0]),
         ([1, 1], [1, 2], [0, 2]), ([0, 1, 1, 0], [2, 2], [2, -2]), ([1, 1], [2, 1], [2, 0]),
         ([1, 0, 0, 1], [2, 2], [2, 2]), ([0], [1, 1], [0, 0])] := by decide +kernel

/-- A bond coupling in two dimensions and a two-dimensional model with a one-dimensional cloud: the
program terminates. -/
example :
    (mkEquationND { exModel2 with ham := { exModel2.ham with
        terms := [⟨"BondPeierls", .int 1, ⟨true, 1⟩, .minus, 1, 0, 2⟩] } } (arr2 [[[1]]] 1 1)).map
      List.length = .error .abort ∧
    (mkEquationND exModel2 (⟨1, fun _ => 1, fun _ _ => 1⟩ : NArr 1)).map List.length =
      .error .abort ∧
    lattice (arr2 [[[1]]] 1 1) 0 ![0, 0] ≠ 0 ∧
    lattice (⟨1, fun _ => 1, fun _ _ => 1⟩ : NArr 1) 0 (fun _ => 0) ≠ 0 := by decide +kernel

/-- The Green's function equation in two dimensions. -/
example : (mkGreenND exModel2).map
    (fun ts => ts.map (fun t => (t.config.flatten, t.fArg.tw, t.expShift.tw, t.pref))) =
    .ok [([1], [0, 0], [0, 0], -1)] := by decide +kernel

example : SoundND exModel2 2 2 ∧ InTruncationND exModel2 2 exDiag := ⟨exModel2_sound, exDiag_in⟩

end GGCE.Props
