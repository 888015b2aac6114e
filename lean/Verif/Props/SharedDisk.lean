import Verif.Props.Script
import Verif.Props.SecondOrder

/-!
Property C106: programs for different models on one disk.
-/

set_option linter.unusedSectionVars false

namespace GGCE.Props
open Spec Arr Complex

theorem uses_iff {s : Source} {q : String} : s.uses q ↔ q ∈ rootsOf s := by
  cases s with
  | fresh r lim r' => simp [Source.uses, rootsOf]
  | resume r => simp [Source.uses, rootsOf, eq_comm]

/-- **C106**, as far as it holds. Programs for any number of models run one after the other from an empty disk. If
programs for different models never name the same directory, no exception occurs and every number belongs to the model
of its own program. What is missing: programs for different models with one directory (`C106_shared_root_fails`). -/
theorem C106_separate_partial (negative : Option ℂ → Bool) (ps : List (Model ℝ × Script ℝ ℂ))
    (hm : ∀ p ∈ ps, (∃ ae, WellFormed p.1 ae) ∧ Physical p.1) (hps : AllProper (ps.map (·.2)))
    (hl : InOrder [] (ps.map (·.2))) (hs : SeparateRoots ps) (mach : Machine ℝ ℂ) (he : Machine.Empty mach) :
    AllExpected ps (runAll realPhys negative ps mach).1 := by
  classical
  let aeOf : Model ℝ → Int := fun m => m.absExtent.getD 0
  have hm' : ∀ p ∈ ps, WellFormed p.1 (aeOf p.1) ∧ Physical p.1 := by
    intro p hp
    obtain ⟨⟨ae, h1⟩, h2⟩ := hm p hp
    have : aeOf p.1 = ae := by simp only [aeOf, h1.absExtent, Option.getD_some]
    rw [this]
    exact ⟨h1, h2⟩
  cases ps with
  | nil => exact .nil
  | cons p0 ps =>
    set L := p0 :: ps with hL
    let own : String → Model ℝ := fun r => if h : ∃ p ∈ L, r ∈ rootsOf p.2.source then h.choose.1 else p0.1
    have hown : ∀ p ∈ L, ∀ r, p.2.source.uses r → own r = p.1 := by
      intro p hp r hr
      rw [uses_iff] at hr
      have hex : ∃ p ∈ L, r ∈ rootsOf p.2.source := ⟨p, hp, hr⟩
      simp only [own, dif_pos hex]
      exact hs _ hex.choose_spec.1 p hp r hex.choose_spec.2 hr
    obtain ⟨g1, g2⟩ := empty_good (own := own) (ext := fun r => aeOf (own r)) he
    obtain ⟨-, h⟩ := runAll_good negative L hps aeOf hm'
      (fun p hp r hr => ⟨hown p hp r hr, by simp only [hown p hp r hr]⟩) [] hl mach g1 g2
    have hmem : ∀ p ∈ L, WellFormed p.1 (aeOf p.1) := fun p hp => (hm' p hp).1
    unfold AllExpected
    clear_value L
    clear hL hs hps hl hown g1 g2 hm hm' own
    generalize (runAll realPhys negative L mach).1 = outs at h ⊢
    generalize (runAll realPhys negative L mach).2 = fin at h
    induction h with
    | nil => exact .nil
    | cons h1 _ ih =>
      refine .cons (h1.imp (fun c r h => ?_)) (ih (fun p hp => hmem p (by simp [hp])))
      obtain ⟨a, a1, a2, -⟩ := h
      exact ⟨a, a1, _, hmem _ (by simp), a2⟩

/-! ### one directory for two models -/

/-- constructing a system anew gives the same object whatever is on disk -/
theorem construct_blind {m : Model ℝ} {s : Script ℝ ℂ} {r r' : Option String} {lim : Int} (hs : s.source = .fresh r lim r')
    (fs fs' : FS ℝ) {o : SolverObj ℝ ℂ} (h : (s.construct m fs).result = .ok o) : (s.construct m fs').result = .ok o := by
  have hinit : ∀ (x : Sys ℝ) (f : FS ℝ), (solverInit s.order (some x) r' f).result = .ok x := by
    intro x f
    unfold solverInit
    cases r' with
    | none =>
      simp only
      rw [Io.bind_ok (a := x) rfl, Io.bind_ok (Sys.checkpoint_ok ..)]
      rfl
    | some r' =>
      simp only
      rw [Io.bind_ok (a := ()) rfl, Io.bind_ok (a := x) rfl, Io.bind_ok (Sys.checkpoint_ok ..)]
      rfl
  have hnew : ∀ (x : Sys ℝ) (f f' : FS ℝ), (SolverObj.new s.order s.kind (some x) r' f).result =
      (SolverObj.new s.order s.kind (some x) r' f').result := by
    intro x f f'
    unfold SolverObj.new
    cases s.kind with
    | sparse sp =>
      have e : ∀ f, (sparseInit s.order (some x) r' f).result = match x.eqs with
          | none => .error .attributeError
          | some e => .ok (x, fullBasis e) := by
        intro f
        unfold sparseInit
        rw [Io.bind_ok (hinit x f)]
        cases hx : x.eqs <;> simp [Io.lift, Io.pure_apply]
      simp only
      cases hx : x.eqs with
      | none =>
        rw [Io.bind_error (e := .attributeError) (by rw [e f, hx]), Io.bind_error (e := .attributeError) (by rw [e f', hx])]
      | some y =>
        rw [Io.bind_ok (a := (x, fullBasis y)) (by rw [e f, hx]), Io.bind_ok (a := (x, fullBasis y)) (by rw [e f', hx])]
        rfl
    | dense =>
      have e : ∀ f, (denseInit s.order (some x) r' f).result = match x.eqs with
          | none => .error .attributeError
          | some e => .ok (x, localBasis e) := by
        intro f
        unfold denseInit
        rw [Io.bind_ok (hinit x f)]
        cases hx : x.eqs <;> simp [Io.lift, Io.pure_apply]
      simp only
      cases hx : x.eqs with
      | none =>
        rw [Io.bind_error (e := .attributeError) (by rw [e f, hx]), Io.bind_error (e := .attributeError) (by rw [e f', hx])]
      | some y =>
        rw [Io.bind_ok (a := (x, localBasis y)) (by rw [e f, hx]), Io.bind_ok (a := (x, localBasis y)) (by rw [e f', hx])]
        rfl
  have hS : ∀ f, (Sys.new s.order m r lim true f).result = Sys.primed s.order ⟨r, m, none, none, none, lim⟩ :=
    fun f => Sys.init_result ..
  unfold Script.construct at h ⊢
  simp only [hs] at h ⊢
  cases hx : Sys.primed s.order (⟨r, m, none, none, none, lim⟩ : Sys ℝ) with
  | error e =>
    rw [Io.bind_error (e := e) (by rw [hS, hx])] at h
    cases h
  | ok x =>
    rw [Io.bind_ok (a := x) (by rw [hS, hx])] at h ⊢
    rw [hnew x _ (Sys.new s.order m r lim true fs).fs]
    exact h

/-- The second program prints what the first one stored. -/
theorem second_program {m : Model ℝ} {ae : Int} (hm : WellFormed m ae) (negative : Option ℂ → Bool)
    (σ : SetOrder) (kind : SolverKind ℂ) (r : Option String) (lim : Int) (root : String) (p : Point ℝ) (mach : Machine ℝ ℂ)
    (v : Option ℂ) (hv : (mach.results root).get? (cacheKey p) = some v) :
    ((⟨σ, kind, .fresh r lim (some root), [.solve p]⟩ : Script ℝ ℂ).run realPhys negative m mach).1 = [.ok (.value v)] := by
  set s : Script ℝ ℂ := ⟨σ, kind, .fresh r lim (some root), [.solve p]⟩ with hs
  have hE : Machine.Empty ⟨fun _ => none, fun _ => []⟩ := ⟨fun _ => rfl, fun _ => rfl⟩
  obtain ⟨g1, -⟩ := empty_good (own := fun _ => m) (ext := fun _ => ae) hE
  obtain ⟨o, h1, -, -⟩ := construct_good (builds hm) s (known := (· ∈ ([] : List String))) (fun r hr => by cases hr)
    (fun _ _ => rfl) g1
  have h2 := construct_blind (s := s) rfl _ mach.fs h1
  unfold Script.run
  rw [h2]
  simp only [hs, Source.solverRoot, Option.map_some, runCalls, runCall, cachedSolve, preSolve, hv, Except.map]

/-- a Holstein model of one site with one phonon -/
noncomputable def siteModel (g : ℝ) : Model ℝ := blueprint 0 1 0 none [⟨"Holstein", 1, 1, 1, g⟩]

theorem siteModel_speed (g : ℝ) : speed (siteModel g) = 0 := by
  unfold speed siteModel
  simp [blueprint, partTerms, termsOf, termShapes, electronSite, Num.int]

theorem siteModel_value (g : ℝ) : (Model.fromParameters (0 : ℝ) 1 0 none 1).adds realPrims
      [{ ctype := "Holstein", freq := 1, M := 1, N := 1, g := some g }] = .ok (siteModel g) ∧
    WellFormed (siteModel g) 1 ∧ Physical (siteModel g) ∧
    ∀ G, ExactAt (siteModel g) 1 ⟨0, 0, 1⟩ G → G = 1 / (I - g ^ 2 / (I - 1)) := by
  let σ : SetOrder := ⟨id, fun l => List.Perm.refl l⟩
  obtain ⟨b, h1, h2, h3⟩ := one_call σ 0 1 none (by simp) "Holstein" (Or.inl rfl) 1 g 1 1 le_rfl le_rfl
  have hb := (clean_one (hopping := 0) (ct := "Holstein") (Omega := 1) (g := g) (Or.inl rfl) (le_refl (1 : ℤ)) (le_refl (1 : ℤ))).2.2
  have hp := physical_assembled h1 hb (Or.inl rfl)
  refine ⟨h1, h2, hp, fun G hG => ?_⟩
  obtain ⟨m, b', k1, k2, k3⟩ := C72_second_order σ 0 1 (Or.inl rfl) none (by simp) "Holstein" (Or.inl rfl) 1 g 1 le_rfl
  rw [h1] at k1
  cases k1
  rw [h3] at k2
  cases k2
  have e1 := (k3 0 0 1 one_pos).2
  obtain ⟨H, -, -, e2⟩ := C56_returned σ _ 1 h2 b h3 hp 0
  have e3 := e2 0 1 one_pos _ (exact_returned (p := ⟨0, 0, 1⟩) h2 h3 hp one_pos hG)
  have e4 := e2 0 1 one_pos _ (Or.inr e1)
  rw [e3, ← e4]
  unfold secondOrder secondOrderSelf
  simp only [vertex, if_true, mul_zero, zero_mul, Complex.ofReal_zero, add_zero, Complex.ofReal_one, one_mul, zero_add,
    intervalIntegral.integral_const]
  have hpi : (Real.pi : ℂ) ≠ 0 := by exact_mod_cast Real.pi_ne_zero
  congr 2
  rw [sub_neg_eq_add, Complex.real_smul]
  push_cast
  field_simp
  ring

/-- **C106** is false: two Holstein models that differ in the coupling, one directory. The first program is right; the
second prints the Green's function of the first model, which is off by more than `3/10`. -/
theorem C106_shared_root_fails (negative : Option ℂ → Bool) (σ σ' : SetOrder) :
    ∃ (m m' : Model ℝ) (ps : List (Model ℝ × Script ℝ ℂ)) (G E : ℂ),
      (Model.fromParameters (0 : ℝ) 1 0 none 1).adds realPrims
        [{ ctype := "Holstein", freq := 1, M := 1, N := 1, g := some 1 }] = .ok m ∧
      (Model.fromParameters (0 : ℝ) 1 0 none 1).adds realPrims
        [{ ctype := "Holstein", freq := 1, M := 1, N := 1, g := some 2 }] = .ok m' ∧
      ps.map (·.1) = [m, m'] ∧ (∀ p ∈ ps, (∃ ae, WellFormed p.1 ae) ∧ Physical p.1) ∧ AllProper (ps.map (·.2)) ∧
      InOrder [] (ps.map (·.2)) ∧
      (runAll realPhys negative ps ⟨fun _ => none, fun _ => []⟩).1 = [[.ok (.value (some G))], [.ok (.value (some G))]] ∧
      ExactAt m' 1 ⟨0, 0, 1⟩ E ∧ 3 / 10 ≤ ‖G - E‖ ∧
      ¬ AllExpected ps (runAll realPhys negative ps ⟨fun _ => none, fun _ => []⟩).1 := by
  obtain ⟨a1, a2, a3, a4⟩ := siteModel_value 1
  obtain ⟨b1, b2, b3, b4⟩ := siteModel_value 2
  let p : Point ℝ := ⟨0, 0, 1⟩
  let s : Script ℝ ℂ := ⟨σ, .dense, .fresh (some "a") 1000000 (some "a"), [.solve p]⟩
  let s' : Script ℝ ℂ := ⟨σ', .dense, .fresh (some "a") 1000000 (some "a"), [.solve p]⟩
  have hE : Machine.Empty ⟨fun _ => none, fun _ => []⟩ := ⟨fun _ => rfl, fun _ => rfl⟩
  have hok : ∀ x, x = s ∨ x = s' → KindExact x.kind ∧ ∀ c ∈ x.calls, Call.Ok c := by
    rintro x (rfl | rfl) <;>
    · simp only [s, s', KindExact, Call.Ok, List.mem_singleton, forall_eq, p]
      norm_num
  obtain ⟨g1, g2⟩ := empty_good (own := fun _ => siteModel 1) (ext := fun _ => 1) hE
  obtain ⟨-, -, -, h⟩ := run_good a2 a3 negative s (hok s (Or.inl rfl)).1 (hok s (Or.inl rfl)).2 []
    (fun r hr => by cases hr) (fun _ _ => ⟨rfl, rfl⟩) _ g1 g2
  set r := s.run realPhys negative (siteModel 1) ⟨fun _ => none, fun _ => []⟩ with hr
  have hcalls : s.calls = [.solve p] := rfl
  rw [hcalls, List.forall₂_cons_left_iff] at h
  obtain ⟨_, _, ⟨a, rfl, x1, x2⟩, h', hout⟩ := h
  rw [List.forall₂_nil_left_iff] at h'
  subst h'
  obtain ⟨v⟩ | ⟨M⟩ := a
  swap; · exact x1.elim
  have x3 := x2 "a" rfl
  obtain ⟨G, E1, rfl, e1, n1⟩ := x1
  have e1' := a4 _ e1
  obtain ⟨b, hb⟩ := builds b2 σ
  obtain ⟨H, k1, k2, -⟩ := C56_operator σ _ 1 b2 b hb b3 0
  have hex : ExactAt (siteModel 2) 1 p _ := ⟨H, k1, k2, rfl⟩
  have e2' := b4 _ hex
  have hrun : (runAll realPhys negative [(siteModel 1, s), (siteModel 2, s')] ⟨fun _ => none, fun _ => []⟩).1 =
      [[.ok (.value (some G))], [.ok (.value (some G))]] := by
    simp only [runAll, ← hr, hout]
    rw [second_program b2 negative σ' .dense (some "a") 1000000 "a" p r.2 (some G) x3]
  have hdec : ∀ g, decimals (siteModel g) 1 = 2 / 10 ^ 10 := fun g => by
    unfold decimals; rw [siteModel_speed]; norm_num
  have n1' : ‖G - E1‖ ≤ 2 / 10 ^ 10 := by
    rw [← hdec 1]; exact n1
  have hfar : ∀ E, ExactAt (siteModel 2) 1 p E → 3 / 10 ≤ ‖G - E‖ := by
    intro E hE
    have e3 := b4 _ hE
    have d1 : (36 : ℝ) / 100 ≤ ‖E1 - E‖ := by
      have : E1 - E = ⟨1 / 5 - 2 / 13, -3 / 5 + 3 / 13⟩ := by
        have h0 : (I - 1 : ℂ) ≠ 0 := fun h => by simpa using congrArg Complex.im h
        have h1 : (1 : ℂ) / (I - 1) = ⟨-1 / 2, -1 / 2⟩ := by
          rw [div_eq_iff h0]
          apply Complex.ext <;> simp <;> norm_num
        have h2 : (2 : ℂ) ^ 2 / (I - 1) = ⟨-2, -2⟩ := by
          rw [div_eq_iff h0]
          apply Complex.ext <;> simp [pow_two] <;> norm_num
        have v1 : E1 = ⟨1 / 5, -3 / 5⟩ := by
          rw [e1', Complex.ofReal_one, one_pow, h1, div_eq_iff (fun h => by have := congrArg Complex.re h; norm_num at this)]
          apply Complex.ext <;> simp <;> norm_num
        have v2 : E = ⟨2 / 13, -3 / 13⟩ := by
          rw [e3, Complex.ofReal_ofNat, h2, div_eq_iff (fun h => by have := congrArg Complex.re h; norm_num at this)]
          apply Complex.ext <;> simp <;> norm_num
        rw [v1, v2]
        apply Complex.ext <;> simp <;> norm_num
      rw [this]
      refine le_trans ?_ (Complex.abs_im_le_norm _)
      norm_num [abs_of_neg]
    have d2 := norm_sub_le_norm_sub_add_norm_sub E1 G E
    rw [norm_sub_rev E1 G] at d2
    have : (2 : ℝ) / 10 ^ 10 ≤ 1 / 100 := by norm_num
    linarith
  refine ⟨siteModel 1, siteModel 2, [(siteModel 1, s), (siteModel 2, s')], G, _, a1, b1, rfl, ?_, ?_, ?_, hrun, hex, hfar _ hex, ?_⟩
  · intro q hq
    simp only [List.mem_cons, List.not_mem_nil, or_false] at hq
    rcases hq with rfl | rfl
    · exact ⟨⟨1, a2⟩, a3⟩
    · exact ⟨⟨1, b2⟩, b3⟩
  · intro x hx
    simp only [List.map_cons, List.map_nil, List.mem_cons, List.not_mem_nil, or_false] at hx
    exact hok x hx
  · simp [InOrder, s, s']
  · rw [hrun]
    intro hall
    obtain ⟨-, hall⟩ := List.forall₂_cons.1 hall
    obtain ⟨hall, -⟩ := List.forall₂_cons.1 hall
    have hall' := hall
    simp only [s', List.forall₂_cons] at hall'
    obtain ⟨⟨a, ha, ae, hae, hx⟩, -⟩ := hall'
    cases ha
    obtain ⟨G', E, hG, hE', hn⟩ := hx
    cases hG
    have : ae = 1 := Option.some.inj (hae.absExtent.symm.trans b2.absExtent)
    subst this
    have hf := hfar E hE'
    have hn' : ‖G - E‖ ≤ 2 / 10 ^ 10 := by rw [← hdec 2]; exact hn
    have : (2 : ℝ) / 10 ^ 10 < 3 / 10 := by norm_num
    linarith

/-! ### the hypotheses of the positive part are met -/

/-- the two models with a directory each: the numbers differ -/
example (negative : Option ℂ → Bool) (σ σ' : SetOrder) :
    let ps : List (Model ℝ × Script ℝ ℂ) :=
      [(siteModel 1, ⟨σ, .dense, .fresh (some "a") 1000000 (some "a"), [.solve ⟨0, 0, 1⟩]⟩),
       (siteModel 2, ⟨σ', .dense, .fresh (some "b") 1000000 (some "b"), [.solve ⟨0, 0, 1⟩]⟩),
       (siteModel 1, ⟨σ', .dense, .resume "a", [.solve ⟨0, 0, 1⟩]⟩)]
    AllExpected ps (runAll realPhys negative ps ⟨fun _ => none, fun _ => []⟩).1 := by
  obtain ⟨a1, a2, a3, a4⟩ := siteModel_value 1
  obtain ⟨b1, b2, b3, b4⟩ := siteModel_value 2
  intro ps
  refine C106_separate_partial negative ps ?_ ?_ ?_ ?_ _ ⟨fun _ => rfl, fun _ => rfl⟩
  · intro q hq
    simp only [ps, List.mem_cons, List.not_mem_nil, or_false] at hq
    rcases hq with rfl | rfl | rfl
    · exact ⟨⟨1, a2⟩, a3⟩
    · exact ⟨⟨1, b2⟩, b3⟩
    · exact ⟨⟨1, a2⟩, a3⟩
  · intro x hx
    simp only [ps, List.map_cons, List.map_nil, List.mem_cons, List.not_mem_nil, or_false] at hx
    rcases hx with rfl | rfl | rfl <;>
    · simp only [KindExact, Call.Ok, List.mem_singleton, forall_eq]
      norm_num
  · simp [ps, InOrder, systemRoot]
  · intro q hq q' hq' r hr hr'
    simp only [ps, List.mem_cons, List.not_mem_nil, or_false] at hq hq'
    rcases hq with rfl | rfl | rfl <;> rcases hq' with rfl | rfl | rfl <;> first | rfl | (simp [rootsOf] at hr hr'; simp_all)

end GGCE.Props
