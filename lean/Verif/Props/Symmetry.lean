import Verif.Proofs.GreenValue
import Verif.Props.Solver
import Verif.Props.Model
import Verif.Model.RealPhys
import Verif.Props.Prims

/-! Properties C48 and C49: symmetries of the Green's function. -/

set_option linter.unusedSectionVars false

namespace GGCE.Props
open Spec Arr Dict

variable {R K : Type} [Field R] [LinearOrder R] [Field K]

/-! ### C48 -/

theorem twin_neg {m : Model R} {eqs : Dict Nat (List (Equation R))} (hr : Ready m eqs) (F : Phys R K)
    (hF : ∀ x, F.ofReal (-x) = -F.ofReal x) (p : Point R) :
    Twin F (fun n => (-1) ^ n) m (scaleModel (-1) m) p p (scaleTerm (-1)) eqs where
  sq n := by rw [← pow_add, ← two_mul, pow_mul]; simp
  number := rfl
  config _ := rfl
  fArg _ := rfl
  g0 := rfl
  coef := by
    intro e he t ht n n' hn hn'
    have hs : ((-1 : K)) ^ n * (-1) ^ n' = -1 := by
      rcases hr.step e he t ht with h | h
      · obtain rfl : n' = n + 1 := by omega
        rw [pow_succ, ← mul_assoc, ← pow_add, ← two_mul, pow_mul]; simp
      · obtain rfl : n = n' + 1 := by omega
        rw [pow_succ, mul_right_comm, ← pow_add, ← two_mul, pow_mul]; simp
    simp only [hs]
    rcases t with ⟨kind, config, hterm, pref, expShift, fArg, gArg, freqShift⟩
    unfold Term.coefficient
    simp only [scaleTerm]
    cases kind <;> cases gArg <;>
      simp only [Except.map, scaleModel, neg_mul, one_mul, hF]

/-- C48: negating all couplings of a model, building it and solving gives the same Green's function,
with the dense solver (including its failures) and with the sparse one. The only assumption on the
functions in the coefficients is that the conversion from floats to complex numbers is odd. -/
theorem C48_sign (σ : SetOrder) (m : Model R) (ae : Int) (hm : WellFormed m ae) (b : Built R)
    (hb : buildSystem σ m = .ok b) (F : Phys R K) (hF : ∀ x, F.ofReal (-x) = -F.ofReal x) (p : Point R) :
    ∃ b', buildSystem σ (scaleModel (-1) m) = .ok b' ∧
      denseSolve F (scaleModel (-1) m) p (localBasis b'.eqs) b'.eqs =
        denseSolve F m p (localBasis b.eqs) b.eqs ∧
      ∀ g, GreenValue F (scaleModel (-1) m) p b'.eqs g ↔ GreenValue F m p b.eqs g := by
  have hr := ready_of_built hm hb
  have hb' : buildSystem σ (scaleModel (-1) m) = .ok (scaleBuilt (-1) b) := by
    rw [buildSystem_scale, hb]; rfl
  have hr' := ready_of_built (hm.scale (-1)) hb'
  have ht := twin_neg hr F hF p
  exact ⟨_, hb', ht.dense hr, ht.greenValue hr hr'⟩

/-- a call with the coupling multiplied by `s` -/
def scaleArgs (s : R) (a : AddArgs R) : AddArgs R := { a with g := a.g.map (fun g => s * g) }

/-- a call with the opposite coupling -/
def negArgs (a : AddArgs R) : AddArgs R := { a with g := a.g.map (fun g => -g) }

theorem getSingleTerms_scale (s : R) (ct : String) (g : R) (idx : Int) (f : R) :
    getSingleTerms ct (s * g) idx f = (getSingleTerms ct g idx f).map (List.map (scaleH s)) := by
  unfold getSingleTerms
  cases termShapes ct with
  | none => rfl
  | some shapes =>
    simp only
    refine collectM_map _ _ ?_
    intro sh _
    unfold mkTerm
    by_cases hi : idx < 0
    · rw [if_pos hi, if_pos hi]; rfl
    · rw [if_neg hi, if_neg hi]
      rcases sh with ⟨a, b, c, d⟩
      cases d <;> simp [bind, Except.bind, pure, Except.pure, Except.map, scaleH]

theorem ham_add_scale (s : R) (P : Prims R) (H : Hamiltonian R) (ct : String) (idx : Int) (f : R) (g : Option R)
    (mult : R) :
    Hamiltonian.add P { H with terms := H.terms.map (scaleH s) } ct idx f (g.map (fun g => s * g)) none mult =
      (Hamiltonian.add P H ct idx f g none mult).map
        (fun H => { H with terms := H.terms.map (scaleH s) }) := by
  cases g with
  | none => rfl
  | some g =>
    unfold Hamiltonian.add
    simp only [Option.map_some, Option.isSome_some, Option.isSome_none, Bool.xor_false, Bool.true_eq_false,
      if_false, Hamiltonian.strength]
    rw [mul_assoc, getSingleTerms_scale]
    cases getSingleTerms ct (g * mult) idx f with
    | error e => cases e <;> rfl
    | ok ts => simp [Except.map]

theorem add_scale (s : R) (P : Prims R) (m : Model R) (a : AddArgs R) (hl : a.lam = none) :
    (scaleModel s m).add P (scaleArgs s a) = (m.add P a).map (scaleModel s) := by
  have hrej : (scaleModel s m).addRejected (scaleArgs s a) = m.addRejected a := by
    unfold Model.addRejected scaleArgs scaleModel
    simp
  unfold Model.add
  rw [hrej]
  cases m.addRejected a with
  | true => rfl
  | false =>
    simp only [Bool.false_eq_true, if_false]
    have h1 := ham_add_scale s P m.ham a.ctype (m.callIndex a) a.freq a.g (m.tfdPrefactors P a.freq).1
    have e1 : ∀ x, (scaleModel s m).tfdPrefactors P x = m.tfdPrefactors P x := fun _ => rfl
    have e2 : (scaleModel s m).callIndex (scaleArgs s a) = m.callIndex a := rfl
    have e3 : (scaleArgs s a).lam = none := hl
    rw [e2, e3, hl, show (scaleArgs s a).freq = a.freq from rfl, e1,
      show (scaleArgs s a).g = a.g.map (fun g => s * g) from rfl,
      show (scaleModel s m).ham = { m.ham with terms := m.ham.terms.map (scaleH s) } from rfl,
      show (scaleArgs s a).ctype = a.ctype from rfl, h1]
    cases Hamiltonian.add P m.ham a.ctype (m.callIndex a) a.freq a.g none (m.tfdPrefactors P a.freq).1 with
    | error e => rfl
    | ok ham1 =>
      simp only [Except.map]
      have h2 := ham_add_scale s P ham1 a.ctype (m.callIndex a + 1) (-a.freq) a.g (m.tfdPrefactors P a.freq).2
      rw [h2, show (scaleModel s m).temperature = m.temperature from rfl]
      by_cases hT : m.temperature > 0
      · rw [if_pos hT, if_pos hT]
        cases Hamiltonian.add P ham1 a.ctype (m.callIndex a + 1) (-a.freq) a.g none
            (m.tfdPrefactors P a.freq).2 with
        | error e => rfl
        | ok ham2 =>
          simp only [Except.map, scaleArgs]
          cases a.Mtfd <;> cases a.Ntfd <;> rfl
      · rw [if_neg hT, if_neg hT]; rfl

/-- Making a model with every coupling `g` multiplied by `s` gives the model with all couplings multiplied
by `s` (or the same exception). -/
theorem adds_scale (s : R) (P : Prims R) (hopping lattice T : R) (cap : Option Int) (dim : Nat)
    (as : List (AddArgs R)) (hl : ∀ a ∈ as, a.lam = none) :
    (Model.fromParameters hopping lattice T cap dim).adds P (as.map (scaleArgs s)) =
      ((Model.fromParameters hopping lattice T cap dim).adds P as).map (scaleModel s) := by
  have key : ∀ (as : List (AddArgs R)) (m : Model R), (∀ a ∈ as, a.lam = none) →
      (scaleModel s m).adds P (as.map (scaleArgs s)) = (m.adds P as).map (scaleModel s) := by
    intro as
    induction as with
    | nil => intro m _; rfl
    | cons a as ih =>
      intro m h
      rw [List.map_cons, Model.adds, Model.adds, add_scale s P m a (h a List.mem_cons_self)]
      cases m.add P a with
      | error e => rfl
      | ok m' => exact ih m' (fun x hx => h x (List.mem_cons_of_mem _ hx))
  exact key as (Model.fromParameters hopping lattice T cap dim) hl

/-- C48, from the user's side: making the model with the opposite value of every coupling `g` gives the
model with all couplings negated (or the same exception). -/
theorem C48_negated_calls (P : Prims R) (hopping lattice T : R) (cap : Option Int) (dim : Nat)
    (as : List (AddArgs R)) (hl : ∀ a ∈ as, a.lam = none) :
    (Model.fromParameters hopping lattice T cap dim).adds P (as.map negArgs) =
      ((Model.fromParameters hopping lattice T cap dim).adds P as).map (scaleModel (-1)) := by
  rw [← adds_scale (-1) P hopping lattice T cap dim as hl]
  congr 2
  funext a
  simp [negArgs, scaleArgs]

/-- The example model with its couplings negated is a different model, and the example functions have
an odd conversion. -/
example : WellFormed exModel 2 ∧ scaleModel (-1) exModel ≠ exModel ∧
    ∀ x, exPhys.ofReal (-x) = -exPhys.ofReal x :=
  ⟨exModel_wellFormed, by decide +kernel, fun _ => rfl⟩

/-! ### C49 -/

/-- Adding `q` to the momentum does not change the free propagator, and multiplies the phase of a shift
by `s` half lattice constants by `(-1)^s`. -/
structure Period (F : Phys R K) (a t q : R) : Prop where
  G0 : ∀ k w eta, F.G0 (k + q) w a eta t = F.G0 k w a eta t
  even : ∀ (k : R) (s : Num), s.tw % 2 = 0 → F.expI ((k + q) * (a * s.val)) = F.expI (k * (a * s.val))
  odd : ∀ (k : R) (s : Num), s.tw % 2 = 1 → F.expI ((k + q) * (a * s.val)) = -F.expI (k * (a * s.val))

/-- The shifts of a model: `ψ` integer, and the `φ` all integer or all half-integer. -/
def ShiftsOk (m : Model R) (c : Int) : Prop :=
  ∀ h ∈ m.ham.terms, h.psi.tw % 2 = 0 ∧ h.phi.tw % 2 = c

/-- the sign of the unknowns with `n` phonons, by the parity `c` of `φ` -/
def paritySign (c : Int) (n : Nat) : K := if n = 0 ∧ c = 1 then -1 else 1

theorem twin_period {σ : SetOrder} {m : Model R} {ae : Int} (hm : WellFormed m ae) {b : Built R}
    (hb : buildSystem σ m = .ok b) {c : Int} (hs : ShiftsOk m c) (F : Phys R K) {q : R}
    (hF : Period F m.latticeConstant m.ham.hopping q) (p : Point R) :
    Twin F (paritySign c) m m p { p with k := p.k + q } (fun t => t) b.eqs where
  sq n := by unfold paritySign; split <;> simp
  number := rfl
  config _ := rfl
  fArg _ := rfl
  g0 := hF.G0 _ _ _
  coef := by
    obtain ⟨b', L, h1, hL, hd⟩ := buildSystem_ok σ hm
    rw [hb] at h1; cases h1
    intro e he t ht n n' hn hn'
    -- the effect of the momentum shift is a sign
    have key : ∀ s : K, (F.expI ((p.k + q) * (m.latticeConstant * t.expShift.val)) =
        s * F.expI (p.k * (m.latticeConstant * t.expShift.val))) →
        t.coefficient F m { p with k := p.k + q } = (t.coefficient F m p).map (fun c => s * c) := by
      intro s h
      unfold Term.coefficient
      simp only [hF.G0, h]
      split
      · simp only [Except.map]; congr 1; ring
      · split
        · rfl
        · simp only [Except.map]; congr 1; ring
    have odd' : t.expShift.tw % 2 = c → t.coefficient F m { p with k := p.k + q } =
        (t.coefficient F m p).map (fun x => (paritySign c 0 : K) * x) := by
      intro h
      apply key
      unfold paritySign
      by_cases hc : c = 1
      · rw [if_pos ⟨rfl, hc⟩, hF.odd _ _ (h.trans hc), neg_one_mul]
      · rw [if_neg (fun h => hc h.2), hF.even _ _ (by omega), one_mul]
    have pos : ∀ {n : Nat}, n ≠ 0 → (paritySign c n : K) = 1 := by
      intro n hn; unfold paritySign; rw [if_neg (fun h => hn h.1)]
    obtain ⟨a, ha, δ, hδ, rfl⟩ := (hL.mem_allEqs hm.toListsOk hd e).1 he
    rcases ha with rfl | ha
    · rw [hL.eqn_vac] at ht hn
      obtain ⟨t0, ht0, rfl⟩ := List.mem_map.1 ht
      obtain ⟨h, hh, rfl⟩ := List.mem_map.1 ht0
      obtain ⟨hh, -⟩ := List.mem_filter.1 hh
      have hn0 : n = 0 := by
        have : ((vac m).total : Int) = n := hn
        rw [vac_total] at this; omega
      have hn1 : n' ≠ 0 := by
        rintro rfl
        exact total_ne_zero_of_cloud (single_cloud (hm.index h hh)) (by simpa [eomOf] using hn')
      rw [odd', hn0, pos hn1, mul_one]
      have := hs h hh
      show (h.psi.sub h.phi).tw % 2 = c
      simp only [Num.sub]; omega
    · obtain ⟨ts, e1, e2⟩ := hL.eqn a ha
      rw [e1] at ht hn
      obtain ⟨t0, ht0, rfl⟩ := List.mem_map.1 ht
      obtain ⟨h, hh, γ, hp, hpr⟩ := e2.mem ht0
      have hn0 : n ≠ 0 := by
        rintro rfl
        exact total_ne_zero ha (by simpa [full] using hn)
      have hs' := hs h hh
      have he : (incr δ t0).expShift = t0.expShift := by unfold incr; split <;> rfl
      rcases hpr.cloud with ⟨k0, o, k3, k1, k2⟩ | ⟨k0, -, k1, k2⟩
      · have hn1 : n' ≠ 0 := by
          rintro rfl
          exact total_ne_zero k0 (by simpa using hn')
        rw [pos hn0, pos hn1]
        rw [key 1 (by rw [hF.even _ _ (by rw [he]; omega), one_mul])]
        simp
      · have hn1 : n' = 0 := by
          have := total_of_vacuum k0
          rw [incr_config] at hn'; omega
        rw [odd', pos hn0, hn1, one_mul]
        rw [he]; omega

/-- C49: if the functions in the coefficients have period `q` (in the sense of `Period`), the Green's
function of every built system has period `q` in the momentum, with the dense solver (including its
failures) and with the sparse one. -/
theorem C49_periodic (σ : SetOrder) (m : Model R) (ae : Int) (hm : WellFormed m ae) (b : Built R)
    (hb : buildSystem σ m = .ok b) (c : Int) (hs : ShiftsOk m c) (F : Phys R K) (q : R)
    (hF : Period F m.latticeConstant m.ham.hopping q) (k w eta : R) :
    denseSolve F m ⟨k + q, w, eta⟩ (localBasis b.eqs) b.eqs =
        denseSolve F m ⟨k, w, eta⟩ (localBasis b.eqs) b.eqs ∧
      ∀ g, GreenValue F m ⟨k + q, w, eta⟩ b.eqs g ↔ GreenValue F m ⟨k, w, eta⟩ b.eqs g := by
  have hr := ready_of_built hm hb
  have ht := twin_period hm hb hs F hF ⟨k, w, eta⟩
  have h1 := ht.dense hr
  have h2 := ht.greenValue hr (by rw [mapEqs_id]; exact hr)
  rw [mapEqs_id] at h1 h2
  exact ⟨h1, h2⟩

/-- the functions of `ggce/utils/physics.py` have period `2π/a` -/
theorem period_real (a t : ℝ) (ha : a ≠ 0) : Period realPhys a t (2 * Real.pi / a) := by
  have hs : ∀ (k : ℝ) (s : Num), (k + 2 * Real.pi / a) * (a * s.val) =
      k * (a * s.val) + Real.pi * (s.tw : ℝ) := by
    intro k s; unfold Num.val; field_simp
  refine ⟨?_, ?_, ?_⟩
  · intro k w eta
    show G0R _ _ _ _ _ = G0R _ _ _ _ _
    unfold G0R
    rw [show (k + 2 * Real.pi / a) * a = k * a + 2 * Real.pi by field_simp, Real.cos_add_two_pi]
  · intro k s hp
    rw [hs]
    obtain ⟨n, hn⟩ : ∃ n, s.tw = 2 * n := ⟨s.tw / 2, by omega⟩
    show Complex.exp _ = Complex.exp _
    rw [hn]
    push_cast
    rw [show Complex.I * ((k : ℂ) * (a * ((s.val : ℝ) : ℂ)) + (Real.pi : ℂ) * (2 * n)) =
      Complex.I * ((k : ℂ) * (a * ((s.val : ℝ) : ℂ))) + n * (2 * Real.pi * Complex.I) by ring, Complex.exp_add,
      Complex.exp_int_mul_two_pi_mul_I, mul_one]
  · intro k s hp
    rw [hs]
    obtain ⟨n, hn⟩ : ∃ n, s.tw = 2 * n + 1 := ⟨s.tw / 2, by omega⟩
    show Complex.exp _ = -Complex.exp _
    rw [hn]
    push_cast
    rw [show Complex.I * ((k : ℂ) * (a * ((s.val : ℝ) : ℂ)) + (Real.pi : ℂ) * (2 * n + 1)) =
      Complex.I * ((k : ℂ) * (a * ((s.val : ℝ) : ℂ))) + (n * (2 * Real.pi * Complex.I) + Real.pi * Complex.I) by ring,
      Complex.exp_add, Complex.exp_add,
      Complex.exp_int_mul_two_pi_mul_I, Complex.exp_pi_mul_I]
    ring

/-- models made of BondPeierls couplings only, or of the other types only -/
theorem shiftsOk_assembled {P : Prims R} {hopping lattice T : R} {cap : Option Int} {dim : Nat}
    {as : List (AddArgs R)} {m : Model R}
    (h : (Model.fromParameters hopping lattice T cap dim).adds P as = .ok m)
    (hb : (∀ a ∈ as, a.ctype = "BondPeierls") ∨ (∀ a ∈ as, a.ctype ≠ "BondPeierls")) :
    ∃ c, ShiftsOk m c := by
  have key : ∀ x ∈ m.ham.terms, ∃ a ∈ as, x.psi.tw % 2 = 0 ∧
      x.phi.tw % 2 = if a.ctype = "BondPeierls" then 1 else 0 := by
    intro x hx
    obtain ⟨a, ha, g, i, f, hxm⟩ := (adds_ctypes as h x hx).resolve_left
      (by simp [Model.fromParameters, Hamiltonian.new])
    refine ⟨a, ha, ?_⟩
    generalize a.ctype = ct at hxm ⊢
    simp only [termsOf, List.mem_map] at hxm
    obtain ⟨s, hs, rfl⟩ := hxm
    unfold termShapes at hs
    split at hs
    · subst ct; simp [Num.int] at hs; rcases hs with rfl | rfl <;> simp
    split at hs
    · subst ct; simp [Num.int] at hs; rcases hs with rfl | rfl | rfl | rfl <;> simp
    split at hs
    · subst ct; simp [Num.int] at hs; rcases hs with rfl | rfl | rfl | rfl <;> simp
    split at hs
    · subst ct; simp [Num.int] at hs
      rcases hs with rfl | rfl | rfl | rfl | rfl | rfl | rfl | rfl <;> simp
    · simp at hs
  rcases hb with hb | hb
  · refine ⟨1, fun x hx => ?_⟩
    obtain ⟨a, ha, h1, h2⟩ := key x hx
    rw [if_pos (hb a ha)] at h2
    exact ⟨h1, h2⟩
  · refine ⟨0, fun x hx => ?_⟩
    obtain ⟨a, ha, h1, h2⟩ := key x hx
    rw [if_neg (hb a ha)] at h2
    exact ⟨h1, h2⟩

/-- C49 for models as users make them and the library's functions: under the conditions of C16, the
system can be built and its Green's function has period `2π/a`, with both solvers. -/
theorem C49_assembled (σ : SetOrder) (P : Prims ℝ) (hP : Names P) (hopping lattice T : ℝ)
    (hl : lattice ≠ 0) (cap : Option Int) (hcap : ∀ c, cap = some c → 1 ≤ c) (as : List (AddArgs ℝ))
    (hne : as ≠ []) (hc : Clean P hopping T as) (hf : ((modes T as).map (·.freq)).Nodup)
    (hb : (∀ a ∈ as, a.ctype = "BondPeierls") ∨ (∀ a ∈ as, a.ctype ≠ "BondPeierls")) :
    ∃ m b, (Model.fromParameters hopping lattice T cap 1).adds P as = .ok m ∧
      buildSystem σ m = .ok b ∧ ∀ k w eta : ℝ,
      denseSolve realPhys m ⟨k + 2 * Real.pi / lattice, w, eta⟩ (localBasis b.eqs) b.eqs =
        denseSolve realPhys m ⟨k, w, eta⟩ (localBasis b.eqs) b.eqs ∧
      ∀ g, GreenValue realPhys m ⟨k + 2 * Real.pi / lattice, w, eta⟩ b.eqs g ↔
        GreenValue realPhys m ⟨k, w, eta⟩ b.eqs g := by
  obtain ⟨m, b, h1, ⟨ae, h2⟩, h3⟩ := C16_assembled σ P hP hopping lattice T cap hcap as hne hc hf hb
  obtain ⟨c, hs⟩ := shiftsOk_assembled h1 hb
  have hlat : m.latticeConstant = lattice := (adds_fixed as h1).2.2.2.2.2
  refine ⟨m, b, h1, h3, fun k w eta => ?_⟩
  have := C49_periodic σ m ae h2 b h3 c hs realPhys (2 * Real.pi / lattice)
    (by rw [hlat]; exact period_real _ _ hl) k w eta
  exact this

/-! Calls with real parameters that meet the hypotheses. -/

noncomputable def exCalls : List (AddArgs ℝ) :=
  [{ ctype := "Holstein", freq := 2, M := 2, N := 3, g := some 1 },
   { ctype := "Peierls", freq := 1, M := 3, N := 2, g := some (1 / 2) }]

noncomputable def exBondCalls : List (AddArgs ℝ) :=
  [{ ctype := "BondPeierls", freq := 2, M := 2, N := 3, Mtfd := some 1, Ntfd := some 1, g := some 1 }]

theorem exCalls_clean : Clean realPrims 1 0 exCalls ∧ ((modes 0 exCalls).map (·.freq)).Nodup ∧
    ∀ a ∈ exCalls, a.ctype ≠ "BondPeierls" := by
  have hc : Clean realPrims 1 0 exCalls := by
    constructor <;> intro a ha <;> simp only [exCalls, List.mem_cons, List.not_mem_nil, or_false] at ha <;>
      rcases ha with rfl | rfl
    all_goals first
      | rfl
      | (simp [Known]; done)
      | (simp [Defined]; done)
      | (constructor <;> simp [OneStrength])
  refine ⟨hc, ?_, ?_⟩
  · rw [modes_of_clean hc]
    simp [exCalls, modesAt]
  · simp [exCalls]

theorem exBondCalls_clean : Clean realPrims 1 1 exBondCalls ∧ ((modes 1 exBondCalls).map (·.freq)).Nodup ∧
    ∀ a ∈ exBondCalls, a.ctype = "BondPeierls" := by
  have hc : Clean realPrims 1 1 exBondCalls := by
    constructor <;> intro a ha <;> simp only [exBondCalls, List.mem_cons, List.not_mem_nil, or_false] at ha <;>
      subst ha
    all_goals first
      | rfl
      | (simp [Known]; done)
      | (simp [Defined]; done)
      | (constructor <;> simp [OneStrength])
  refine ⟨hc, ?_, ?_⟩
  · rw [modes_of_clean hc]
    simp [exBondCalls, modesAt]
    norm_num
  · simp [exBondCalls]

/-- C49 applies to a Holstein–Peierls model and to a BondPeierls model at finite temperature. -/
example (σ : SetOrder) : (∃ m b, (Model.fromParameters (1 : ℝ) 1 0 none 1).adds realPrims exCalls = .ok m ∧
      buildSystem σ m = .ok b ∧ ∀ k w eta : ℝ, ∀ g,
        GreenValue realPhys m ⟨k + 2 * Real.pi / 1, w, eta⟩ b.eqs g ↔
          GreenValue realPhys m ⟨k, w, eta⟩ b.eqs g) ∧
    (∃ m b, (Model.fromParameters (1 : ℝ) 1 1 none 1).adds realPrims exBondCalls = .ok m ∧
      buildSystem σ m = .ok b ∧ ∀ k w eta : ℝ, ∀ g,
        GreenValue realPhys m ⟨k + 2 * Real.pi / 1, w, eta⟩ b.eqs g ↔
          GreenValue realPhys m ⟨k, w, eta⟩ b.eqs g) := by
  constructor
  · obtain ⟨h1, h2, h3⟩ := exCalls_clean
    obtain ⟨m, b, k1, k2, k3⟩ := C49_assembled σ realPrims C42_names 1 1 0 one_ne_zero none (by simp) exCalls
      (by simp [exCalls]) h1 h2 (Or.inr h3)
    exact ⟨m, b, k1, k2, fun k w eta => (k3 k w eta).2⟩
  · obtain ⟨h1, h2, h3⟩ := exBondCalls_clean
    obtain ⟨m, b, k1, k2, k3⟩ := C49_assembled σ realPrims C42_names 1 1 1 one_ne_zero none (by simp)
      exBondCalls (by simp [exBondCalls]) h1 h2 (Or.inl h3)
    exact ⟨m, b, k1, k2, fun k w eta => (k3 k w eta).2⟩

end GGCE.Props
