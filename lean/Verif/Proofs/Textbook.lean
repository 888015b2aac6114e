import Verif.Spec.Textbook
import Verif.Proofs.Blueprint

/-!
The textbook operators on the basis, and the terms the program builds.
-/

set_option linter.unusedSimpArgs false

namespace GGCE
open Spec Complex

theorem onKets_ket (f : ℤ → Occ → Fock) (e : ℤ) (n : Occ) : onKets f (ket e n) = f e n := by
  unfold onKets ket
  rw [Finsupp.linearCombination_single, one_smul]

theorem latticeSum_ket (A : ℤ → Fock →ₗ[ℂ] Fock) (e : ℤ) (n : Occ) :
    latticeSum A (ket e n) = ∑ᶠ i, A i (ket e n) := onKets_ket _ e n

theorem transfer_ket (i j e : ℤ) (n : Occ) : transfer i j (ket e n) = if e = j then ket i n else 0 :=
  onKets_ket _ e n

theorem creation_ket (T : ℕ) (x e : ℤ) (n : Occ) : creation T x (ket e n) = ket e (n + quantum T x) := onKets_ket _ e n

theorem annihilation_ket (T : ℕ) (x e : ℤ) (n : Occ) :
    annihilation T x (ket e n) = (n T x : ℂ) • ket e (n - quantum T x) := onKets_ket _ e n

theorem translation_ket (s e : ℤ) (n : Occ) : translation s (ket e n) = ket (e + s) (n.shift s) := onKets_ket _ e n

/-- operators and functionals are determined by the basis -/
theorem fock_ext {M : Type} [AddCommMonoid M] [Module ℂ M] {F G : Fock →ₗ[ℂ] M} (h : ∀ e n, F (ket e n) = G (ket e n)) :
    F = G := by
  refine Finsupp.lhom_ext' (fun s => LinearMap.ext_ring ?_)
  exact h s.1 s.2

theorem add_quantum (n : Occ) (T : ℕ) (x : ℤ) : n + quantum T x = n.act .plus T x := rfl

theorem sub_quantum (n : Occ) (T : ℕ) (x : ℤ) : n - quantum T x = n.act .minus T x := by
  funext T' y
  show n T' y - quantum T x T' y = n T' y + _
  unfold quantum Dag.delta
  split <;> simp [sub_eq_add_neg]

/-- a functional with given values on the basis -/
noncomputable def onBasis (Ψ : Occ → ℤ → ℂ) : Fock →ₗ[ℂ] ℂ :=
  Finsupp.linearCombination ℂ (fun s : Ket => Ψ s.2 s.1)

theorem onBasis_ket (Ψ : Occ → ℤ → ℂ) (e : ℤ) (n : Occ) : onBasis Ψ (ket e n) = Ψ n e := by
  unfold onBasis ket
  rw [Finsupp.linearCombination_single, one_smul]

/-- the sum over the sites has one summand -/
theorem latticeSum_single {A : ℤ → Fock →ₗ[ℂ] Fock} {e : ℤ} {n : Occ} (h : ∀ i, i ≠ e → A i (ket e n) = 0) :
    latticeSum A (ket e n) = A e (ket e n) := by
  rw [latticeSum_ket]
  exact finsum_eq_single _ e h

/-- the sum over the bonds has two summands -/
theorem latticeSum_bond {A : ℤ → Fock →ₗ[ℂ] Fock} {e : ℤ} {n : Occ} (h : ∀ i, i ≠ e → i ≠ e - 1 → A i (ket e n) = 0) :
    latticeSum A (ket e n) = A (e - 1) (ket e n) + A e (ket e n) := by
  rw [latticeSum_ket, finsum_eq_sum_of_support_subset (s := {e - 1, e})]
  · rw [Finset.sum_pair (by omega)]
  · intro i hi
    by_contra hc
    refine hi (h i ?_ ?_)
    · rintro rfl; exact hc (by simp)
    · rintro rfl; exact hc (by simp)

theorem kinetic_ket (t : ℝ) (e : ℤ) (n : Occ) :
    kineticEnergy t (ket e n) = (-t : ℂ) • (ket (e - 1) n + ket (e + 1) n) := by
  unfold kineticEnergy
  rw [latticeSum_bond]
  · simp only [LinearMap.smul_apply, LinearMap.add_apply, transfer_ket, sub_add_cancel, if_true]
    rw [if_neg (by omega), if_neg (by omega), add_zero, zero_add, ← smul_add]
  · intro i h1 h2
    simp only [LinearMap.smul_apply, LinearMap.add_apply, transfer_ket]
    rw [if_neg (by omega), if_neg (by omega), add_zero, smul_zero]

theorem phonon_ket (Ω : ℝ) (T : ℕ) (e : ℤ) (n : Occ) :
    phononEnergy Ω T (ket e n) = (Ω * ((∑ᶠ x, n T x : ℤ) : ℝ) : ℂ) • ket e n := by
  unfold phononEnergy
  rw [latticeSum_ket]
  have h : ∀ i, ((Ω : ℂ) • (creation T i ∘ₗ annihilation T i)) (ket e n) = n T i • ((Ω : ℂ) • ket e n) := by
    intro i
    rw [LinearMap.smul_apply, LinearMap.comp_apply, annihilation_ket, map_smul, creation_ket, sub_add_cancel,
      smul_comm, Int.cast_smul_eq_zsmul]
  simp only [h]
  rw [← finsum_smul, ← Int.cast_smul_eq_zsmul ℂ, smul_smul, mul_comm]
  push_cast
  rfl

/-- the sign in front of the program's terms, relative to the literature -/
def nameSign (name : String) : ℝ := if name = "Holstein" ∨ name = "Peierls" then -1 else 1

theorem coupling_ket (F : Fock →ₗ[ℂ] ℂ) {name : String} (hn : Known name) (g f : ℝ) (T : ℕ) (e : ℤ) (n : Occ) :
    F (couplingEnergy name g T (ket e n)) =
      ((termsOf name (nameSign name * g) T f).map (fun h : SingleTerm ℝ => (h.coupling : ℂ) *
        (occFactor h.dag n h.phononIndex (bosonSite h e) : ℂ) *
        F (ket (electronSite h e) (n.act h.dag h.phononIndex (bosonSite h e))))).sum := by
  rcases hn with rfl | rfl | rfl | rfl
  · unfold couplingEnergy
    rw [if_pos rfl, latticeSum_single]
    · simp only [LinearMap.smul_apply, LinearMap.comp_apply, LinearMap.add_apply, creation_ket, annihilation_ket, map_add,
        map_smul, transfer_ket, if_true]
      simp [termsOf, termShapes, nameSign, bosonSite, electronSite, occFactor, add_quantum, sub_quantum, Num.int]
      ring
    · intro i hi
      simp [creation_ket, annihilation_ket, transfer_ket, hi.symm]
  · unfold couplingEnergy
    rw [if_neg (by decide), if_pos rfl, latticeSum_bond]
    · simp only [LinearMap.smul_apply, LinearMap.comp_apply, LinearMap.add_apply, LinearMap.sub_apply, creation_ket,
        annihilation_ket, map_add, map_sub, map_smul, transfer_ket, sub_add_cancel, if_true, show e ≠ e - 1 by omega,
        show e ≠ e + 1 by omega, if_false]
      simp [termsOf, termShapes, nameSign, bosonSite, electronSite, occFactor, add_quantum, sub_quantum, Num.int,
        show (2 * e + 2) / 2 = e + 1 by omega, show (2 * e - 2) / 2 = e - 1 by omega,
        show (2 * e + 2 - 2) / 2 = e by omega, show (2 * e - 2 + 1) / 2 = e - 1 by omega,
        show (2 * e + 1 + -1) / 2 = e by omega, show (2 * e + 1) / 2 = e by omega, show (2 * e + 1 + 1 - 1) / 2 = e by omega, show (2 * e + 2 + -1) / 2 = e by omega]
      ring
    · intro i h1 h2
      have e1 : e ≠ i + 1 := by omega
      simp [creation_ket, annihilation_ket, transfer_ket, h1.symm, e1]
  · unfold couplingEnergy
    rw [if_neg (by decide), if_neg (by decide), if_pos rfl, latticeSum_bond]
    · simp only [LinearMap.smul_apply, LinearMap.comp_apply, LinearMap.add_apply, LinearMap.sub_apply, creation_ket,
        annihilation_ket, map_add, map_sub, map_smul, transfer_ket, sub_add_cancel, if_true, show e ≠ e - 1 by omega,
        show e ≠ e + 1 by omega, if_false]
      simp [termsOf, termShapes, nameSign, bosonSite, electronSite, occFactor, add_quantum, sub_quantum, Num.int,
        show (2 * e + 2) / 2 = e + 1 by omega, show (2 * e - 2) / 2 = e - 1 by omega,
        show (2 * e + 2 - 2) / 2 = e by omega, show (2 * e - 2 + 1) / 2 = e - 1 by omega,
        show (2 * e + 1 + -1) / 2 = e by omega, show (2 * e + 1) / 2 = e by omega, show (2 * e + 1 + 1 - 1) / 2 = e by omega, show (2 * e + 2 + -1) / 2 = e by omega]
      ring
    · intro i h1 h2
      have e1 : e ≠ i + 1 := by omega
      simp [creation_ket, annihilation_ket, transfer_ket, h1.symm, e1]
  · unfold couplingEnergy
    rw [if_neg (by decide), if_neg (by decide), if_neg (by decide), if_pos rfl, latticeSum_bond]
    · simp only [LinearMap.smul_apply, LinearMap.comp_apply, LinearMap.add_apply, LinearMap.sub_apply, creation_ket,
        annihilation_ket, map_add, map_sub, map_smul, transfer_ket, sub_add_cancel, if_true, show e ≠ e - 1 by omega,
        show e ≠ e + 1 by omega, if_false]
      simp [termsOf, termShapes, nameSign, bosonSite, electronSite, occFactor, add_quantum, sub_quantum, Num.int,
        show (2 * e + 2) / 2 = e + 1 by omega, show (2 * e - 2) / 2 = e - 1 by omega,
        show (2 * e + 2 - 2) / 2 = e by omega, show (2 * e - 2 + 1) / 2 = e - 1 by omega,
        show (2 * e + 1 + -1) / 2 = e by omega, show (2 * e + 1) / 2 = e by omega, show (2 * e + 1 + 1 - 1) / 2 = e by omega, show (2 * e + 2 + -1) / 2 = e by omega]
      ring
    · intro i h1 h2
      have e1 : e ≠ i + 1 := by omega
      simp [creation_ket, annihilation_ket, transfer_ket, h1.symm, e1]

/-- the mode of the program and the branch of the textbook -/
structure Denotes (d : Part ℝ) (b : Branch) : Prop where
  known : Known b.name
  name : d.ctype = b.name
  freq : d.freq = b.Ω
  strength : d.g = nameSign b.name * b.g

theorem branches_ket (F : Fock →ₗ[ℂ] ℂ) {ds : List (Part ℝ)} {bs : List Branch} (h : List.Forall₂ Denotes ds bs) (i : ℕ)
    (e : ℤ) (n : Occ) :
    F (((bs.zipIdx i).map fun q => phononEnergy q.1.Ω q.2 + couplingEnergy q.1.name q.1.g q.2).sum (ket e n)) =
      ((∑ t ∈ Finset.range ds.length, (ds.map (·.freq)).getD t 0 * ((∑ᶠ x, n (i + t) x : ℤ) : ℝ) : ℝ) : ℂ) * F (ket e n) +
      ((partTerms ds i).map (fun h : SingleTerm ℝ => (h.coupling : ℂ) *
        (occFactor h.dag n h.phononIndex (bosonSite h e) : ℂ) *
        F (ket (electronSite h e) (n.act h.dag h.phononIndex (bosonSite h e))))).sum := by
  induction h generalizing i with
  | nil => simp [partTerms]
  | @cons d b ds bs hd _ ih =>
    have hcons : partTerms (d :: ds) i = termsOf d.ctype d.g i d.freq ++ partTerms ds (i + 1) := rfl
    rw [hcons, List.map_append, List.sum_append, List.zipIdx_cons, List.map_cons, List.sum_cons, LinearMap.add_apply,
      LinearMap.add_apply, map_add, map_add, ih (i + 1), coupling_ket F hd.known b.g d.freq, phonon_ket, map_smul,
      hd.name, hd.strength, List.length_cons, Finset.sum_range_succ', List.map_cons, List.getD_cons_zero, hd.freq]
    simp only [List.getD_cons_succ, add_zero, smul_eq_mul]
    have hs : ∑ t ∈ Finset.range ds.length, (ds.map (·.freq)).getD t 0 * ((∑ᶠ x, n (i + (t + 1)) x : ℤ) : ℝ) =
        ∑ t ∈ Finset.range ds.length, (ds.map (·.freq)).getD t 0 * ((∑ᶠ x, n (i + 1 + t) x : ℤ) : ℝ) :=
      Finset.sum_congr rfl (fun t _ => by rw [show i + (t + 1) = i + 1 + t by omega])
    rw [hs]
    push_cast
    ring

theorem textbook_ket (F : Fock →ₗ[ℂ] ℂ) {ds : List (Part ℝ)} {bs : List Branch} (h : List.Forall₂ Denotes ds bs)
    (hopping lattice T : ℝ) (cap : Option ℤ) (e : ℤ) (n : Occ) :
    F (textbook hopping bs (ket e n)) = occEnergy (blueprint hopping lattice T cap ds) n * F (ket e n) -
        hopping * (F (ket (e - 1) n) + F (ket (e + 1) n)) +
      ((blueprint hopping lattice T cap ds).ham.terms.map (fun h : SingleTerm ℝ => (h.coupling : ℂ) *
        (occFactor h.dag n h.phononIndex (bosonSite h e) : ℂ) *
        F (ket (electronSite h e) (n.act h.dag h.phononIndex (bosonSite h e))))).sum := by
  unfold textbook
  rw [LinearMap.add_apply, map_add, branches_ket F h 0, kinetic_ket, map_smul, map_add, smul_eq_mul]
  unfold occEnergy blueprint
  simp only [zero_add]
  ring

/-- The equations of motion of the program's terms are those of the textbook Hamiltonian. -/
theorem resolvent_iff {ds : List (Part ℝ)} {bs : List Branch} (h : List.Forall₂ Denotes ds bs) {hopping lattice T : ℝ}
    {cap : Option ℤ} {ae : ℤ} {keep : Occ → Prop} (hk : ∀ n, keep n ↔ Allowed (blueprint hopping lattice T cap ds) ae n)
    (p : Point ℝ) (F : Fock →ₗ[ℂ] ℂ) :
    Propagator (textbook hopping bs) keep lattice p F ↔
      Resolvent (blueprint hopping lattice T cap ds) ae p (fun n e => F (ket e n)) := by
  constructor
  · rintro ⟨h1, h2, h3, h4⟩
    refine ⟨fun n e s => ?_, h2, fun n hn => h3 n (fun h => hn ((hk n).1 h)), fun n hn e => ?_⟩
    · have := h1 (ket e n) s
      rw [translation_ket] at this
      exact this
    · have := h4 n ((hk n).2 hn) e
      rw [map_sub, textbook_ket F h hopping lattice T cap, map_smul, smul_eq_mul] at this
      refine Eq.trans ?_ this
      show (_ - _) * F (ket e n) + hopping * (F (ket (e - 1) n) + F (ket (e + 1) n)) - _ = _
      ring
  · rintro ⟨h1, h2, h3, h4⟩
    refine ⟨fun v s => ?_, h2, fun n hn => h3 n (fun h => hn ((hk n).2 h)), fun n hn e => ?_⟩
    · have : F ∘ₗ translation s = exp (-(I * (p.k * lattice * s))) • F := by
        refine fock_ext (fun e n => ?_)
        rw [LinearMap.comp_apply, translation_ket, LinearMap.smul_apply, smul_eq_mul]
        exact h1 n e s
      exact congrArg (fun G : Fock →ₗ[ℂ] ℂ => G v) this
    · have := h4 n ((hk n).1 hn) e
      rw [map_sub, textbook_ket F h hopping lattice T cap, map_smul, smul_eq_mul]
      refine Eq.trans ?_ this
      show _ = (_ - _) * F (ket e n) + hopping * (F (ket (e - 1) n) + F (ket (e + 1) n)) - _
      ring

end GGCE
