import Verif.Proofs.Textbook
import Verif.Props.Signs
import Verif.Props.Cold

/-!
Property C130: the numbers are those of the Hamiltonians of the literature, written with creation and annihilation
operators.
-/

namespace GGCE.Props
open Spec Arr Complex

/-! ### the operators are the right ones -/

/-- **C130**, the operators of the specification: phonons obey the canonical commutation relations, `c†_i c_j` those of
one electron, and the two kinds commute. -/
theorem C130_algebra (T T' : ℕ) (x y i j k l : ℤ) :
    annihilation T x ∘ₗ creation T' y - creation T' y ∘ₗ annihilation T x =
      (if T = T' ∧ x = y then LinearMap.id else 0) ∧
    creation T x ∘ₗ creation T' y = creation T' y ∘ₗ creation T x ∧
    annihilation T x ∘ₗ annihilation T' y = annihilation T' y ∘ₗ annihilation T x ∧
    transfer i j ∘ₗ transfer k l = (if j = k then transfer i l else 0) ∧
    transfer i j ∘ₗ creation T x = creation T x ∘ₗ transfer i j ∧
    transfer i j ∘ₗ annihilation T x = annihilation T x ∘ₗ transfer i j := by
  have hq : ∀ (n : Occ) (T : ℕ) (x : ℤ) (T' : ℕ) (y : ℤ), (n + quantum T' y) T x = n T x + if T = T' ∧ x = y then 1 else 0 :=
    fun n T x T' y => rfl
  have hq' : ∀ (n : Occ) (T : ℕ) (x : ℤ) (T' : ℕ) (y : ℤ), (n - quantum T' y) T x = n T x - if T = T' ∧ x = y then 1 else 0 :=
    fun n T x T' y => rfl
  refine ⟨fock_ext fun e n => ?_, fock_ext fun e n => ?_, fock_ext fun e n => ?_, fock_ext fun e n => ?_,
    fock_ext fun e n => ?_, fock_ext fun e n => ?_⟩
  · rw [LinearMap.sub_apply, LinearMap.comp_apply, LinearMap.comp_apply, creation_ket, annihilation_ket, annihilation_ket,
      map_smul, creation_ket, hq, add_sub_right_comm, ← sub_smul]
    by_cases h : T = T' ∧ x = y
    · obtain ⟨rfl, rfl⟩ := h
      simp
    · simp [h]
  · simp only [LinearMap.comp_apply, creation_ket, add_right_comm]
  · simp only [LinearMap.comp_apply, annihilation_ket, map_smul, smul_smul, hq', sub_right_comm n]
    congr 1
    by_cases h : T = T' ∧ x = y
    · obtain ⟨rfl, rfl⟩ := h; simp
    · have h' : ¬ (T' = T ∧ y = x) := fun h' => h ⟨h'.1.symm, h'.2.symm⟩
      simp [h, h', mul_comm]
  · rw [LinearMap.comp_apply, transfer_ket]
    by_cases h1 : e = l <;> by_cases h2 : j = k <;> simp [h1, h2, transfer_ket, eq_comm]
  · simp only [LinearMap.comp_apply, creation_ket, transfer_ket]
    split <;> simp [creation_ket]
  · simp only [LinearMap.comp_apply, annihilation_ket, transfer_ket, map_smul]
    split <;> simp [annihilation_ket]

/-- What the couplings do to a bare electron: Holstein makes a phonon where the electron is, EdwardsFermionBoson one where
the electron was, BondPeierls one on the bond it has crossed, Peierls one on either end of that bond, with opposite
signs. -/
theorem C130_vertices (g : ℝ) (T : ℕ) (e : ℤ) :
    couplingEnergy "Holstein" g T (ket e 0) = (g : ℂ) • ket e (quantum T e) ∧
    couplingEnergy "EdwardsFermionBoson" g T (ket e 0) =
      (g : ℂ) • (ket (e - 1) (quantum T e) + ket (e + 1) (quantum T e)) ∧
    couplingEnergy "BondPeierls" g T (ket e 0) =
      (g : ℂ) • (ket (e - 1) (quantum T (e - 1)) + ket (e + 1) (quantum T e)) ∧
    couplingEnergy "Peierls" g T (ket e 0) =
      (g : ℂ) • (ket (e - 1) (quantum T e) - ket (e - 1) (quantum T (e - 1)) +
        (ket (e + 1) (quantum T (e + 1)) - ket (e + 1) (quantum T e))) := by
  have h1 : e ≠ e - 1 := by omega
  refine ⟨?_, ?_, ?_, ?_⟩
  · unfold couplingEnergy
    rw [if_pos rfl, latticeSum_single]
    · simp [creation_ket, annihilation_ket, transfer_ket]
    · intro i hi
      simp [creation_ket, annihilation_ket, transfer_ket, hi.symm]
  all_goals
    unfold couplingEnergy
    simp only [if_true, if_false, String.reduceEq]
    rw [latticeSum_bond]
    · simp [creation_ket, annihilation_ket, transfer_ket, smul_add, smul_sub, h1]
    · intro i h1 h2
      have e1 : e ≠ i + 1 := by omega
      simp [creation_ket, annihilation_ket, transfer_ket, h1.symm, e1]

/-! ### from the calls to the Hamiltonian -/

theorem parts_requests {hopping T : ℝ} {as : List (AddArgs ℝ)} (hc : Clean realPrims hopping T as)
    (hpos : 0 < T → ∀ a ∈ as, 0 < a.freq) :
    List.Forall₂ (fun d r => Known d.ctype ∧ r.1 = d.ctype ∧ r.2.1 = d.freq ∧ r.2.2 = d.g ^ 2)
      (parts realPrims hopping T as) (requests hopping T as) := by
  induction as with
  | nil => exact .nil
  | cons a as ih =>
    have i1 := ih ⟨fun x hx => hc.valid x (List.mem_cons_of_mem _ hx), fun x hx => hc.known x (List.mem_cons_of_mem _ hx),
      fun x hx => hc.noOverride x (List.mem_cons_of_mem _ hx), fun x hx => hc.defined x (List.mem_cons_of_mem _ hx)⟩
      (fun hT x hx => hpos hT x (List.mem_cons_of_mem _ hx))
    have hk := hc.known a (by simp)
    have hsq := strengthD_sq hk (hc.valid a (by simp)).strength (hc.defined a (by simp)) (Or.inl rfl)
    rw [parts_cons]
    unfold requests
    rw [List.flatMap_cons]
    refine List.rel_append ?_ i1
    unfold partsAt
    split
    · rename_i hT
      obtain ⟨t1, t2, t3⟩ := tfd_values hT (hpos hT a (by simp))
      rw [t1, t2, strengthD_neg]
      refine .cons ⟨hk, rfl, rfl, ?_⟩ (.cons ⟨hk, rfl, rfl, ?_⟩ .nil)
      · rw [mul_pow, hsq, Real.sq_sqrt (by linarith)]
      · rw [mul_pow, hsq, Real.sq_sqrt t3]
    · exact .cons ⟨hk, rfl, rfl, by rw [mul_one, hsq]⟩ .nil

theorem exists_denoted {ds : List (Part ℝ)} {rs : List (String × ℝ × ℝ)} {bs : List Branch}
    (h : List.Forall₂ (fun d r => Known d.ctype ∧ r.1 = d.ctype ∧ r.2.1 = d.freq ∧ r.2.2 = d.g ^ 2) ds rs)
    (h' : List.Forall₂ (fun r b => b.name = r.1 ∧ b.Ω = r.2.1 ∧ b.g ^ 2 = r.2.2) rs bs) :
    ∃ ds', List.Forall₂ UpToSign ds ds' ∧ List.Forall₂ Denotes ds' bs := by
  induction h generalizing bs with
  | nil => cases h'; exact ⟨[], .nil, .nil⟩
  | @cons d r ds rs hd _ ih =>
    obtain _ | @⟨_, b, _, bs, hb, hbs⟩ := h'
    obtain ⟨ds', i1, i2⟩ := ih hbs
    obtain ⟨k, e1, e2, e3⟩ := hd
    obtain ⟨f1, f2, f3⟩ := hb
    refine ⟨{ d with g := nameSign b.name * b.g } :: ds', .cons ?_ i1, .cons ⟨?_, ?_, ?_, rfl⟩ i2⟩
    · have hs : (nameSign b.name * b.g) ^ 2 = d.g ^ 2 := by
        rw [mul_pow, f3, e3]
        unfold nameSign
        split <;> norm_num
      rcases sq_eq_sq_iff_eq_or_eq_neg.1 hs with h | h <;> rw [h]
      · exact Or.inl rfl
      · exact Or.inr rfl
    · rw [f1, e1]; exact k
    · rw [f1, e1]
    · rw [f2, e2]

theorem parts_modes {hopping T : ℝ} {as : List (AddArgs ℝ)} (hc : Clean realPrims hopping T as) :
    (parts realPrims hopping T as).map (·.M) = (modes T as).map (·.M) ∧
      (parts realPrims hopping T as).map (·.N) = (modes T as).map (·.N) ∧
      (parts realPrims hopping T as).length = (modes T as).length := by
  rw [modes_of_clean hc]
  unfold parts
  refine ⟨?_, ?_, ?_⟩
  · rw [List.map_flatMap, List.map_flatMap]
    congr 1; funext a
    unfold partsAt modesAt
    split <;> rfl
  · rw [List.map_flatMap, List.map_flatMap]
    congr 1; funext a
    unfold partsAt modesAt
    split <;> rfl
  · rw [List.length_flatMap, List.length_flatMap]
    congr 2; funext a
    unfold partsAt modesAt
    split <;> rfl

theorem permitted_iff {hopping lattice T : ℝ} {cap : Option ℤ} {ds : List (Part ℝ)} {ms : List (Mode ℝ)} {ae : ℤ}
    (hM : ds.map (·.M) = ms.map (·.M)) (hN : ds.map (·.N) = ms.map (·.N)) (hlen : ds.length = ms.length)
    (hae : (blueprint hopping lattice T cap ds).absExtent = some ae) (n : Occ) :
    Permitted cap ms n ↔ Allowed (blueprint hopping lattice T cap ds) ae n := by
  have hmax : (ms.map (·.M)).max? = some ae := by rw [← hM]; exact hae
  obtain ⟨m1, m2⟩ := List.max?_eq_some_iff.1 hmax
  have hw : ∀ z : ℤ, (∃ a ∈ ms, z ≤ a.M) ↔ z ≤ ae := by
    intro z
    constructor
    · rintro ⟨a, ha, hz⟩
      exact hz.trans (m2 _ (List.mem_map_of_mem ha))
    · intro hz
      obtain ⟨a, ha, rfl⟩ := List.mem_map.1 m1
      exact ⟨a, ha, hz⟩
  constructor
  · rintro ⟨h1, h2, h3, h4, h5, h6⟩
    refine ⟨h1, fun t x h => ?_, h3, fun t x t' y h h' => (hw _).1 (h4 t x t' y h h'), fun t M h => ?_, fun t N h => ?_⟩
    · show t < ds.length
      rw [hlen]; exact h2 t x h
    · have h : (ds.map (·.M))[t]? = some M := h
      rw [hM, List.getElem?_map, Option.map_eq_some_iff] at h
      obtain ⟨a, ha, rfl⟩ := h
      exact h5 t a ha
    · have h : (ds.map (·.N))[t]? = some N := h
      rw [hN, List.getElem?_map, Option.map_eq_some_iff] at h
      obtain ⟨a, ha, rfl⟩ := h
      exact h6 t a ha
  · rintro ⟨h1, h2, h3, h4, h5, h6⟩
    refine ⟨h1, fun t x h => ?_, h3, fun t x t' y h h' => (hw _).2 (h4 t x t' y h h'), fun t a h => ?_, fun t a h => ?_⟩
    · rw [← hlen]; exact h2 t x h
    · refine h5 t a.M ?_
      show (ds.map (·.M))[t]? = _
      rw [hM, List.getElem?_map, h]; rfl
    · refine h6 t a.N ?_
      show (ds.map (·.N))[t]? = _
      rw [hN, List.getElem?_map, h]; rfl

theorem gaugeTerm_twice (ε : ℕ → ℤˣ) (h : SingleTerm ℝ) : gaugeTerm ε 1 (gaugeTerm ε 1 h) = h := by
  unfold gaugeTerm
  rcases Int.units_eq_one_or (ε h.phononIndex) with e | e <;> simp [e]

/-- **C130**. For every sequence of valid `add_` calls with built-in couplings, and every choice of signs of the
coupling constants, the solvers return `⟨k| (ω + iη - H)⁻¹ c†_0 |0⟩` for the Hamiltonian `H` of the literature,
restricted to the phonons the user has asked to keep. -/
theorem C130_textbook (σ : SetOrder) (hopping lattice T : ℝ)
    (hl : hopping = 0 ∨ (0 < hopping ∧ lattice = 1)) (cap : Option Int) (hcap : ∀ c, cap = some c → 1 ≤ c)
    (as : List (AddArgs ℝ)) (hne : as ≠ []) (hc : Clean realPrims hopping T as)
    (hf : ((modes T as).map (·.freq)).Nodup)
    (hb : (∀ a ∈ as, a.ctype = "BondPeierls") ∨ (∀ a ∈ as, a.ctype ≠ "BondPeierls"))
    (hpos : 0 < T → ∀ a ∈ as, 0 < a.freq) :
    ∃ m b, (Model.fromParameters hopping lattice T cap 1).adds realPrims as = .ok m ∧ buildSystem σ m = .ok b ∧
      ∀ bs, Requested hopping T as bs → ∀ k w eta : ℝ, 0 < eta →
        ∃ F, Propagator (textbook hopping bs) (Permitted cap (modes T as)) lattice ⟨k, w, eta⟩ F ∧
          (∀ F', Propagator (textbook hopping bs) (Permitted cap (modes T as)) lattice ⟨k, w, eta⟩ F' → F' = F) ∧
          Gives m b ⟨k, w, eta⟩ (F (ket 0 0)) := by
  obtain ⟨m, b, h1, ⟨ae, h2⟩, h3⟩ := C16_assembled σ realPrims C42_names hopping lattice T cap hcap as hne hc hf hb
  refine ⟨m, b, h1, h3, ?_⟩
  intro bs hbs k w eta heta
  have hp := physical_assembled h1 hb hl
  rw [fromParameters_blueprint hopping lattice T cap as hc hf] at h1
  cases h1
  obtain ⟨ds', hd, hD⟩ := exists_denoted (parts_requests hc hpos) hbs
  obtain ⟨q1, q2, q3⟩ := parts_modes hc
  have hfr : ds'.map (·.freq) = (parts realPrims hopping T as).map (·.freq) ∧
      ds'.map (·.M) = (parts realPrims hopping T as).map (·.M) ∧
      ds'.map (·.N) = (parts realPrims hopping T as).map (·.N) ∧
      ds'.length = (parts realPrims hopping T as).length := by
    generalize parts realPrims hopping T as = ds at hd
    clear hD
    induction hd with
    | nil => simp
    | cons h _ ih => rcases h with rfl | rfl <;> simp [ih]
  obtain ⟨ε, hε⟩ := partTerms_signs hd 0
  have hm : blueprint hopping lattice T cap ds' =
      gaugeModel ε 1 (blueprint hopping lattice T cap (parts realPrims hopping T as)) := by
    unfold gaugeModel blueprint
    simp only [hfr, hε, Units.val_one, Int.cast_one, one_mul]
  have hm' : blueprint hopping lattice T cap (parts realPrims hopping T as) =
      gaugeModel ε 1 (blueprint hopping lattice T cap ds') := by
    rw [hm]
    unfold gaugeModel
    simp only [List.map_map, Function.comp_def, gaugeTerm_twice, List.map_id', Units.val_one, Int.cast_one, one_mul]
  have hae : (blueprint hopping lattice T cap ds').absExtent = some ae := by
    rw [hm]; exact h2.absExtent
  have hk := permitted_iff (hopping := hopping) (lattice := lattice) (T := T) (cap := cap)
    (hfr.2.1.trans q1) (hfr.2.2.1.trans q2) (hfr.2.2.2.trans q3) hae
  have hiff := resolvent_iff hD hk ⟨k, w, eta⟩
  obtain ⟨Ψ, hΨ, huniq, g1, g2⟩ := C55_exact σ _ ae h2 b h3 hp ⟨k, w, eta⟩ heta
  have hR := resolvent_gauge (k' := k) ε 1 h2.index (by intro s; simp) hΨ
  rw [← hm] at hR
  refine ⟨onBasis (fun n e => unitC (1 ^ e * occSign (parts realPrims hopping T as).length ε n) * Ψ n e), ?_, ?_, ?_⟩
  · rw [hiff]
    simp only [onBasis_ket]
    exact hR
  · intro F' hF'
    rw [hiff] at hF'
    have hidx : ∀ h ∈ (blueprint hopping lattice T cap ds').ham.terms, h.phononIndex < (blueprint hopping lattice T cap ds').nTypes := by
      intro h hh
      have := (index_partTerms (show h ∈ partTerms ds' 0 from hh)).2
      show h.phononIndex < ds'.length
      simpa using this
    have hB := resolvent_gauge (k' := k) ε 1 hidx (by intro s; simp) hF'
    rw [← hm'] at hB
    have hB' := huniq _ hB
    refine fock_ext (fun e n => ?_)
    rw [onBasis_ket, ← hB']
    show _ = _ * (unitC (1 ^ e * occSign ds'.length ε n) * F' (ket e n))
    rw [hfr.2.2.2, ← mul_assoc, ← unitC_mul, ← pow_two, Int.units_sq, unitC_one, one_mul]
  · rw [onBasis_ket, occSign_zero]
    simp only [one_zpow, mul_one, unitC_one, one_mul]
    exact ⟨g1, g2⟩

/-- The model of the tutorials (docs/source/tutorials/introduction.rst:22): the documented Hamiltonian has the coupling
`-g`, the program builds the terms with `+g`, and the result is that of the documented one. -/
noncomputable def exEdwards : List (AddArgs ℝ) :=
  [{ ctype := "EdwardsFermionBoson", freq := 5 / 4, M := 3, N := 9, g := some (5 / 2) }]

theorem exEdwards_clean : Clean realPrims 1 0 exEdwards ∧ ((modes 0 exEdwards).map (·.freq)).Nodup := by
  have hc : Clean realPrims 1 0 exEdwards := by
    constructor <;> intro a ha <;> simp only [exEdwards, List.mem_cons, List.not_mem_nil, or_false] at ha <;> subst ha
    all_goals first
      | rfl
      | (simp [Known]; done)
      | (simp [Defined]; done)
      | (constructor <;> simp [OneStrength])
  refine ⟨hc, ?_⟩
  rw [modes_of_clean hc]
  simp [exEdwards, modesAt]

example (σ : SetOrder) : ∃ m b, (Model.fromParameters (1 : ℝ) 1 0 none 1).adds realPrims exEdwards = .ok m ∧
    buildSystem σ m = .ok b ∧ ∀ k w eta : ℝ, 0 < eta →
      ∃ F, Propagator (textbook 1 [⟨"EdwardsFermionBoson", 5 / 4, -(5 / 2)⟩]) (Permitted none (modes 0 exEdwards)) 1 ⟨k, w, eta⟩ F ∧
        Gives m b ⟨k, w, eta⟩ (F (ket 0 0)) := by
  obtain ⟨h1, h2⟩ := exEdwards_clean
  obtain ⟨m, b, k1, k2, k3⟩ := C130_textbook σ 1 1 0 (Or.inr ⟨one_pos, rfl⟩) none (by simp) exEdwards (by simp [exEdwards])
    h1 h2 (Or.inr (by simp [exEdwards])) (fun h => absurd h (lt_irrefl _))
  refine ⟨m, b, k1, k2, fun k w eta heta => ?_⟩
  obtain ⟨F, f1, -, f2⟩ := k3 [⟨"EdwardsFermionBoson", 5 / 4, -(5 / 2)⟩]
    (by
      have : requests 1 0 exEdwards = [("EdwardsFermionBoson", 5 / 4, (5 / 2) ^ 2)] := by
        simp [requests, exEdwards, strengthSq]
      unfold Requested
      rw [this]
      exact .cons ⟨rfl, rfl, by norm_num⟩ .nil) k w eta heta
  exact ⟨F, f1, f2⟩

/-- Two branches, signs as in the literature; the result is not zero. -/
example (σ : SetOrder) : ∃ m b F, (Model.fromParameters (1 : ℝ) 1 0 none 1).adds realPrims exCalls = .ok m ∧
    buildSystem σ m = .ok b ∧
      Propagator (textbook 1 [⟨"Holstein", 2, 1⟩, ⟨"Peierls", 1, 1 / 2⟩]) (Permitted none (modes 0 exCalls)) 1 ⟨0, -2, 1 / 10⟩ F ∧
        Gives m b ⟨0, -2, 1 / 10⟩ (F (ket 0 0)) ∧ F (ket 0 0) ≠ 0 := by
  obtain ⟨h1, h2, h3⟩ := exCalls_clean
  obtain ⟨m, b, k1, k2, k3⟩ := C130_textbook σ 1 1 0 (Or.inr ⟨one_pos, rfl⟩) none (by simp) exCalls (by simp [exCalls])
    h1 h2 (Or.inr h3) (fun h => absurd h (lt_irrefl _))
  obtain ⟨F, f1, -, f2⟩ := k3 [⟨"Holstein", 2, 1⟩, ⟨"Peierls", 1, 1 / 2⟩]
    (by
      have : requests 1 0 exCalls = [("Holstein", 2, 1 ^ 2), ("Peierls", 1, (1 / 2) ^ 2)] := by
        simp [requests, exCalls, strengthSq]
      unfold Requested
      rw [this]
      exact .cons ⟨rfl, rfl, rfl⟩ (.cons ⟨rfl, rfl, rfl⟩ .nil)) 0 (-2) (1 / 10) (by norm_num)
  refine ⟨m, b, F, k1, k2, f1, f2, fun e => ?_⟩
  have hpos := (C23_assembled σ 1 1 0 (Or.inr ⟨one_pos, rfl⟩) none (by simp) exCalls
    (by simp [exCalls]) h1 h2 (Or.inr h3) m b k1 k2 0 (-2) (1 / 10) (by norm_num) _ (Or.inr f2.2)).1
  rw [e] at hpos; simp at hpos

/-- At a finite temperature: the thermofield double of a BondPeierls model. -/
example (σ : SetOrder) : ∃ m b bs, (Model.fromParameters (1 : ℝ) 1 1 none 1).adds realPrims exBondCalls = .ok m ∧
    buildSystem σ m = .ok b ∧ Requested 1 1 exBondCalls bs ∧ bs.length = 2 ∧ ∀ k w eta : ℝ, 0 < eta →
      ∃ F, Propagator (textbook 1 bs) (Permitted none (modes 1 exBondCalls)) 1 ⟨k, w, eta⟩ F ∧
        Gives m b ⟨k, w, eta⟩ (F (ket 0 0)) := by
  obtain ⟨h1, h2, h3⟩ := exBondCalls_clean
  obtain ⟨m, b, k1, k2, k3⟩ := C130_textbook σ 1 1 1 (Or.inr ⟨one_pos, rfl⟩) none (by simp) exBondCalls
    (by simp [exBondCalls]) h1 h2 (Or.inl h3) (fun _ => by simp [exBondCalls])
  obtain ⟨-, -, t3⟩ := tfd_values (T := 1) (f := 2) one_pos two_pos
  have hr : Requested 1 1 exBondCalls
      [⟨"BondPeierls", 2, √(1 + thermal 1 2)⟩, ⟨"BondPeierls", -2, √(thermal 1 2)⟩] := by
    have : requests 1 1 exBondCalls = [("BondPeierls", 2, 1 + thermal 1 2), ("BondPeierls", -2, thermal 1 2)] := by
      simp [requests, exBondCalls, strengthSq]
    unfold Requested
    rw [this]
    exact .cons ⟨rfl, rfl, Real.sq_sqrt (by linarith)⟩ (.cons ⟨rfl, rfl, Real.sq_sqrt t3⟩ .nil)
  refine ⟨m, b, _, k1, k2, hr, rfl, fun k w eta heta => ?_⟩
  obtain ⟨F, f1, -, f2⟩ := k3 _ hr k w eta heta
  exact ⟨F, f1, f2⟩

end GGCE.Props
