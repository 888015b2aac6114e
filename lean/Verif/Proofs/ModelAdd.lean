import Verif.Spec.Modes
import Verif.Spec.Space
import Mathlib.Algebra.Ring.Parity
import Mathlib.Data.List.Basic

/-! `Model.add_` one call at a time. -/

set_option linter.unusedSectionVars false

namespace GGCE
open Spec

variable {R : Type} [Field R] [LinearOrder R]

theorem rejected_iff (m : Model R) (a : AddArgs R) :
    m.addRejected a = false ↔ Valid m.temperature a := by
  unfold Model.addRejected
  simp only [Bool.or_eq_false_iff, decide_eq_false_iff_not]
  constructor
  · rintro ⟨⟨⟨⟨h1, h2⟩, h3⟩, h4⟩, h5⟩
    refine ⟨by omega, by omega, ?_, ?_, ?_, ?_, ?_⟩
    · intro x hx; rw [hx] at h3; simpa using h3.1
    · intro x hx; rw [hx] at h3; simpa using h3.2
    · intro hT
      simp only [gt_iff_lt, hT, decide_true, Bool.true_and, Bool.or_eq_false_iff] at h1
      constructor
      · cases h : a.Mtfd with
        | none => simp [h] at h1
        | some x => exact ⟨x, rfl⟩
      · cases h : a.Ntfd with
        | none => simp [h] at h1
        | some x => exact ⟨x, rfl⟩
    · unfold OneStrength
      cases hg : a.g <;> cases hl : a.lam <;> simp_all
    · intro hT i hi
      simp only [hi, gt_iff_lt, hT, decide_true, Bool.true_and, decide_eq_false_iff_not,
        not_not] at h5
      exact Int.even_iff.2 h5
  · rintro ⟨v1, v2, v3, v4, v5, v6, v7⟩
    refine ⟨⟨⟨⟨?_, by omega⟩, ?_⟩, ?_⟩, ?_⟩
    · by_cases hT : 0 < m.temperature
      · obtain ⟨⟨x, hx⟩, y, hy⟩ := v5 hT
        simp [hx, hy]
      · simp [hT]
    · constructor
      · cases h : a.Mtfd with
        | none => rfl
        | some x => simpa using v3 x h
      · cases h : a.Ntfd with
        | none => rfl
        | some x => simpa using v4 x h
    · rcases v6 with ⟨g, h1, h2⟩ | ⟨g, h1, h2⟩ <;> simp [h1, h2]
    · cases h : a.override with
      | none => rfl
      | some i =>
        by_cases hT : 0 < m.temperature
        · have := Int.even_iff.1 (v7 hT i h)
          simp [this]
        · simp [hT]

theorem add_rejected (P : Prims R) (m : Model R) (a : AddArgs R) (h : ¬ Valid m.temperature a) :
    m.add P a = .ok m := by
  have : m.addRejected a = true := by
    rw [← Bool.not_eq_false, rejected_iff]; exact h
  simp [Model.add, this]

/-- the terms of one coupling -/
def termsOf (ct : String) (g : R) (idx : Nat) (freq : R) : List (SingleTerm R) :=
  ((termShapes ct).getD []).map
    (fun s => ⟨ct, s.1, s.2.1, s.2.2.1, if s.2.2.2 then g else -g, idx, freq⟩)

theorem getSingleTerms_ok {ct : String} {s} (hs : termShapes ct = some s) (g : R) {idx : Int}
    (hi : 0 ≤ idx) (freq : R) :
    getSingleTerms ct g idx freq = .ok (termsOf ct g idx.toNat freq) := by
  unfold getSingleTerms termsOf
  rw [hs]
  simp only [Option.getD_some]
  induction s with
  | nil => rfl
  | cons x xs ih =>
    have hx : mkTerm ct x.1 x.2.1 x.2.2.1 (if x.2.2.2 then g else -g) idx freq =
        .ok ⟨ct, x.1, x.2.1, x.2.2.1, if x.2.2.2 then g else -g, idx.toNat, freq⟩ := by
      unfold mkTerm; rw [if_neg (by omega)]
    have key : ∀ xs : List (Num × Num × Dag × Bool), collectM (fun s => do
        let t ← mkTerm ct s.1 s.2.1 s.2.2.1 (if s.2.2.2 then g else -g) idx freq
        pure (some t)) xs = .ok (xs.map
          (fun s => ⟨ct, s.1, s.2.1, s.2.2.1, if s.2.2.2 then g else -g, idx.toNat, freq⟩)) := by
      intro xs
      induction xs with
      | nil => rfl
      | cons x xs ih =>
        unfold collectM
        rw [ih]
        simp [mkTerm, show ¬ idx < 0 by omega]
        rfl
    exact key _

theorem known_iff (ct : String) : Known ct ↔ ∃ s, termShapes ct = some s := by
  unfold Known termShapes
  constructor
  · rintro (h | h | h | h) <;> subst h <;> simp
  · rintro ⟨s, hs⟩
    by_contra hc
    simp only [not_or] at hc
    simp [hc] at hs

theorem unknown_iff (ct : String) : ¬ Known ct ↔ termShapes ct = none := by
  rw [known_iff]
  cases termShapes ct <;> simp

/-- insert a frequency if it is new -/
def insertFreq (fs : List R) (f : R) : List R := if f ∈ fs then fs else fs ++ [f]

/-- what one successful `Hamiltonian.add_` can do -/
theorem ham_add_cases (P : Prims R) (H H' : Hamiltonian R) (ct : String) (idx : Int) (freq : R)
    (g? lam? : Option R) (mult : R) (h : H.add P ct idx freq g? lam? mult = .ok H') :
    H' = H ∨ (Known ct ∧ 0 ≤ idx ∧ ∃ g, Hamiltonian.strength P H.hopping ct freq g? lam? = .ok g ∧
      H' = { H with freqs := insertFreq H.freqs freq
                    terms := H.terms ++ termsOf ct (g * mult) idx.toNat freq }) := by
  unfold Hamiltonian.add at h
  split at h
  · cases h
  · split at h
    · left; cases h; rfl
    · cases h
    · rename_i g hg
      split at h
      · left; cases h; rfl
      · cases h
      · rename_i ts hts
        right
        cases hs : termShapes ct with
        | none => simp [getSingleTerms, hs] at hts
        | some s =>
          have hidx : 0 ≤ idx := by
            by_contra hc
            have hne : s ≠ [] := by
              intro h0
              subst h0
              revert hs
              unfold termShapes
              split
              · simp
              split
              · simp
              split
              · simp
              split <;> simp
            obtain ⟨x, xs, rfl⟩ := List.exists_cons_of_ne_nil hne
            unfold getSingleTerms at hts
            simp only [hs, collectM, mkTerm, if_pos (show idx < 0 by omega)] at hts
            cases hts
          rw [getSingleTerms_ok hs _ hidx] at hts
          refine ⟨(known_iff ct).2 ⟨s, hs⟩, hidx, g, hg, ?_⟩
          cases hts; cases h; rfl

/-- a call with a known coupling type, a defined strength and a non-negative index succeeds -/
theorem ham_add_ok (P : Prims R) (H : Hamiltonian R) {ct : String} (hk : Known ct) {idx : Int}
    (hi : 0 ≤ idx) (freq : R) {g? lam? : Option R} (hx : xor g?.isSome lam?.isSome = true) {g : R}
    (hg : Hamiltonian.strength P H.hopping ct freq g? lam? = .ok g) (mult : R) :
    H.add P ct idx freq g? lam? mult = .ok
      { H with freqs := insertFreq H.freqs freq
               terms := H.terms ++ termsOf ct (g * mult) idx.toNat freq } := by
  obtain ⟨s, hs⟩ := (known_iff ct).1 hk
  unfold Hamiltonian.add
  rw [if_neg (by rw [hx]; simp)]
  simp only [hg, getSingleTerms_ok hs _ hi]
  rfl

/-- an unknown coupling type leaves the Hamiltonian alone -/
theorem ham_add_unknown (P : Prims R) (H : Hamiltonian R) {ct : String} (hk : ¬ Known ct) (idx : Int)
    (freq : R) {g? lam? : Option R} (hx : xor g?.isSome lam?.isSome = true)
    (hP : ∀ t w l, P.couplingMap ct t w l = .error .runtimeError) (mult : R) :
    H.add P ct idx freq g? lam? mult = .ok H := by
  have hs := (unknown_iff ct).1 hk
  unfold Hamiltonian.add
  rw [if_neg (by rw [hx]; simp)]
  cases lam? with
  | some l => simp [Hamiltonian.strength, hP]
  | none =>
    cases g? with
    | some g => simp [Hamiltonian.strength, getSingleTerms, hs]
    | none => simp at hx

theorem Spec.OneStrength.xor {a : AddArgs R} (h : OneStrength a) : xor a.g.isSome a.lam.isSome = true := by
  rcases h with ⟨g, h1, h2⟩ | ⟨g, h1, h2⟩ <;> simp [h1, h2]

/-- what a call of `Model.add_` that returns can do -/
theorem add_cases {P : Prims R} {m m' : Model R} {a : AddArgs R} (h : m.add P a = .ok m') :
    (¬ Valid m.temperature a ∧ m' = m) ∨
    (Valid m.temperature a ∧ ∃ H1,
      m.ham.add P a.ctype (m.callIndex a) a.freq a.g a.lam (m.tfdPrefactors P a.freq).1 = .ok H1 ∧
      ((¬ 0 < m.temperature ∧ m' = { m with
          ham := H1, extent := m.extent ++ [a.M], number := m.number ++ [a.N]
          nTypes := m.nTypes + 1 }) ∨
       (0 < m.temperature ∧ ∃ H2 Mt Nt, a.Mtfd = some Mt ∧ a.Ntfd = some Nt ∧
          H1.add P a.ctype (m.callIndex a + 1) (-a.freq) a.g a.lam
            (m.tfdPrefactors P a.freq).2 = .ok H2 ∧
          m' = { m with
            ham := H2, extent := m.extent ++ [a.M] ++ [Mt], number := m.number ++ [a.N] ++ [Nt]
            nTypes := m.nTypes + 1 + 1 }))) := by
  by_cases hv : Valid m.temperature a
  · right
    refine ⟨hv, ?_⟩
    have hr := (rejected_iff m a).2 hv
    unfold Model.add at h
    simp only [hr, Bool.false_eq_true, if_false] at h
    split at h
    · cases h
    · rename_i H1 hH1
      refine ⟨H1, hH1, ?_⟩
      by_cases hT : 0 < m.temperature
      · rw [if_pos hT] at h
        right
        refine ⟨hT, ?_⟩
        split at h
        · cases h
        · rename_i H2 hH2
          split at h
          · rename_i Mt Nt hM hN
            exact ⟨H2, Mt, Nt, hM, hN, hH2, by cases h; rfl⟩
          · cases h
      · rw [if_neg hT] at h
        left
        exact ⟨hT, by cases h; rfl⟩
  · left
    rw [add_rejected P m a hv] at h
    exact ⟨hv, by cases h; rfl⟩

/-- a call with a known coupling type, acceptable parameters and a defined strength returns -/
theorem add_ok {P : Prims R} (m : Model R) {a : AddArgs R} (hv : Valid m.temperature a)
    (hk : Known a.ctype) (hi : 0 ≤ m.callIndex a) {g1 g2 : R}
    (hg1 : Hamiltonian.strength P m.ham.hopping a.ctype a.freq a.g a.lam = .ok g1)
    (hg2 : 0 < m.temperature →
      Hamiltonian.strength P m.ham.hopping a.ctype (-a.freq) a.g a.lam = .ok g2) :
    ∃ m', m.add P a = .ok m' := by
  have hr := (rejected_iff m a).2 hv
  unfold Model.add
  simp only [hr, Bool.false_eq_true, if_false]
  have h1 := ham_add_ok P m.ham hk hi a.freq hv.strength.xor hg1 (m.tfdPrefactors P a.freq).1
  rw [h1]
  by_cases hT : 0 < m.temperature
  · simp only [gt_iff_lt, if_pos hT]
    obtain ⟨⟨x, hx⟩, y, hy⟩ := hv.tfd hT
    rw [ham_add_ok P _ hk (by omega) (-a.freq) hv.strength.xor (g := g2) (by exact hg2 hT)]
    simp only [hx, hy]
    exact ⟨_, rfl⟩
  · simp only [gt_iff_lt, if_neg hT]
    exact ⟨_, rfl⟩

theorem ham_add_hopping {P : Prims R} {H H' : Hamiltonian R} {ct : String} {idx : Int} {freq : R}
    {g? lam? : Option R} {mult : R} (h : H.add P ct idx freq g? lam? mult = .ok H') :
    H'.hopping = H.hopping ∧ H'.dimension = H.dimension := by
  rcases ham_add_cases P H H' ct idx freq g? lam? mult h with rfl | ⟨-, -, g, -, rfl⟩ <;> simp

/-- fixed attributes -/
theorem add_fixed {P : Prims R} {m m' : Model R} {a : AddArgs R} (h : m.add P a = .ok m') :
    m'.temperature = m.temperature ∧ m'.ham.hopping = m.ham.hopping ∧
      m'.ham.dimension = m.ham.dimension ∧ m'.maxPerSite = m.maxPerSite ∧
      m'.absExtentOpt = m.absExtentOpt ∧ m'.latticeConstant = m.latticeConstant := by
  rcases add_cases h with ⟨-, rfl⟩ | ⟨-, H1, h1, ⟨-, rfl⟩ | ⟨-, H2, Mt, Nt, -, -, h2, rfl⟩⟩
  · simp
  · have := ham_add_hopping h1; simp [this]
  · have e1 := ham_add_hopping h1; have e2 := ham_add_hopping h2
    simp [e1, e2]

end GGCE
