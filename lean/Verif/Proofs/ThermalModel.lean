import Verif.Proofs.Thermal
import Verif.Props.Sumrules
import Verif.Props.Cold

/-!
The Hamiltonian with doubled modes that belongs to a history of calls: the second mode of each call is coupled with
creation and annihilation exchanged.
-/

set_option linter.unusedSectionVars false

namespace GGCE.Props
open Spec Complex

/-- creation and annihilation exchanged -/
def exchanged (h : SingleTerm ℝ) : SingleTerm ℝ := { h with dag := h.dag.flip }

/-- the terms of the doubled modes -/
noncomputable def twinTerms (hopping T : ℝ) : List (AddArgs ℝ) → ℕ → List (SingleTerm ℝ)
  | [], _ => []
  | a :: as, i =>
    termsOf a.ctype (strengthD realPrims hopping a a.freq * (tfdR T a.freq).1) (2 * i) a.freq ++
      (termsOf a.ctype (strengthD realPrims hopping a a.freq * (tfdR T a.freq).2) (2 * i + 1) (-a.freq)).map exchanged ++
      twinTerms hopping T as (i + 1)

/-- the model with doubled modes -/
noncomputable def twinModel (hopping lattice T : ℝ) (as : List (AddArgs ℝ)) : Model ℝ :=
  let m := blueprint hopping lattice T none (parts realPrims hopping T as)
  { m with ham := { m.ham with terms := twinTerms hopping T as 0 } }

variable {hopping lattice T : ℝ}

theorem parts_length (as : List (AddArgs ℝ)) (hT : 0 < T) : (parts realPrims hopping T as).length = 2 * as.length := by
  induction as with
  | nil => rfl
  | cons a as ih =>
    rw [parts_cons, List.length_append, ih]
    unfold partsAt
    rw [if_pos hT]
    simp; ring

theorem parts_freqs (as : List (AddArgs ℝ)) (hT : 0 < T) (t : ℕ) :
    ((parts realPrims hopping T as).map (·.freq)).getD (2 * t) 0 = (as.map (·.freq)).getD t 0 ∧
      ((parts realPrims hopping T as).map (·.freq)).getD (2 * t + 1) 0 = -(as.map (·.freq)).getD t 0 := by
  induction as generalizing t with
  | nil => simp [parts]
  | cons a as ih =>
    rw [parts_cons]
    unfold partsAt
    rw [if_pos hT]
    cases t with
    | zero => simp
    | succ t =>
      have := ih t
      rw [show 2 * (t + 1) = 2 * t + 1 + 1 by ring]
      simpa using this

theorem parts_zero (as : List (AddArgs ℝ)) : parts realPrims hopping 0 as =
    as.map (fun a => ⟨a.ctype, a.freq, a.M, a.N, strengthD realPrims hopping a a.freq * 1⟩) := by
  unfold parts
  induction as with
  | nil => rfl
  | cons a as ih => rw [List.flatMap_cons, ih]; unfold partsAt; rw [if_neg (lt_irrefl _)]; rfl

theorem twin_index (as : List (AddArgs ℝ)) (i : ℕ) :
    ∀ h ∈ twinTerms hopping T as i, 2 * i ≤ h.phononIndex ∧ h.phononIndex < 2 * (i + as.length) := by
  induction as generalizing i with
  | nil => intro h hh; cases hh
  | cons a as ih =>
    intro h hh
    simp only [twinTerms, List.mem_append, List.mem_map] at hh
    rw [List.length_cons]
    rcases hh with (hh | ⟨h', hh, rfl⟩) | hh
    · rw [termsOf_index hh]; omega
    · show 2 * i ≤ h'.phononIndex ∧ h'.phononIndex < _
      rw [termsOf_index hh]; omega
    · have := ih (i + 1) h hh; omega

/-- the sum over the terms of a model -/
noncomputable def over (X : Num → Num → Dag → ℕ → ℂ) (l : List (SingleTerm ℝ)) : ℂ :=
  (l.map (fun h : SingleTerm ℝ => (h.coupling : ℂ) * X h.psi h.phi h.dag h.phononIndex)).sum

theorem over_append (X : Num → Num → Dag → ℕ → ℂ) (l l' : List (SingleTerm ℝ)) : over X (l ++ l') = over X l + over X l' := by
  unfold over; rw [List.map_append, List.sum_append]

theorem over_call {ct : String} (hk : Known ct) (g C S f : ℝ) (i : ℕ) (X : Num → Num → Dag → ℕ → ℂ) :
    over X (termsOf ct (g * C) (2 * i) f) + over X ((termsOf ct (g * S) (2 * i + 1) (-f)).map exchanged) =
      over (fun psi phi d t => C * X psi phi d (2 * t) + S * X psi phi d.flip (2 * t + 1)) (termsOf ct (g * 1) i f) := by
  rcases hk with rfl | rfl | rfl | rfl <;>
  · simp [over, termsOf, termShapes, exchanged, Dag.flip]
    ring

theorem over_twin (C S : ℕ → ℝ) (X : Num → Num → Dag → ℕ → ℂ) : ∀ (as : List (AddArgs ℝ)) (i : ℕ),
    (∀ a ∈ as, Known a.ctype) →
    (∀ s, s < as.length → C (i + s) = (tfdR T ((as.map (·.freq)).getD s 0)).1 ∧
      S (i + s) = (tfdR T ((as.map (·.freq)).getD s 0)).2) →
    over X (twinTerms hopping T as i) =
      over (fun psi phi d t => C t * X psi phi d (2 * t) + S t * X psi phi d.flip (2 * t + 1))
        (partTerms (parts realPrims hopping 0 as) i)
  | [], i, _, _ => by simp [twinTerms, parts, partTerms, over]
  | a :: as, i, hk, hCS => by
    have ih := over_twin C S X as (i + 1) (fun b hb => hk b (List.mem_cons_of_mem _ hb)) (fun s hs => by
      have := hCS (s + 1) (by simpa using hs)
      rw [show i + 1 + s = i + (s + 1) by ring]
      simpa using this)
    have h0 := hCS 0 (by simp)
    simp only [add_zero, List.map_cons, List.getD_cons_zero] at h0
    have hp : partTerms (parts realPrims hopping 0 (a :: as)) i =
        termsOf a.ctype (strengthD realPrims hopping a a.freq * 1) i a.freq ++
          partTerms (parts realPrims hopping 0 as) (i + 1) := by
      rw [parts_zero, parts_zero, List.map_cons, partTerms_cons]
    rw [hp, twinTerms, over_append, over_append, over_append, ih, over_call (hk a List.mem_cons_self)]
    congr 1
    unfold over
    congr 1
    refine List.map_congr_left (fun h hh => ?_)
    simp only [termsOf_index hh, h0.1, h0.2]

theorem clean_zero {as : List (AddArgs ℝ)} (hc : Clean realPrims hopping T as) : Clean realPrims hopping 0 as :=
  ⟨fun a ha => by
    have := hc.valid a ha
    exact ⟨this.extent, this.number, this.extentTfd, this.numberTfd, fun h => absurd h (lt_irrefl _), this.strength,
      fun h => absurd h (lt_irrefl _)⟩, hc.known, hc.noOverride, hc.defined⟩

theorem nodup_zero {as : List (AddArgs ℝ)} (hT : 0 < T) (hc : Clean realPrims hopping T as)
    (hf : ((modes T as).map (·.freq)).Nodup) : ((modes 0 as).map (·.freq)).Nodup := by
  rw [← parts_freq (clean_zero hc), parts_zero, List.map_map]
  rw [← parts_freq hc] at hf
  refine hf.sublist ?_
  clear hf hc
  unfold parts
  induction as with
  | nil => exact List.Sublist.slnil
  | cons a as ih =>
    rw [List.flatMap_cons, List.map_append]
    unfold partsAt
    rw [if_pos hT]
    exact List.Sublist.cons_cons _ (List.Sublist.cons _ ih)

/-- the prefactors of the modes, by type -/
noncomputable def bogo (T : ℝ) (as : List (AddArgs ℝ)) (t : ℕ) : ℝ × ℝ := tfdR T ((as.map (·.freq)).getD t 0)

theorem doubles_twin {as : List (AddArgs ℝ)} (hT : 0 < T) (hk : ∀ a ∈ as, Known a.ctype) :
    Doubles (blueprint hopping lattice 0 none (parts realPrims hopping 0 as)) (twinModel hopping lattice T as)
      (fun t => (bogo T as t).1) (fun t => (bogo T as t).2) where
  hopping := rfl
  lattice := rfl
  types := by
    show (parts realPrims hopping T as).length = 2 * (parts realPrims hopping 0 as).length
    rw [parts_length as hT, parts_zero, List.length_map]
  freqs t _ := by
    have := parts_freqs (hopping := hopping) as hT t
    show ((parts realPrims hopping T as).map (·.freq)).getD (2 * t) 0 = ((parts realPrims hopping 0 as).map (·.freq)).getD t 0 ∧
      ((parts realPrims hopping T as).map (·.freq)).getD (2 * t + 1) 0 = -((parts realPrims hopping 0 as).map (·.freq)).getD t 0
    have e : (parts realPrims hopping 0 as).map (·.freq) = as.map (·.freq) := by rw [parts_zero, List.map_map]; rfl
    rw [e]
    exact this
  index h hh := by
    obtain ⟨q, hq, hq'⟩ := List.mem_flatMap.1 (show h ∈ partTerms _ 0 from hh)
    rw [termsOf_index hq']
    have := List.snd_lt_of_mem_zipIdx hq
    show q.2 < (parts realPrims hopping 0 as).length
    simpa using this
  index' h hh := by
    have := twin_index as 0 h hh
    show h.phononIndex < (parts realPrims hopping T as).length
    rw [parts_length as hT]
    omega
  terms X := by
    have := over_twin (hopping := hopping) (T := T) (fun t => (bogo T as t).1) (fun t => (bogo T as t).2) X as 0 hk
      (fun s _ => by rw [zero_add]; exact ⟨rfl, rfl⟩)
    unfold over at this
    exact this

/-- couplings to the displacement are the same with creation and annihilation exchanged -/
theorem over_displacement {ct : String} (hd : Displacement ct) (g f : ℝ) (i : ℕ) (X : Num → Num → Dag → ℕ → ℂ) :
    over X ((termsOf ct g i f).map exchanged) = over X (termsOf ct g i f) := by
  rcases hd with rfl | rfl | rfl <;>
  · simp [over, termsOf, termShapes, exchanged, Dag.flip]
    try ring

theorem over_parts {as : List (AddArgs ℝ)} (hT : 0 < T) (hd : ∀ a ∈ as, Displacement a.ctype)
    (X : Num → Num → Dag → ℕ → ℂ) (i : ℕ) :
    over X (partTerms (parts realPrims hopping T as) (2 * i)) = over X (twinTerms hopping T as i) := by
  induction as generalizing i with
  | nil => simp [parts, partTerms, twinTerms]
  | cons a as ih =>
    have hp : partTerms (parts realPrims hopping T (a :: as)) (2 * i) =
        termsOf a.ctype (strengthD realPrims hopping a a.freq * (tfdR T a.freq).1) (2 * i) a.freq ++
        (termsOf a.ctype (strengthD realPrims hopping a a.freq * (tfdR T a.freq).2) (2 * i + 1) (-a.freq) ++
          partTerms (parts realPrims hopping T as) (2 * (i + 1))) := by
      rw [parts_cons]
      unfold partsAt
      rw [if_pos hT, List.cons_append, List.cons_append, List.nil_append, partTerms_cons, partTerms_cons, strengthD_neg]
      rfl
    rw [hp, twinTerms, over_append, over_append, over_append, over_append, ih (fun b hb => hd b (List.mem_cons_of_mem _ hb)),
      over_displacement (hd a List.mem_cons_self), add_assoc]

theorem doubles_code {as : List (AddArgs ℝ)} (hT : 0 < T) (hd : ∀ a ∈ as, Displacement a.ctype) :
    Doubles (blueprint hopping lattice 0 none (parts realPrims hopping 0 as))
      (blueprint hopping lattice T none (parts realPrims hopping T as))
      (fun t => (bogo T as t).1) (fun t => (bogo T as t).2) := by
  have hk : ∀ a ∈ as, Known a.ctype := fun a ha => by
    rcases hd a ha with h | h | h <;> simp [Known, h]
  have h := doubles_twin (hopping := hopping) (lattice := lattice) hT hk
  refine ⟨h.hopping, h.lattice, h.types, h.freqs, h.index, fun q hq => ?_, fun X => ?_⟩
  · obtain ⟨p, hp, hp'⟩ := List.mem_flatMap.1 (show q ∈ partTerms _ 0 from hq)
    rw [termsOf_index hp']
    have := List.snd_lt_of_mem_zipIdx hp
    show p.2 < (parts realPrims hopping T as).length
    simpa using this
  · rw [← h.terms X]
    exact over_parts hT hd X 0

theorem bogo_squares {as : List (AddArgs ℝ)} (hT : 0 < T) (hpos : ∀ a ∈ as, 0 < a.freq) (t : ℕ) (ht : t < as.length) :
    0 < (as.map (·.freq)).getD t 0 ∧
    (bogo T as t).1 ^ 2 = 1 / (1 - Real.exp (-((as.map (·.freq)).getD t 0) / T)) ∧
      (bogo T as t).2 ^ 2 = Real.exp (-((as.map (·.freq)).getD t 0) / T) / (1 - Real.exp (-((as.map (·.freq)).getD t 0) / T)) := by
  have h0 : 0 < (as.map (·.freq)).getD t 0 := by
    rw [getD_get _ _ (by simpa using ht), List.getElem_map]
    exact hpos _ (List.getElem_mem _)
  refine ⟨h0, ?_⟩
  unfold bogo
  generalize (as.map (·.freq)).getD t 0 = f at *
  have hq : Real.exp (-(f / T)) < 1 := Real.exp_lt_one_iff.2 (neg_neg_of_pos (div_pos h0 hT))
  have hs : 0 < 1 - Real.exp (-(f / T)) := by linarith
  rw [tfd_eq T f hT h0, show -f / T = -(f / T) from neg_div _ _]
  constructor
  · simp only
    rw [div_pow, one_pow, Real.sq_sqrt hs.le]
  · simp only
    rw [div_pow, Real.sq_sqrt hs.le, ← Real.exp_nat_mul]
    congr 2
    push_cast; ring

/-! ### the second moment -/

theorem twins_call {ct : String} (hk : Known ct) (g f x : ℝ) (i : ℕ) :
    (((termsOf ct g i f).map exchanged).map (fun h =>
      (((termsOf ct g i f).map exchanged).map (pairWeight x h)).sum)).sum = (spreadIn ct x * g ^ 2 : ℝ) := by
  have hE : exp (I * x) * exp (-(I * x)) = 1 := by rw [← Complex.exp_add]; simp
  have hS : (Real.sin x : ℂ) ^ 2 = -(exp (I * x) - exp (-(I * x))) ^ 2 / 4 := by
    rw [Complex.ofReal_sin, Complex.sin, mul_comm I, neg_mul]
    rw [div_pow, mul_pow, Complex.I_sq]
    ring
  have hC : (Real.cos x : ℂ) ^ 2 = (exp (I * x) + exp (-(I * x))) ^ 2 / 4 := by
    rw [Complex.ofReal_cos, Complex.cos, mul_comm I, neg_mul]
    ring
  rcases hk with rfl | rfl | rfl | rfl
  · simp [termsOf, termShapes, spreadIn, spread, exchanged, Dag.flip, pairWeight, Pairs, bosonSite, electronSite, turn, Num.int]
    ring
  · simp [termsOf, termShapes, spreadIn, spread, exchanged, Dag.flip, pairWeight, Pairs, bosonSite, electronSite, turn, Num.int]
    rw [← Complex.ofReal_cos, hC]
    ring
  · simp [termsOf, termShapes, spreadIn, spread, exchanged, Dag.flip, pairWeight, Pairs, bosonSite, electronSite, turn, Num.int]
    linear_combination (2 * (g : ℂ) ^ 2) * hE
  · simp [termsOf, termShapes, spreadIn, spread, exchanged, Dag.flip, pairWeight, Pairs, bosonSite, electronSite, turn, Num.int]
    rw [← Complex.ofReal_sin, hS]
    linear_combination (2 * (g : ℂ) ^ 2) * hE

/-- the sum over all pairs of two lists -/
noncomputable def cross (x : ℝ) (l l' : List (SingleTerm ℝ)) : ℂ := (l.map (fun h => (l'.map (pairWeight x h)).sum)).sum

theorem cross_append (x : ℝ) (l l' r : List (SingleTerm ℝ)) : cross x (l ++ l') r = cross x l r + cross x l' r := by
  unfold cross; rw [List.map_append, List.sum_append]

theorem cross_append' (x : ℝ) (r l l' : List (SingleTerm ℝ)) : cross x r (l ++ l') = cross x r l + cross x r l' := by
  unfold cross
  rw [← List.sum_map_add]
  congr 1
  exact List.map_congr_left (fun h _ => by rw [List.map_append, List.sum_append])

theorem cross_zero (x : ℝ) {l l' : List (SingleTerm ℝ)} (h : ∀ p ∈ l, ∀ q ∈ l', p.phononIndex ≠ q.phononIndex) :
    cross x l l' = 0 := by
  unfold cross
  refine List.sum_eq_zero (fun y hy => ?_)
  obtain ⟨p, hp, rfl⟩ := List.mem_map.1 hy
  refine List.sum_eq_zero (fun y hy => ?_)
  obtain ⟨q, hq, rfl⟩ := List.mem_map.1 hy
  exact pairWeight_index (h p hp q hq)

theorem cross_twin {x : ℝ} (hT : 0 < T) : ∀ (as : List (AddArgs ℝ)) (i : ℕ), Clean realPrims hopping T as →
    (∀ a ∈ as, 0 < a.freq) →
    cross x (twinTerms hopping T as i) (twinTerms hopping T as i) = (textbookVariance hopping T x as : ℝ)
  | [], i, _, _ => by simp [twinTerms, cross, textbookVariance]
  | a :: as, i, hc, hpos => by
    have ih := cross_twin (x := x) hT as (i + 1) hc.tail (fun b hb => hpos b (List.mem_cons_of_mem _ hb))
    have hk := hc.known a List.mem_cons_self
    have e1 := strengthD_sq hk (hc.valid a List.mem_cons_self).strength (hc.defined a List.mem_cons_self) (Or.inl rfl)
    obtain ⟨t1, t2⟩ := tfd_thermal hT (hpos a List.mem_cons_self)
    rw [twinTerms]
    set A := termsOf a.ctype (strengthD realPrims hopping a a.freq * (tfdR T a.freq).1) (2 * i) a.freq with hA
    set B := (termsOf a.ctype (strengthD realPrims hopping a a.freq * (tfdR T a.freq).2) (2 * i + 1) (-a.freq)).map
      exchanged with hB
    have iA : ∀ h ∈ A, h.phononIndex = 2 * i := fun h hh => termsOf_index hh
    have iB : ∀ h ∈ B, h.phononIndex = 2 * i + 1 := fun h hh => by
      obtain ⟨h', hh', rfl⟩ := List.mem_map.1 hh
      show h'.phononIndex = _
      exact termsOf_index hh'
    have iR : ∀ h ∈ twinTerms hopping T as (i + 1), 2 * (i + 1) ≤ h.phononIndex := fun h hh => (twin_index as _ h hh).1
    rw [cross_append, cross_append, cross_append', cross_append', cross_append', cross_append', cross_append', cross_append', ih,
      cross_zero x (l := A) (l' := B) (fun p hp q hq => by rw [iA p hp, iB q hq]; omega),
      cross_zero x (l := B) (l' := A) (fun p hp q hq => by rw [iA q hq, iB p hp]; omega),
      cross_zero x (l := A) (l' := twinTerms hopping T as (i + 1)) (fun p hp q hq => by have := iA p hp; have := iR q hq; omega),
      cross_zero x (l := B) (l' := twinTerms hopping T as (i + 1)) (fun p hp q hq => by have := iB p hp; have := iR q hq; omega),
      cross_zero x (l' := A) (l := twinTerms hopping T as (i + 1)) (fun p hp q hq => by have := iA q hq; have := iR p hp; omega),
      cross_zero x (l' := B) (l := twinTerms hopping T as (i + 1)) (fun p hp q hq => by have := iB q hq; have := iR p hp; omega)]
    have cA : cross x A A = _ := pairs_termsOf hk _ _ _ _
    have cB : cross x B B = _ := twins_call hk _ _ _ _
    rw [cA, cB]
    unfold textbookVariance
    rw [List.map_cons, List.sum_cons, mul_pow, mul_pow, e1, t1, t2]
    push_cast
    ring

end GGCE.Props
