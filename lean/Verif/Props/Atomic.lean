import Verif.Props.Limit
import Verif.Proofs.Atomic
import Verif.Spec.AtomicLimit

/-!
Property C61: without hopping, the returned numbers converge to the textbook Green's function of the independent
boson model, at every temperature.
-/

set_option linter.unusedSectionVars false

namespace GGCE.Props
open Spec Complex Filter Topology MeasureTheory

/-! ### the oscillators of a list of calls -/

/-- the oscillators that a call adds: frequency and strength -/
noncomputable def oscAt (T : ℝ) (a : AddArgs ℝ) : List (ℝ × ℝ) :=
  if 0 < T then [(a.freq, a.g.getD 0 * (tfdR T a.freq).1), (-a.freq, a.g.getD 0 * (tfdR T a.freq).2)]
  else [(a.freq, a.g.getD 0)]

theorem oscAt_freqs (T : ℝ) (a : AddArgs ℝ) : (oscAt T a).map Prod.fst = (modesAt T a).map (·.freq) := by
  unfold oscAt modesAt; split <;> rfl

theorem flat_append (L : List (ℝ × ℝ)) (w g : ℝ) :
    (List.range (L ++ [(w, g)]).length).flatMap (fun t =>
      termsOf "Holstein" (strAt (L ++ [(w, g)]) t) t (freqAt (L ++ [(w, g)]) t)) =
    (List.range L.length).flatMap (fun t => termsOf "Holstein" (strAt L t) t (freqAt L t)) ++
      termsOf "Holstein" g L.length w := by
  rw [List.length_append, List.length_singleton, List.range_succ, List.flatMap_append]
  congr 1
  · refine List.flatMap_congr (fun t ht => ?_)
    have ht' := List.mem_range.1 ht
    unfold strAt freqAt
    rw [getD_get _ _ (by simp; omega), getD_get _ _ ht', List.getElem_append_left ht']
  · simp [strAt, freqAt]

theorem holsteins_ham {P : Prims ℝ} {H H' : Hamiltonian ℝ} {L : List (ℝ × ℝ)} {w g mult : ℝ}
    (hf : H.freqs = L.map Prod.fst)
    (ht : H.terms = (List.range L.length).flatMap (fun t => termsOf "Holstein" (strAt L t) t (freqAt L t)))
    (hw : w ∉ L.map Prod.fst) (h : H.add P "Holstein" (L.length : ℤ) w (some g) none mult = .ok H') :
    H'.freqs = (L ++ [(w, g * mult)]).map Prod.fst ∧
    H'.terms = (List.range (L ++ [(w, g * mult)]).length).flatMap (fun t =>
      termsOf "Holstein" (strAt (L ++ [(w, g * mult)]) t) t (freqAt (L ++ [(w, g * mult)]) t)) := by
  rw [ham_add_ok P H (Or.inl rfl) (by omega) w (g? := some g) (lam? := none) rfl (g := g) rfl mult] at h
  cases h
  constructor
  · show insertFreq H.freqs w = _
    rw [insertFreq_new (by rw [hf]; exact hw), hf]
    simp
  · rw [flat_append, ← ht]
    simp

theorem holsteins_add {m m' : Model ℝ} {a : AddArgs ℝ} {L : List (ℝ × ℝ)} (hm : Holsteins m L)
    (hv : Valid m.temperature a) (ho : a.override = none) (hh : HolsteinCall a)
    (hn : ((L ++ oscAt m.temperature a).map Prod.fst).Nodup) (h : m.add realPrims a = .ok m') :
    Holsteins m' (L ++ oscAt m.temperature a) := by
  obtain ⟨g, hg⟩ := hh.strength
  have hl : a.lam = none := by
    rcases hv.strength with ⟨x, -, hx⟩ | ⟨x, -, hx⟩
    · exact hx
    · rw [hg] at hx; cases hx
  have hi : m.callIndex a = (L.length : ℤ) := by simp [Model.callIndex, ho, hm.types]
  rw [List.map_append] at hn
  have hnew : ∀ x ∈ (oscAt m.temperature a).map Prod.fst, x ∉ L.map Prod.fst := fun x hx hc =>
    (List.nodup_append.1 hn).2.2 _ hc _ hx rfl
  rcases add_cases h with ⟨hx, -⟩ | ⟨-, H1, h1, ⟨hT, rfl⟩ | ⟨hT, H2, Mt, Nt, -, -, h2, rfl⟩⟩
  · exact absurd hv hx
  · rw [hi, hg, hl, hh.ctype] at h1
    have e : oscAt m.temperature a = [(a.freq, g)] := by unfold oscAt; rw [if_neg hT, hg]; rfl
    have hp : (m.tfdPrefactors realPrims a.freq).1 = 1 := by unfold Model.tfdPrefactors; rw [if_neg hT]
    rw [hp] at h1
    rw [e] at hnew ⊢
    obtain ⟨q1, q2⟩ := holsteins_ham hm.freqs hm.terms (hnew a.freq (by simp)) h1
    rw [mul_one] at q1 q2
    exact ⟨by simp [hm.types], q1, q2⟩
  · rw [hi, hg, hl, hh.ctype] at h1 h2
    have hp : m.tfdPrefactors realPrims a.freq = tfdR m.temperature a.freq := by
      unfold Model.tfdPrefactors; rw [if_pos hT]; rfl
    rw [hp] at h1 h2
    have e : oscAt m.temperature a = [(a.freq, g * (tfdR m.temperature a.freq).1),
        (-a.freq, g * (tfdR m.temperature a.freq).2)] := by
      unfold oscAt; rw [if_pos hT, hg]; rfl
    rw [e] at hnew ⊢
    obtain ⟨q1, q2⟩ := holsteins_ham hm.freqs hm.terms (hnew a.freq (by simp)) h1
    have hlen : ((L.length : ℤ) + 1) = ((L ++ [(a.freq, g * (tfdR m.temperature a.freq).1)]).length : ℤ) := by simp
    rw [hlen] at h2
    obtain ⟨r1, r2⟩ := holsteins_ham q1 q2 (by
      rw [List.map_append]
      intro hc
      rcases List.mem_append.1 hc with hc | hc
      · exact hnew (-a.freq) (by simp) hc
      · have := hh.freq
        simp at hc
        linarith) h2
    rw [List.append_assoc] at r1 r2
    exact ⟨by simp [hm.types], r1, r2⟩

theorem holsteins_adds : ∀ (as : List (AddArgs ℝ)) {m m' : Model ℝ} {L : List (ℝ × ℝ)}, Holsteins m L →
    (∀ a ∈ as, Valid m.temperature a ∧ a.override = none ∧ HolsteinCall a) →
    ((L ++ as.flatMap (oscAt m.temperature)).map Prod.fst).Nodup → m.adds realPrims as = .ok m' →
    Holsteins m' (L ++ as.flatMap (oscAt m.temperature))
  | [], m, m', L, hm, _, _, h => by
    cases h; simpa using hm
  | a :: as, m, m', L, hm, ha, hn, h => by
    unfold Model.adds at h
    split at h
    · cases h
    · rename_i m1 h1
      have hT : m1.temperature = m.temperature := (add_fixed h1).1
      obtain ⟨a1, a2, a3⟩ := ha a (by simp)
      rw [List.flatMap_cons, ← List.append_assoc] at hn ⊢
      have hn1 : ((L ++ oscAt m.temperature a).map Prod.fst).Nodup := by
        rw [List.map_append] at hn
        exact (List.nodup_append.1 hn).1
      have := holsteins_adds as (holsteins_add hm a1 a2 a3 hn1 h1)
        (fun b hb => by rw [hT]; exact ha b (List.mem_cons_of_mem _ hb)) (by rw [hT]; exact hn) h
      rwa [hT] at this

/-! ### the value -/

theorem tfd_thermal {T Omega : ℝ} (hT : 0 < T) (hO : 0 < Omega) :
    (tfdR T Omega).1 ^ 2 = 1 + thermal T Omega ∧ (tfdR T Omega).2 ^ 2 = thermal T Omega := by
  have h := (C41_thermofield (Model.fromParameters 0 1 T none 1) Omega hT hO).1
  have e : (Model.fromParameters 0 1 T none 1).tfdPrefactors realPrims Omega = tfdR T Omega := by
    unfold Model.tfdPrefactors
    rw [if_pos (show (Model.fromParameters (0 : ℝ) 1 T none 1).temperature > 0 from hT)]; rfl
  have hb : bose T Omega = thermal T Omega := by unfold bose thermal; rw [if_pos hT]
  have h0 : 0 ≤ thermal T Omega := by
    unfold thermal
    rw [if_pos hT]
    have : 1 ≤ Real.exp (Omega / T) := Real.one_le_exp (by positivity)
    exact div_nonneg zero_le_one (by linarith)
  rw [e] at h
  show (tfdR T Omega).1 ^ 2 = 1 + thermal T Omega ∧ (tfdR T Omega).2 ^ 2 = thermal T Omega
  rw [h]
  show Real.sqrt (1 + bose T Omega) ^ 2 = _ ∧ Real.sqrt (bose T Omega) ^ 2 = _
  rw [hb, Real.sq_sqrt h0, Real.sq_sqrt (by linarith)]
  exact ⟨rfl, rfl⟩

theorem wave_split (x : ℝ) : exp (-(I * x)) = Real.cos x - I * Real.sin x := by
  rw [show -(I * (x : ℂ)) = ((-x : ℝ) : ℂ) * I by push_cast; ring, Complex.exp_mul_I, ← Complex.ofReal_cos,
    ← Complex.ofReal_sin, Real.cos_neg, Real.sin_neg]
  push_cast
  ring

theorem phi_cumulant (T : ℝ) {a : AddArgs ℝ} (hh : HolsteinCall a) (s : ℝ) :
    ((oscAt T a).map (fun p => cohPhi p.1 (-p.2) s)).sum = cumulant T a.freq (a.g.getD 0) s := by
  have hO : (a.freq : ℂ) ≠ 0 := by exact_mod_cast hh.freq.ne'
  have hwave : exp (-(I * a.freq * s)) = Real.cos (a.freq * s) - I * Real.sin (a.freq * s) := by
    rw [← wave_split]; push_cast; ring_nf
  have hwave' : exp (-(I * ((-a.freq : ℝ) : ℂ) * s)) = Real.cos (a.freq * s) + I * Real.sin (a.freq * s) := by
    have := wave_split (-(a.freq * s))
    rw [Real.cos_neg, Real.sin_neg] at this
    push_cast at this ⊢
    rw [show -(I * -(a.freq : ℂ) * s) = -(I * -(a.freq * s)) by ring, this]
    ring
  unfold oscAt
  by_cases hT : 0 < T
  · rw [if_pos hT]
    obtain ⟨h1, h2⟩ := tfd_thermal hT hh.freq
    have h1' : ((tfdR T a.freq).1 : ℂ) ^ 2 = 1 + thermal T a.freq := by exact_mod_cast h1
    have h2' : ((tfdR T a.freq).2 : ℂ) ^ 2 = thermal T a.freq := by exact_mod_cast h2
    simp only [List.map_cons, List.map_nil, List.sum_cons, List.sum_nil, add_zero]
    unfold cohPhi cumulant
    rw [hwave, hwave']
    generalize a.g.getD 0 = g
    push_cast
    rw [neg_sq, neg_sq, mul_pow, mul_pow, h1', h2']
    field_simp
    ring
  · rw [if_neg hT]
    simp only [List.map_cons, List.map_nil, List.sum_cons, List.sum_nil, add_zero]
    unfold cohPhi cumulant
    rw [hwave]
    have ht : thermal T a.freq = 0 := by unfold thermal; rw [if_neg hT]
    rw [ht]
    push_cast
    ring

theorem list_sum_range {α : Type} (d : α) (F : α → ℂ) (L : List α) :
    ∑ t ∈ Finset.range L.length, F (L.getD t d) = (L.map F).sum := by
  induction L using List.reverseRecOn with
  | nil => rfl
  | append_singleton L x ih =>
    rw [List.length_append, List.length_singleton, Finset.sum_range_succ, List.map_append, List.sum_append, ← ih]
    congr 1
    · refine Finset.sum_congr rfl (fun t ht => ?_)
      have ht' := Finset.mem_range.1 ht
      rw [getD_get _ _ (by simp; omega), getD_get _ _ ht', List.getElem_append_left ht']
    · simp

theorem green1_value (T : ℝ) {as : List (AddArgs ℝ)} (hh : ∀ a ∈ as, HolsteinCall a) (w eta : ℝ) :
    green1 (as.flatMap (oscAt T)).length (freqAt (as.flatMap (oscAt T))) (fun t => -strAt (as.flatMap (oscAt T)) t)
      (energyAt w eta) (fun _ => 0) = atomicGreen T (as.map (fun a => (a.freq, a.g.getD 0))) w eta := by
  unfold green1 atomicGreen
  congr 2
  funext s
  congr 1
  unfold amps
  simp only [cohAmp_vacuum]
  rw [← Complex.exp_sum]
  congr 1
  have := list_sum_range ((0, 0) : ℝ × ℝ) (fun p => cohPhi p.1 (-p.2) s) (as.flatMap (oscAt T))
  refine Eq.trans this ?_
  clear this
  rw [List.map_map]
  induction as with
  | nil => rfl
  | cons a as ih =>
    rw [List.flatMap_cons, List.map_append, List.sum_append, phi_cumulant T (hh a (by simp)) s,
      ih (fun b hb => hh b (List.mem_cons_of_mem _ hb))]
    rfl

theorem oscs_nodup (T : ℝ) {as : List (AddArgs ℝ)} (hh : ∀ a ∈ as, HolsteinCall a) (hf : (as.map (·.freq)).Nodup) :
    ((as.flatMap (oscAt T)).map Prod.fst).Nodup := by
  induction as with
  | nil => simp
  | cons a as ih =>
    rw [List.map_cons, List.nodup_cons] at hf
    rw [List.flatMap_cons, List.map_append, List.nodup_append]
    have hpos := (hh a (by simp)).freq
    refine ⟨?_, ih (fun b hb => hh b (List.mem_cons_of_mem _ hb)) hf.2, ?_⟩
    · unfold oscAt
      split
      · simp; linarith
      · simp
    · intro x hx y hy hxy
      subst hxy
      obtain ⟨q, hq, rfl⟩ := List.mem_map.1 hy
      obtain ⟨b, hb, hq⟩ := List.mem_flatMap.1 hq
      have hbpos := (hh b (List.mem_cons_of_mem _ hb)).freq
      have hne : a.freq ≠ b.freq := fun e => hf.1 (e ▸ List.mem_map_of_mem hb)
      have hx' : q.1 = a.freq ∨ q.1 = -a.freq := by
        unfold oscAt at hx
        split at hx
        · simpa using hx
        · left; simpa using hx
      have hy' : q.1 = b.freq ∨ q.1 = -b.freq := by
        unfold oscAt at hq
        split at hq
        · rcases List.mem_cons.1 hq with rfl | hq
          · exact Or.inl rfl
          · rcases List.mem_singleton.1 hq with rfl
            exact Or.inr rfl
        · rcases List.mem_singleton.1 hq with rfl
          exact Or.inl rfl
      rcases hx' with h1 | h1 <;> rcases hy' with h2 | h2
      · exact hne (h1.symm.trans h2)
      · linarith
      · linarith
      · exact hne (by linarith)

theorem clean_holstein {hopping T : ℝ} {as : List (AddArgs ℝ)} (hv : ∀ a ∈ as, Valid T a)
    (ho : ∀ a ∈ as, a.override = none) (hh : ∀ a ∈ as, HolsteinCall a) : Clean realPrims hopping T as where
  valid := hv
  known a ha := Or.inl (hh a ha).ctype
  noOverride := ho
  defined a ha l hl := by
    obtain ⟨g, hg⟩ := (hh a ha).strength
    rcases (hv a ha).strength with ⟨x, -, hx⟩ | ⟨x, -, hx⟩
    · rw [hx] at hl; cases hl
    · rw [hg] at hx; cases hx

/-- **C61**. Without hopping and with Holstein couplings to distinct phonon energies, the numbers returned by both
solvers converge, as the limits grow, to the Green's function of the independent boson model, at zero and at finite
temperature, for every `k`. -/
theorem C61_atomic (lattice T : ℝ) (as : List (AddArgs ℝ)) (hne : as ≠ []) (hv : ∀ a ∈ as, Valid T a)
    (ho : ∀ a ∈ as, a.override = none) (hh : ∀ a ∈ as, HolsteinCall a) (hf : (as.map (·.freq)).Nodup)
    (k w eta : ℝ) (heta : 0 < eta) :
    ∀ ε > 0, ∃ B : ℤ, ∀ (σ : SetOrder) (cap : Option Int) (as' : List (AddArgs ℝ)),
      (∀ c, cap = some c → 1 ≤ c ∧ B ≤ c) → List.Forall₂ SameCall as as' →
      (∀ a ∈ as', Valid T a ∧ CallAtLeast B a) →
      ∃ m' b, (Model.fromParameters 0 lattice T cap 1).adds realPrims as' = .ok m' ∧
        buildSystem σ m' = .ok b ∧ (∃ G, Returned m' b ⟨k, w, eta⟩ G) ∧
        ∀ G, Returned m' b ⟨k, w, eta⟩ G →
          ‖G - atomicGreen T (as.map (fun a => (a.freq, a.g.getD 0))) w eta‖ ≤ ε := by
  have hc : Clean realPrims 0 T as := clean_holstein hv ho hh
  have hos := oscs_nodup T hh hf
  have hmod : ((modes T as).map (·.freq)).Nodup := by
    rw [modes_of_clean hc]
    have : (as.flatMap (modesAt T)).map (·.freq) = (as.flatMap (oscAt T)).map Prod.fst := by
      rw [List.map_flatMap, List.map_flatMap]
      simp only [oscAt_freqs]
    rw [this]; exact hos
  obtain ⟨m, u, h1, h2, h3, h4⟩ := C60_assembled 0 lattice T (Or.inl rfl) as hne hc hmod
    (Or.inr (fun a ha => by rw [(hh a ha).ctype]; decide)) k w eta heta
  have hm : Holsteins m (as.flatMap (oscAt T)) := by
    exact holsteins_adds as (m := Model.fromParameters 0 lattice T none 1) (L := []) ⟨rfl, rfl, rfl⟩
      (fun a ha => ⟨hv a ha, ho a ha, hh a ha⟩) hos h1
  have h0 : m.ham.hopping = 0 := (adds_fixed as h1).2.1
  obtain ⟨u', k1, k2⟩ := atomic_exact (k := k) hm h0 (fun p hp => by
    obtain ⟨a, ha, hp⟩ := List.mem_flatMap.1 hp
    have hpos := (hh a ha).freq
    unfold oscAt at hp
    split at hp
    · rcases List.mem_cons.1 hp with rfl | hp
      · exact hpos.ne'
      · rcases List.mem_singleton.1 hp with rfl
        exact neg_ne_zero.2 hpos.ne'
    · rcases List.mem_singleton.1 hp with rfl
      exact hpos.ne') (w := w) heta
  rw [h3 u' k1, green1_value T hh] at k2
  rw [← k2]
  exact h4

/-! ### the lines of the spectrum -/

theorem double_series (x y : ℂ) :
    HasSum (fun p : ℕ × ℕ => x ^ p.1 / p.1.factorial * (y ^ p.2 / p.2.factorial)) (exp x * exp y) := by
  have e1 : ∀ x : ℂ, HasSum (fun n : ℕ => x ^ n / (n.factorial : ℂ)) (exp x) := fun x => by
    rw [Complex.exp_eq_exp_ℂ]
    exact NormedSpace.expSeries_div_hasSum_exp x
  have n1 : ∀ x : ℂ, Summable (fun n : ℕ => ‖x ^ n / (n.factorial : ℂ)‖) := fun x =>
    NormedSpace.norm_expSeries_div_summable x
  have h := summable_mul_of_summable_norm (n1 x) (n1 y)
  have e := tsum_mul_tsum_of_summable_norm (n1 x) (n1 y)
  rw [(e1 x).tsum_eq, (e1 y).tsum_eq] at e
  rw [e]
  exact h.hasSum

/-- C61, the spectrum for one coupling: lines at `-g²/Omega + (n - m) Omega`, for the emission of `n` and the
absorption of `m` phonons, with the weights of two Poisson distributions. At zero temperature only `m = 0`
contributes. -/
theorem C61_lines (T Omega g w eta : ℝ) (hO : 0 < Omega) (heta : 0 < eta) :
    HasSum (fun p : ℕ × ℕ => ((Real.exp (-(g ^ 2 / Omega ^ 2 * (2 * thermal T Omega + 1))) *
        ((g ^ 2 / Omega ^ 2 * (1 + thermal T Omega)) ^ p.1 / p.1.factorial) *
        ((g ^ 2 / Omega ^ 2 * thermal T Omega) ^ p.2 / p.2.factorial) : ℝ) : ℂ) *
        (1 / (energyAt w eta + g ^ 2 / Omega - (p.1 - p.2) * Omega)))
      (atomicGreen T [(Omega, g)] w eta) := by
  set N := thermal T Omega
  set lam := g ^ 2 / Omega ^ 2 with hlam
  set W : ℕ × ℕ → ℝ := fun p => Real.exp (-(lam * (2 * N + 1))) * ((lam * (1 + N)) ^ p.1 / p.1.factorial) *
    ((lam * N) ^ p.2 / p.2.factorial) with hW
  set A : ℕ × ℕ → ℂ := fun p => I * (energyAt w eta + g ^ 2 / Omega - (p.1 - p.2) * Omega) with hA
  have hO' : (Omega : ℂ) ≠ 0 := by exact_mod_cast hO.ne'
  have hAre : ∀ p, (A p).re = -eta := fun p => by
    have e : A p = I * energyAt w eta + ((g ^ 2 / Omega - (p.1 - p.2) * Omega : ℝ) : ℂ) * I := by
      simp only [hA]; push_cast; ring
    rw [e, Complex.add_re, Complex.re_ofReal_mul, Complex.I_re, mul_zero, add_zero, Complex.I_mul_re]
    simp [energyAt]
  have hA0 : ∀ p, A p ≠ 0 := fun p h => by
    have := hAre p
    rw [h, Complex.zero_re] at this
    linarith
  have hWs : Summable (fun p => |W p|) := by
    have h1 := (Real.summable_pow_div_factorial (lam * (1 + N))).abs
    have h2 := (Real.summable_pow_div_factorial (lam * N)).abs
    have := (h1.mul_of_nonneg h2 (fun _ => abs_nonneg _) (fun _ => abs_nonneg _)).mul_left
      (Real.exp (-(lam * (2 * N + 1))))
    refine this.congr (fun p => ?_)
    simp only [hW]
    rw [abs_mul, abs_mul, abs_of_pos (Real.exp_pos _)]
    ring
  have hint : ∀ p, IntegrableOn (fun s : ℝ => (W p : ℂ) * exp (A p * s)) (Set.Ioi 0) := fun p =>
    (integrableOn_exp_mul_complex_Ioi (by rw [hAre]; linarith) 0).const_mul _
  have hnorm : ∀ p (s : ℝ), ‖(W p : ℂ) * exp (A p * s)‖ = |W p| * Real.exp (-eta * s) := fun p s => by
    rw [norm_mul, Complex.norm_real, Real.norm_eq_abs, Complex.norm_exp, Complex.re_mul_ofReal, hAre]
  have hsum : Summable (fun p => ∫ s in Set.Ioi (0 : ℝ), ‖(W p : ℂ) * exp (A p * s)‖) := by
    simp only [hnorm]
    simp only [integral_const_mul]
    exact hWs.mul_right _
  have key := hasSum_integral_of_summable_integral_norm hint hsum
  have hval : ∀ s : ℝ, ∑' p, (W p : ℂ) * exp (A p * s) = exp (I * energyAt w eta * s) *
      exp (([(Omega, g)] : List (ℝ × ℝ)).map (fun p => cumulant T p.1 p.2 s)).sum := by
    intro s
    have e2 := (double_series (lam * (1 + N) * exp (-(I * Omega * s))) (lam * N * exp (I * Omega * s))).mul_left
      (exp (I * energyAt w eta * s) * exp (I * (g ^ 2 / Omega) * s) * exp (-(lam * (2 * N + 1) : ℂ)))
    have e3 : ∀ p : ℕ × ℕ, exp (I * energyAt w eta * s) * exp (I * (g ^ 2 / Omega) * s) * exp (-(lam * (2 * N + 1) : ℂ)) *
        ((lam * (1 + N) * exp (-(I * Omega * s))) ^ p.1 / p.1.factorial * ((lam * N * exp (I * Omega * s)) ^ p.2 / p.2.factorial)) =
        (W p : ℂ) * exp (A p * s) := by
      intro p
      have e4 : exp (A p * s) = exp (I * energyAt w eta * s) * exp (I * (g ^ 2 / Omega) * s) *
          exp (-(I * Omega * s)) ^ p.1 * exp (I * Omega * s) ^ p.2 := by
        rw [← Complex.exp_nat_mul, ← Complex.exp_nat_mul, ← Complex.exp_add, ← Complex.exp_add, ← Complex.exp_add]
        congr 1
        simp only [hA]
        ring
      rw [e4]
      simp only [hW]
      push_cast
      rw [mul_pow _ (exp (-(I * Omega * s))), mul_pow _ (exp (I * Omega * s))]
      ring
    simp only [e3] at e2
    rw [e2.tsum_eq]
    simp only [List.map_cons, List.map_nil, List.sum_cons, List.sum_nil, add_zero]
    rw [mul_assoc, mul_assoc, mul_assoc, ← Complex.exp_add, ← Complex.exp_add, ← Complex.exp_add]
    congr 2
    unfold cumulant
    have w1 : exp (-(I * Omega * s)) = Real.cos (Omega * s) - I * Real.sin (Omega * s) := by
      rw [← wave_split]; push_cast; ring_nf
    have w2 : exp (I * Omega * s) = Real.cos (Omega * s) + I * Real.sin (Omega * s) := by
      have := wave_split (-(Omega * s))
      rw [Real.cos_neg, Real.sin_neg] at this
      push_cast at this ⊢
      rw [show I * (Omega : ℂ) * s = -(I * -(Omega * s)) by ring, this]
      ring
    rw [w1, w2]
    have hl : (lam : ℂ) = g ^ 2 / Omega ^ 2 := by rw [hlam]; push_cast; rfl
    rw [hl]
    ring
  unfold atomicGreen
  simp only [← hval]
  have hterm : ∀ p, (W p : ℂ) * (1 / (energyAt w eta + g ^ 2 / Omega - (p.1 - p.2) * Omega)) =
      -I * ∫ s in Set.Ioi (0 : ℝ), (W p : ℂ) * exp (A p * s) := by
    intro p
    rw [integral_const_mul, integral_exp_mul_complex_Ioi (by rw [hAre]; linarith)]
    have h0 := hA0 p
    simp only [hA] at h0 ⊢
    have h1 : energyAt w eta + g ^ 2 / Omega - ((p.1 : ℂ) - p.2) * Omega ≠ 0 := right_ne_zero_of_mul h0
    rw [Complex.ofReal_zero, mul_zero, Complex.exp_zero]
    generalize energyAt w eta + g ^ 2 / Omega - ((p.1 : ℂ) - p.2) * Omega = q at *
    have hI := Complex.I_ne_zero
    field_simp
  have := key.mul_left (-I)
  simp only [← hterm] at this
  exact this

/-! ### the hypotheses are met -/

/-- two Holstein couplings at finite temperature -/
noncomputable def exImmobile : List (AddArgs ℝ) :=
  [{ ctype := "Holstein", freq := 1, M := 2, N := 3, Mtfd := some 2, Ntfd := some 2, g := some (1 / 2) },
   { ctype := "Holstein", freq := 2, M := 1, N := 2, Mtfd := some 1, Ntfd := some 1, g := some 3 }]

/-- The hypotheses of C61 are met by two couplings at temperature 1, and the values converge along the sequence of
models with all limits equal to `j`. -/
example (k w eta : ℝ) (heta : 0 < eta) (σ : SetOrder) (G : ℕ → ℂ)
    (hG : ∀ j : ℕ, 1 ≤ j → ∀ m b, (Model.fromParameters (0 : ℝ) 1 1 none 1).adds realPrims
      (exImmobile.map (withLimits j)) = .ok m → buildSystem σ m = .ok b → Returned m b ⟨k, w, eta⟩ (G j)) :
    Tendsto G atTop (𝓝 (atomicGreen 1 [(1, 1 / 2), (2, 3)] w eta)) := by
  have hv : ∀ a ∈ exImmobile, Valid (1 : ℝ) a := by
    intro a ha
    simp only [exImmobile, List.mem_cons, List.not_mem_nil, or_false] at ha
    rcases ha with rfl | rfl
    · exact ⟨by decide, by decide, fun x h => by cases h; decide, fun x h => by cases h; decide, fun _ => ⟨⟨_, rfl⟩, _, rfl⟩,
        Or.inl ⟨_, rfl, rfl⟩, fun _ i h => by cases h⟩
    · exact ⟨by decide, by decide, fun x h => by cases h; decide, fun x h => by cases h; decide, fun _ => ⟨⟨_, rfl⟩, _, rfl⟩,
        Or.inl ⟨_, rfl, rfl⟩, fun _ i h => by cases h⟩
  have ho : ∀ a ∈ exImmobile, a.override = none := by
    intro a ha
    simp only [exImmobile, List.mem_cons, List.not_mem_nil, or_false] at ha
    rcases ha with rfl | rfl <;> rfl
  have hh : ∀ a ∈ exImmobile, HolsteinCall a := by
    intro a ha
    simp only [exImmobile, List.mem_cons, List.not_mem_nil, or_false] at ha
    rcases ha with rfl | rfl
    · exact ⟨rfl, by norm_num, _, rfl⟩
    · exact ⟨rfl, by norm_num, _, rfl⟩
  have hf : (exImmobile.map (·.freq)).Nodup := by simp [exImmobile]
  have h := C61_atomic 1 1 exImmobile (by simp [exImmobile]) hv ho hh hf k w eta heta
  have e : exImmobile.map (fun a => (a.freq, a.g.getD 0)) = [(1, 1 / 2), (2, 3)] := by simp [exImmobile]
  rw [e] at h
  refine Metric.tendsto_atTop.2 (fun ε hε => ?_)
  obtain ⟨B, hB⟩ := h (ε / 2) (by positivity)
  refine ⟨max 1 B.toNat, fun j hj => ?_⟩
  have hj1 : 1 ≤ j := (le_max_left _ _).trans hj
  have hjB : B ≤ j := (Int.self_le_toNat B).trans (by exact_mod_cast (le_max_right _ _).trans hj)
  have hsame : List.Forall₂ SameCall exImmobile (exImmobile.map (withLimits j)) := by
    rw [List.forall₂_map_right_iff, List.forall₂_same]
    exact fun a _ => ⟨rfl, rfl, rfl, rfl, rfl⟩
  have hval : ∀ a ∈ exImmobile.map (withLimits j), Valid (1 : ℝ) a ∧ CallAtLeast B a := by
    intro a ha
    refine ⟨valid_withLimits (P := realPrims) (hopping := 0) (clean_holstein hv ho hh) hj1 a ha, ?_⟩
    obtain ⟨x, hx, rfl⟩ := List.mem_map.1 ha
    exact ⟨hjB, hjB, fun y h => by rw [map_const h]; exact hjB, fun y h => by rw [map_const h]; exact hjB⟩
  obtain ⟨m', b, k1, k2, -, k4⟩ := hB σ none _ (by simp) hsame hval
  have := k4 (G j) (hG j hj1 m' b k1 k2)
  rw [dist_eq_norm]
  linarith

end GGCE.Props
