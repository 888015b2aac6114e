import Verif.Proofs.Assembled

/-! The model made by a history of acceptable calls, written down at once. -/

set_option linter.unusedSectionVars false

namespace GGCE
open Spec

variable {R : Type} [Field R] [LinearOrder R]

/-- a registered mode with its coupling -/
structure Part (R : Type) where
  ctype : String
  freq : R
  M : Int
  N : Int
  g : R

/-- the coupling strength of a call, with a default -/
def strengthD (P : Prims R) (hopping : R) (a : AddArgs R) (freq : R) : R :=
  match Hamiltonian.strength P hopping a.ctype freq a.g a.lam with
  | .ok g => g
  | .error _ => 0

/-- the modes registered by a call -/
def partsAt (P : Prims R) (hopping T : R) (a : AddArgs R) : List (Part R) :=
  if 0 < T then
    [⟨a.ctype, a.freq, a.M, a.N, strengthD P hopping a a.freq * (P.tfd T a.freq).1⟩,
     ⟨a.ctype, -a.freq, a.Mtfd.getD 0, a.Ntfd.getD 0, strengthD P hopping a (-a.freq) * (P.tfd T a.freq).2⟩]
  else [⟨a.ctype, a.freq, a.M, a.N, strengthD P hopping a a.freq * 1⟩]

def parts (P : Prims R) (hopping T : R) (as : List (AddArgs R)) : List (Part R) :=
  as.flatMap (partsAt P hopping T)

/-- the terms of the modes, the first of them having index `i` -/
def partTerms (ds : List (Part R)) (i : Nat) : List (SingleTerm R) :=
  (ds.zipIdx i).flatMap (fun q => termsOf q.1.ctype q.1.g q.2 q.1.freq)

/-- the model with given modes -/
def blueprint (hopping lattice T : R) (cap : Option Int) (ds : List (Part R)) : Model R :=
  { latticeConstant := lattice, temperature := T
    ham := { terms := partTerms ds 0, freqs := ds.map (·.freq), dimension := 1, hopping := hopping }
    maxPerSite := cap, extent := ds.map (·.M), number := ds.map (·.N), absExtentOpt := none
    nTypes := ds.length }

theorem partTerms_append (ds es : List (Part R)) (i : Nat) :
    partTerms (ds ++ es) i = partTerms ds i ++ partTerms es (i + ds.length) := by
  unfold partTerms
  rw [List.zipIdx_append, List.flatMap_append]

theorem strengthD_ok {P : Prims R} {hopping : R} {a : AddArgs R} {freq g : R}
    (h : Hamiltonian.strength P hopping a.ctype freq a.g a.lam = .ok g) : strengthD P hopping a freq = g := by
  unfold strengthD; rw [h]

theorem parts_cons (P : Prims R) (hopping T : R) (a : AddArgs R) (as : List (AddArgs R)) :
    parts P hopping T (a :: as) = partsAt P hopping T a ++ parts P hopping T as := rfl

theorem partsAt_freq (P : Prims R) (hopping T : R) (a : AddArgs R) :
    (partsAt P hopping T a).map (·.freq) = (modesAt T a).map (·.freq) := by
  unfold partsAt modesAt; split <;> rfl

theorem partsAt_M (P : Prims R) (hopping T : R) (a : AddArgs R) :
    (partsAt P hopping T a).map (·.M) = (modesAt T a).map (·.M) := by
  unfold partsAt modesAt; split <;> rfl

theorem parts_freq {P : Prims R} {hopping T : R} {as : List (AddArgs R)} (hc : Clean P hopping T as) :
    (parts P hopping T as).map (·.freq) = (modes T as).map (·.freq) := by
  rw [modes_of_clean hc]
  unfold parts
  rw [List.map_flatMap, List.map_flatMap]
  congr 1
  funext a
  exact partsAt_freq P hopping T a

theorem parts_M {P : Prims R} {hopping T : R} {as : List (AddArgs R)} (hc : Clean P hopping T as) :
    (parts P hopping T as).map (·.M) = (modes T as).map (·.M) := by
  rw [modes_of_clean hc]
  unfold parts
  rw [List.map_flatMap, List.map_flatMap]
  congr 1
  funext a
  exact partsAt_M P hopping T a

theorem add_blueprint {P : Prims R} {hopping lattice T : R} {cap : Option Int} {ds : List (Part R)} {a : AddArgs R}
    (hv : Valid T a) (hk : Known a.ctype) (ho : a.override = none) (hd : Defined P hopping a)
    (hf : ((ds ++ partsAt P hopping T a).map (·.freq)).Nodup) :
    (blueprint hopping lattice T cap ds).add P a =
      .ok (blueprint hopping lattice T cap (ds ++ partsAt P hopping T a)) := by
  obtain ⟨⟨g1, hg1⟩, g2, hg2⟩ := hd.strength hv.strength
  have hr : (blueprint hopping lattice T cap ds).addRejected a = false := (rejected_iff _ a).2 hv
  have hi : (blueprint hopping lattice T cap ds).callIndex a = (ds.length : Int) := by
    simp [Model.callIndex, ho, blueprint]
  unfold Model.add
  simp only [hr, Bool.false_eq_true, if_false, hi]
  have h1 := ham_add_ok P (blueprint hopping lattice T cap ds).ham hk (idx := (ds.length : Int)) (by omega) a.freq
    hv.strength.xor (g := g1) hg1 ((blueprint hopping lattice T cap ds).tfdPrefactors P a.freq).1
  rw [h1]
  simp only
  by_cases hT : 0 < T
  · have hpf : (blueprint hopping lattice T cap ds).tfdPrefactors P a.freq = P.tfd T a.freq := if_pos hT
    have hparts : partsAt P hopping T a = [⟨a.ctype, a.freq, a.M, a.N, g1 * (P.tfd T a.freq).1⟩,
        ⟨a.ctype, -a.freq, a.Mtfd.getD 0, a.Ntfd.getD 0, g2 * (P.tfd T a.freq).2⟩] := by
      unfold partsAt; rw [if_pos hT, strengthD_ok hg1, strengthD_ok hg2]
    rw [hparts] at hf ⊢
    have hf1 : a.freq ∉ ds.map (·.freq) := by
      simp only [List.map_append, List.map_cons, List.map_nil, List.nodup_append] at hf
      intro hx
      exact hf.2.2 _ hx _ (by simp) rfl
    have hf2 : -a.freq ∉ ds.map (·.freq) ++ [a.freq] := by
      simp only [List.map_append, List.map_cons, List.map_nil, List.nodup_append, List.nodup_cons] at hf
      intro hx
      rcases List.mem_append.1 hx with h | h
      · exact hf.2.2 _ h _ (by simp) rfl
      · simp only [List.mem_singleton] at h
        exact hf.2.1.1 (by simp [h])
    rw [hpf]
    rw [if_pos (show (blueprint hopping lattice T cap ds).temperature > 0 from hT)]
    have h2 := ham_add_ok P
      { (blueprint hopping lattice T cap ds).ham with
        freqs := insertFreq (blueprint hopping lattice T cap ds).ham.freqs a.freq
        terms := (blueprint hopping lattice T cap ds).ham.terms ++
          termsOf a.ctype (g1 * (P.tfd T a.freq).1) (ds.length : Int).toNat a.freq } hk
      (idx := (ds.length : Int) + 1) (by omega) (-a.freq) hv.strength.xor (g := g2) hg2 (P.tfd T a.freq).2
    rw [h2]
    obtain ⟨⟨Mt, hM⟩, Nt, hN⟩ := hv.tfd hT
    simp only [hM, hN]
    have e1 : insertFreq (ds.map (·.freq)) a.freq = ds.map (·.freq) ++ [a.freq] := insertFreq_new hf1
    have e2 : insertFreq (ds.map (·.freq) ++ [a.freq]) (-a.freq) = ds.map (·.freq) ++ [a.freq] ++ [-a.freq] :=
      insertFreq_new hf2
    unfold blueprint
    simp only [partTerms_append, List.map_append, List.length_append, e1, e2]
    simp [partTerms, List.zipIdx_cons, add_assoc]
  · have hpf : (blueprint hopping lattice T cap ds).tfdPrefactors P a.freq = (1, 0) := if_neg hT
    have hparts : partsAt P hopping T a = [⟨a.ctype, a.freq, a.M, a.N, g1 * 1⟩] := by
      unfold partsAt; rw [if_neg hT, strengthD_ok hg1]
    rw [hparts] at hf ⊢
    have hf1 : a.freq ∉ ds.map (·.freq) := by
      simp only [List.map_append, List.map_cons, List.map_nil, List.nodup_append] at hf
      intro hx
      exact hf.2.2 _ hx _ (by simp) rfl
    rw [hpf]
    rw [if_neg (show ¬ (blueprint hopping lattice T cap ds).temperature > 0 from hT)]
    have e1 : insertFreq (ds.map (·.freq)) a.freq = ds.map (·.freq) ++ [a.freq] := insertFreq_new hf1
    unfold blueprint
    simp only [partTerms_append, List.map_append, List.length_append, e1]
    simp [partTerms, List.zipIdx_cons]

theorem Spec.Clean.tail {P : Prims R} {hopping T : R} {a : AddArgs R} {as : List (AddArgs R)}
    (hc : Clean P hopping T (a :: as)) : Clean P hopping T as :=
  ⟨fun b hb => hc.valid b (List.mem_cons_of_mem _ hb), fun b hb => hc.known b (List.mem_cons_of_mem _ hb),
    fun b hb => hc.noOverride b (List.mem_cons_of_mem _ hb), fun b hb => hc.defined b (List.mem_cons_of_mem _ hb)⟩

theorem adds_blueprint {P : Prims R} {hopping lattice T : R} {cap : Option Int} :
    ∀ (as : List (AddArgs R)) (ds : List (Part R)), Clean P hopping T as →
      ((ds ++ parts P hopping T as).map (·.freq)).Nodup →
      (blueprint hopping lattice T cap ds).adds P as =
        .ok (blueprint hopping lattice T cap (ds ++ parts P hopping T as))
  | [], ds, _, _ => by simp [Model.adds, parts]
  | a :: as, ds, hc, hf => by
    rw [parts_cons, ← List.append_assoc] at hf ⊢
    rw [Model.adds, add_blueprint (hc.valid a (by simp)) (hc.known a (by simp)) (hc.noOverride a (by simp))
      (hc.defined a (by simp)) (by
        rw [List.map_append] at hf
        exact (List.nodup_append.1 hf).1)]
    exact adds_blueprint as _ hc.tail hf

/-- the model made by a history of acceptable calls with distinct frequencies -/
theorem fromParameters_blueprint {P : Prims R} (hopping lattice T : R) (cap : Option Int)
    (as : List (AddArgs R)) (hc : Clean P hopping T as) (hf : ((modes T as).map (·.freq)).Nodup) :
    (Model.fromParameters hopping lattice T cap 1).adds P as =
      .ok (blueprint hopping lattice T cap (parts P hopping T as)) := by
  have h := adds_blueprint (P := P) (hopping := hopping) (lattice := lattice) (T := T) (cap := cap) as [] hc
    (by rw [List.nil_append, parts_freq hc]; exact hf)
  simpa [blueprint, Model.fromParameters, Hamiltonian.new, partTerms] using h

end GGCE
