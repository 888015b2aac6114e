import Mathlib.Data.Rat.Floor
import Verif.Model.Meta
import Verif.Props.Grid

/-!
Property C87: the meta information of the PETSc solver belongs to the points of the returned values.
-/

set_option linter.unusedSectionVars false

namespace GGCE.Props

variable {R V M : Type} [Field R]

theorem mapPy_through {α β γ : Type} (f : α → Py β) (g : β → γ) (l : List α) :
    mapPy (fun x => (f x).map g) l = (mapPy f l).map (List.map g) := by
  induction l with
  | nil => rfl
  | cons x l ih =>
    rw [mapPy, mapPy, ih]
    cases f x with
    | error e => rfl
    | ok y =>
      cases mapPy f l with
      | error e => rfl
      | ok ys => rfl

/-- the results the commanders hand in, in order, are those of the serial loop -/
theorem picked_flatten {W : Type} (solve : R → R → Py W) (b : Brigades) (hw : 1 ≤ b.world) (hc : b.check = .ok ()) (k w : List R) :
    ((mapPy (fun rank => (b.jobs (jobList k w) rank).bind
      (fun mine => mapPy (fun j => solve j.1 j.2) mine)) (List.range b.world)).bind (pickCommanders b)).map List.flatten =
      mapPy (fun j => solve j.1 j.2) (jobList k w) := by
  obtain ⟨h1, h2, h3, h4⟩ := b.facts hw hc
  obtain ⟨chunk, c1, c2⟩ := b.jobs_ok hw hc (jobList k w)
  have hr : mapPy (fun rank => (b.jobs (jobList k w) rank).bind
      (fun mine => mapPy (fun j => solve j.1 j.2) mine)) (List.range b.world) =
      (mapPy (fun i => mapPy (fun j => solve j.1 j.2) (chunk i)) (List.range b.count)).map
        (fun vs => vs.flatMap (List.replicate b.size)) := by
    rw [← mapPy_brigades _ _ h1, h3]
    apply mapPy_congr
    intro r hr
    rw [List.mem_range] at hr
    rw [c1 r hr]
    rfl
  rw [hr, ← mapPy_map chunk (mapPy (fun j => solve j.1 j.2))]
  have hf := mapPy_flatten (fun j : R × R => solve j.1 j.2) ((List.range b.count).map chunk)
  rw [c2] at hf
  rw [← hf]
  cases hv : mapPy (mapPy (fun j : R × R => solve j.1 j.2)) ((List.range b.count).map chunk) with
  | error e => rfl
  | ok vs =>
    simp only [Except.map, Except.bind]
    rw [pickCommanders_ok hw hc vs (by rw [(mapPy_ok hv).1]; simp)]

theorem bind_okay {α β : Type} (a : α) (f : α → Py β) : Except.bind (.ok a) f = f a := rfl
theorem bind_fail {α β : Type} (e : Err) (f : α → Py β) : Except.bind (.error e) f = .error e := rfl

/-- steps after the results have been collected -/
theorem bind_flatten {α β : Type} (x : Py (List (List α))) (f : List α → Py β) :
    x.bind (fun l => f l.flatten) = (x.map List.flatten).bind f := by
  cases x <;> rfl

/-- the call, without ranks -/
theorem massMeta_serial (solve : R → R → Py (V × M)) (isNaN : V → Bool) (b : Brigades) (k w : GridArg R)
    (hw : 1 ≤ b.world) (hc : b.check = .ok ()) :
    massGreensMeta solve isNaN b k w = (floatToList k).bind (fun ks => (floatToList w).bind (fun ws =>
      (massGrid b ks ws).bind (fun g => (mapPy (fun j => solve j.1 j.2) (jobList g.1 g.2)).bind (fun s =>
        (reshapeGrid ((s.map Prod.fst).filter (fun v => !isNaN v)) g.1.length g.2.length).bind (fun res =>
          .ok (res, s.map Prod.snd)))))) := by
  have h0 : massGreensMeta solve isNaN b k w = b.check.bind (fun _ => (floatToList k).bind (fun ks =>
      (floatToList w).bind (fun ws => (massGrid b ks ws).bind (fun g =>
        (mapPy (fun rank => (b.jobs (jobList g.1 g.2) rank).bind
          (fun mine => mapPy (fun j => solve j.1 j.2) mine)) (List.range b.world)).bind (fun all =>
            (pickCommanders b all).bind (fun picked =>
              (reshapeGrid ((picked.flatten.map Prod.fst).filter (fun v => !isNaN v)) g.1.length g.2.length).bind
                (fun res => .ok (res, picked.flatten.map Prod.snd)))))))) := rfl
  rw [h0, hc, bind_okay]
  congr 1; funext ks
  congr 1; funext ws
  congr 1; funext g
  rw [← picked_flatten solve b hw hc g.1 g.2, ← bind_flatten]
  cases mapPy (fun rank => (b.jobs (jobList g.1 g.2) rank).bind
          (fun mine => mapPy (fun j => solve j.1 j.2) mine)) (List.range b.world) <;> rfl

theorem mass_serial (solve : R → R → Py V) (isNaN : V → Bool) (b : Brigades) (k w : GridArg R)
    (hw : 1 ≤ b.world) (hc : b.check = .ok ()) :
    massGreens solve isNaN b k w = (floatToList k).bind (fun ks => (floatToList w).bind (fun ws =>
      (massGrid b ks ws).bind (fun g => (mapPy (fun j => solve j.1 j.2) (jobList g.1 g.2)).bind (fun s =>
        reshapeGrid (s.filter (fun v => !isNaN v)) g.1.length g.2.length)))) := by
  have h0 : massGreens solve isNaN b k w = b.check.bind (fun _ => (floatToList k).bind (fun ks =>
      (floatToList w).bind (fun ws => (massGrid b ks ws).bind (fun g =>
        (mapPy (fun rank => (b.jobs (jobList g.1 g.2) rank).bind
          (fun mine => mapPy (fun j => solve j.1 j.2) mine)) (List.range b.world)).bind (fun all =>
            (pickCommanders b all).bind (fun picked =>
              reshapeGrid (picked.flatten.filter (fun v => !isNaN v)) g.1.length g.2.length)))))) := rfl
  rw [h0, hc, bind_okay]
  congr 1; funext ks
  congr 1; funext ws
  congr 1; funext g
  rw [← picked_flatten solve b hw hc g.1 g.2, ← bind_flatten]
  cases mapPy (fun rank => (b.jobs (jobList g.1 g.2) rank).bind
          (fun mine => mapPy (fun j => solve j.1 j.2) mine)) (List.range b.world) <;> rfl

/-- C87: asking for the meta information does not change the values. -/
theorem C87_values (solve : R → R → Py (V × M)) (isNaN : V → Bool) (b : Brigades) (k w : GridArg R) (hw : 1 ≤ b.world) :
    (massGreensMeta solve isNaN b k w).map Prod.fst =
      massGreens (fun x y => (solve x y).map Prod.fst) isNaN b k w := by
  cases hc : b.check with
  | error e => unfold massGreensMeta massGreens; rw [hc]; rfl
  | ok u =>
    rw [massMeta_serial solve isNaN b k w hw hc, mass_serial _ isNaN b k w hw hc]
    cases floatToList k with
    | error e => rfl
    | ok ks =>
      cases floatToList w with
      | error e => rfl
      | ok ws =>
        simp only [bind_okay]
        cases massGrid b ks ws with
        | error e => rfl
        | ok g =>
          simp only [bind_okay]
          rw [mapPy_through (fun j : R × R => solve j.1 j.2) Prod.fst]
          cases mapPy (fun j : R × R => solve j.1 j.2) (jobList g.1 g.2) with
          | error e => rfl
          | ok s =>
            simp only [bind_okay, Except.map]
            cases reshapeGrid ((s.map Prod.fst).filter (fun v => !isNaN v)) g.1.length g.2.length <;> rfl

/-- C87: whenever the call returns, value and dictionary at the same position of the grid come from the same call of
the solver, for the point at that position; and there are exactly as many dictionaries as points. The grid is the
requested one, padded if it does not divide evenly (C28). -/
theorem C87_aligned (solve : R → R → Py (V × M)) (isNaN : V → Bool) (b : Brigades) (k w : GridArg R) (hw : 1 ≤ b.world)
    (res : List (List V)) (info : List M) (h : massGreensMeta solve isNaN b k w = .ok (res, info)) :
    ∃ ks ws ks' ws', gridPoints k = some ks ∧ gridPoints w = some ws ∧ massGrid b ks ws = .ok (ks', ws') ∧
      info.length = ks'.length * ws'.length ∧
      ∀ i (hi : i < ks'.length) j (hj : j < ws'.length), ∃ row v d, res[i]? = some row ∧ row[j]? = some v ∧
        info[i * ws'.length + j]? = some d ∧ solve ks'[i] ws'[j] = .ok (v, d) ∧ isNaN v = false := by
  have hc : b.check = .ok () := by
    unfold massGreensMeta at h
    cases hc : b.check with
    | error e => rw [hc] at h; cases h
    | ok u => rfl
  rw [massMeta_serial solve isNaN b k w hw hc] at h
  have hgp : ∀ (a : GridArg R) ks, floatToList a = .ok ks → gridPoints a = some ks := by
    intro a ks ha
    cases a <;> simp_all [gridPoints, floatToList]
  cases hk : floatToList k with
  | error e => rw [hk] at h; cases h
  | ok ks =>
    cases hkw : floatToList w with
    | error e => rw [hk, hkw] at h; cases h
    | ok ws =>
      rw [hk, hkw] at h
      simp only [Except.bind] at h
      cases hg : massGrid b ks ws with
      | error e => rw [hg] at h; cases h
      | ok g =>
        obtain ⟨ks', ws'⟩ := g
        rw [hg] at h
        dsimp only at h
        cases hs : mapPy (fun j : R × R => solve j.1 j.2) (jobList ks' ws') with
        | error e => rw [hs] at h; cases h
        | ok s =>
          rw [hs] at h
          dsimp only at h
          obtain ⟨q1, q2⟩ := mapPy_ok hs
          rw [jobList_length] at q1
          cases hr : reshapeGrid ((s.map Prod.fst).filter (fun v => !isNaN v)) ks'.length ws'.length with
          | error e => rw [hr] at h; cases h
          | ok M' =>
            rw [hr] at h
            simp only [Except.ok.injEq, Prod.mk.injEq] at h
            obtain ⟨rfl, rfl⟩ := h
            obtain ⟨h3, h4, h5⟩ := reshapeGrid_ok hr
            -- nothing was filtered out
            have hall : ∀ v ∈ s.map Prod.fst, (!isNaN v) = true := by
              rw [← List.length_filter_eq_length_iff, h3, List.length_map, q1]
            have hfil : (s.map Prod.fst).filter (fun v => !isNaN v) = s.map Prod.fst :=
              List.filter_eq_self.2 hall
            refine ⟨ks, ws, ks', ws', hgp _ _ hk, hgp _ _ hkw, hg, by rw [List.length_map, q1], ?_⟩
            intro i hi j hj
            obtain ⟨row, r1, r2, r3⟩ := h5 i hi
            have hb : i * ws'.length + j < s.length := by
              have : i * ws'.length + ws'.length ≤ ks'.length * ws'.length := by
                rw [← Nat.succ_mul]; exact Nat.mul_le_mul_right _ hi
              omega
            have hj2 := jobList_get ks' ws' i j hi hj
            have hjl : i * ws'.length + j < (jobList ks' ws').length := by rw [jobList_length, ← q1]; exact hb
            rw [List.getElem?_eq_getElem hjl] at hj2
            have hsol := q2 _ hjl hb
            rw [Option.some.inj hj2] at hsol
            refine ⟨row, s[i * ws'.length + j].1, s[i * ws'.length + j].2, r1, ?_, ?_, hsol, ?_⟩
            · rw [r3 j hj, hfil, List.getElem?_map, List.getElem?_eq_getElem hb]
              rfl
            · rw [List.getElem?_map, List.getElem?_eq_getElem hb]
              rfl
            · have := hall s[i * ws'.length + j].1 (List.mem_map.2 ⟨_, List.getElem_mem hb, rfl⟩)
              simpa using this

/-- C87: a dictionary is empty exactly if the value came from a file; otherwise it is the one of the calculation. -/
theorem C87_cached [LinearOrder R] [IsStrictOrderedRing R] [FloorRing R] (raw : Point R → Py (V × M)) (files : Dict PyStr V)
    (p : Point R) (v : V) (d : Option M) (h : solveMeta raw files p = .ok (v, d)) :
    (d = none ↔ files.get? (cacheKey p) ≠ none) ∧ (∀ m, d = some m → raw p = .ok (v, m)) ∧
      (d = none → files.get? (cacheKey p) = some v) := by
  unfold solveMeta at h
  cases hf : files.get? (cacheKey p) with
  | some v' =>
    rw [hf] at h
    simp only [Except.ok.injEq, Prod.mk.injEq] at h
    obtain ⟨rfl, rfl⟩ := h
    simp
  | none =>
    rw [hf] at h
    cases hr : raw p with
    | error e => rw [hr] at h; cases h
    | ok x =>
      rw [hr] at h
      simp only [Except.map, Except.ok.injEq, Prod.mk.injEq] at h
      obtain ⟨rfl, rfl⟩ := h
      simp

/-- three frequencies on two brigades of two ranks, one result from a file; the grid is padded -/
example : massGreensMeta (fun (x y : ℚ) => solveMeta (fun p => .ok (p.k + p.w, p.w)) [(cacheKey (⟨0, 2, 1⟩ : Point ℚ), 2)] ⟨x, y, 1⟩)
    (fun _ => false) ⟨4, some 2⟩ (.seq [0]) (.seq [1, 2, 3]) =
      .ok ([[1, 2, 3, 4]], [some 1, none, some 3, some 4]) := by decide +kernel

end GGCE.Props
