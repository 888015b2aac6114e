import Verif.Proofs.Ready

/-! The assembled matrix as a system of linear equations. -/

set_option linter.unusedSectionVars false

namespace GGCE
open Spec Arr Dict

variable {R K : Type} [Field R] [LinearOrder R] [Field K]

theorem list_sum_mul_right {α : Type} (l : List α) (f : α → K) (x : K) :
    (l.map f).sum * x = (l.map (fun a => f a * x)).sum := by
  induction l with
  | nil => simp
  | cons a l ih => simp [add_mul, ih]

theorem list_sum_mul_left {α : Type} (l : List α) (f : α → K) (x : K) :
    x * (l.map f).sum = (l.map (fun a => x * f a)).sum := by
  induction l with
  | nil => simp
  | cons a l ih => simp [mul_add, ih]

theorem finset_list_comm {α : Type} (s : Finset Nat) (l : List α) (f : Nat → α → K) :
    ∑ j ∈ s, (l.map (f j)).sum = (l.map (fun a => ∑ j ∈ s, f j a)).sum := by
  induction l with
  | nil => simp
  | cons a l ih => simp [Finset.sum_add_distrib, ih]

variable {m : Model R} {eqs : Dict Nat (List (Equation R))}

/-- row `i` of matrix times vector -/
theorem Ready.row_apply (h : Ready m eqs) {c : Term R → K} {T : List (Nat × Nat × K)} {i : Nat}
    {ei : Equation R} (hi : (allEqs eqs)[i]? = some ei)
    (hT : ∀ j, cooEntry T i j = (ei.terms.map (fun t => if ixOf eqs t.id = j then c t else 0)).sum +
      if i = j then 1 else 0) (x : Nat → K) :
    ∑ j ∈ Finset.range (allEqs eqs).length, cooEntry T i j * x j =
      x i + (ei.terms.map (fun t => c t * x (ixOf eqs t.id))).sum := by
  have hi' : i < (allEqs eqs).length := (List.getElem?_eq_some_iff.1 hi).1
  simp only [hT, add_mul, Finset.sum_add_distrib, list_sum_mul_right, ite_mul, one_mul, zero_mul,
    finset_list_comm]
  rw [Finset.sum_ite_eq, if_pos (Finset.mem_range.2 hi'), add_comm]
  congr 2
  apply List.map_congr_left
  intro t ht
  rw [Finset.sum_ite_eq, if_pos]
  obtain ⟨e', he', h1, -⟩ := h.closed ei (List.mem_of_getElem? hi) t ht
  rw [← h1]
  exact Finset.mem_range.2 (h.ix_lt he')

theorem Ready.scaffold (h : Ready m eqs) (F : Phys R K) (p : Point R) {T : List (Nat × Nat × K)}
    (hT : sparseTriples F m p (fullBasis eqs) eqs = .ok T) :
    scaffold F m p (fullBasis eqs) eqs = .ok ⟨T, (allEqs eqs).length - 1,
      F.G0 p.k p.w m.latticeConstant p.eta m.ham.hopping⟩ := by
  obtain ⟨e, h1, h2, h3⟩ := h.green
  unfold GGCE.scaffold
  rw [hT, h.green_ix, h1]
  simp [bind, Except.bind, pure, Except.pure, Equation.bias, h2]

/-- the bias is that of the Green's function equation, and zero otherwise -/
theorem Ready.bias (h : Ready m eqs) (F : Phys R K) (p : Point R) {e : Equation R} (he : e ∈ allEqs eqs) :
    e.bias F m p = if ixOf eqs e.id = (allEqs eqs).length - 1 then
      F.G0 p.k p.w m.latticeConstant p.eta m.ham.hopping else 0 := by
  obtain ⟨g, h1, h2, h3⟩ := h.green
  have hv : eqs.vals 0 = [g] := by
    have := h.get (Nat.zero_le _); rw [h1] at this; simpa using this.symm
  have hg : g ∈ allEqs eqs := ((h.mem_vals (Nat.zero_le _)).1 (by rw [hv]; simp)).1
  have hix : ixOf eqs g.id = (allEqs eqs).length - 1 := by
    have := h.basis hg
    rw [h3, h.green_ix] at this
    rw [h3]; simpa using this.symm
  unfold Equation.bias
  by_cases hge : e.green = true
  · have h0 := h.notGreen e he hge
    have : e ∈ eqs.vals 0 := (h.mem_vals (Nat.zero_le _)).2 ⟨he, h0⟩
    rw [hv, List.mem_singleton] at this
    subst this
    rw [if_pos hge, if_pos hix]
  · rw [if_neg hge, if_neg]
    intro hc
    have := h.ix_inj he hg (by rw [hc, hix])
    subst this
    exact hge h2

/-- Solutions of the matrix equation are solutions of the equations. -/
theorem Ready.solves_iff (h : Ready m eqs) (F : Phys R K) (p : Point R) {T : List (Nat × Nat × K)}
    (hT : ∀ (i : Nat) (ei : Equation R), (allEqs eqs)[i]? = some ei → ∀ j, cooEntry T i j =
      (ei.terms.map (fun t => if ixOf eqs t.id = j then coefV F m p t else 0)).sum +
        if i = j then 1 else 0) (x : Nat → K) (U : PyStr → K)
    (hU : ∀ e ∈ allEqs eqs, U e.id = x (ixOf eqs e.id)) :
    (∀ i < (allEqs eqs).length, ∑ j ∈ Finset.range (allEqs eqs).length, cooEntry T i j * x j =
      if i = (allEqs eqs).length - 1 then F.G0 p.k p.w m.latticeConstant p.eta m.ham.hopping else 0) ↔
    SolvesAll (coefV F m p) (fun e => e.bias F m p) (allEqs eqs) U := by
  have key : ∀ e ∈ allEqs eqs, U e.id + (e.terms.map (fun t => coefV F m p t * U t.id)).sum =
      ∑ j ∈ Finset.range (allEqs eqs).length, cooEntry T (ixOf eqs e.id) j * x j := by
    intro e he
    rw [h.row_apply (h.get_ix he) (hT _ _ (h.get_ix he)), hU e he]
    congr 2
    apply List.map_congr_left
    intro t ht
    obtain ⟨e', he', h1, -⟩ := h.closed e he t ht
    rw [← h1, hU e' he']
  constructor
  · intro hx e he
    show _ = e.bias F m p
    rw [key e he, hx _ (h.ix_lt he), h.bias F p he]
  · intro hs i hi
    have he := List.getElem?_eq_getElem hi
    have hm := List.getElem_mem hi
    have h1 := hs _ hm
    simp only at h1
    rw [key _ hm, h.bias F p hm, h.ix_get he] at h1
    exact h1

end GGCE
