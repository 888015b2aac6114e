import Verif.Proofs.DenseLin
import Mathlib.Tactic.FieldSimp

/-! The dense solver's result is the Green's function of the sparse system. -/

set_option linter.unusedSectionVars false

namespace GGCE
open Spec Arr Dict

variable {R K : Type} [Field R] [LinearOrder R] [Field K]
variable {m : Model R} {eqs : Dict Nat (List (Equation R))}

theorem Ready.vals_zero (h : Ready m eqs) : ∃ g, eqs.vals 0 = [g] ∧ g ∈ allEqs eqs ∧ g.green = true ∧
    g.id = "{G}[0.0]".toList ∧ g.config.total = 0 := by
  obtain ⟨g, h1, h2, h3⟩ := h.green
  have hv : eqs.vals 0 = [g] := by
    have := h.get (Nat.zero_le _); rw [h1] at this; simpa using this.symm
  have := (h.mem_vals (e := g) (Nat.zero_le _)).1 (by rw [hv]; simp)
  exact ⟨g, hv, this.1, h2, h3, this.2⟩

theorem Ready.dim_zero (h : Ready m eqs) : GGCE.blockDim (GGCE.localBasis eqs) 0 = 1 := by
  obtain ⟨g, hv, -⟩ := h.vals_zero
  rw [h.blockDim (Nat.zero_le _), hv]; rfl

/-- the only index of the lowest block -/
def Ready.i0 (h : Ready m eqs) : Fin (GGCE.blockDim (GGCE.localBasis eqs) 0) :=
  ⟨0, by rw [h.dim_zero]; omega⟩

theorem Ready.eq_i0 (h : Ready m eqs) (i : Fin (GGCE.blockDim (GGCE.localBasis eqs) 0)) : i = h.i0 := by
  have := i.isLt
  have h0 := h.dim_zero
  ext; show i.val = 0; omega

open Classical in
theorem Ready.denseSolve_eq (h : Ready m eqs) (F : Phys R K) (p : Point R)
    (hN : 1 ≤ m.number.sum.toNat) :
    denseSolve F m p (GGCE.localBasis eqs) eqs =
      (fraction (alphaM F m p eqs) (betaM F m p eqs) (m.number.sum.toNat - 1) 0 >>= fun R1 =>
        if 1 - (betaM F m p eqs 0 * R1) h.i0 h.i0 = 0 then .ok none
        else .ok (some (F.G0 p.k p.w m.latticeConstant p.eta m.ham.hopping /
          (1 - (betaM F m p eqs 0 * R1) h.i0 h.i0)))) := by
  unfold denseSolve
  rw [if_neg (by omega), h.denseR_eq F p _ 0 (by omega), h.fill_eq F p (by omega) hN]
  cases fraction (alphaM F m p eqs) (betaM F m p eqs) (m.number.sum.toNat - 1) 0 with
  | error e => rfl
  | ok R1 =>
    simp only [bind, Except.bind]
    rw [dif_pos h.dim_zero]
    rfl

/-- vectors by blocks as one unknown per identifier -/
def assemble (eqs : Dict Nat (List (Equation R)))
    (Y : ∀ n, Fin (blockDim (localBasis eqs) n) → K) (id : PyStr) : K :=
  if h : lixOf eqs (levelOf eqs id) id < blockDim (localBasis eqs) (levelOf eqs id) then
    Y (levelOf eqs id) ⟨_, h⟩
  else 0

theorem Ready.unknowns_assemble (h : Ready m eqs)
    (Y : ∀ n, Fin (GGCE.blockDim (GGCE.localBasis eqs) n) → K) {n : Nat}
    (hn : n ≤ m.number.sum.toNat) : unknowns eqs (assemble eqs Y) n = Y n := by
  funext i
  have hi : i.val < (eqs.vals n).length := by rw [← h.blockDim hn]; exact i.isLt
  have hg := List.getElem?_eq_getElem hi
  have he := (h.mem_vals hn).1 (List.getElem_mem hi)
  have hl : levelOf eqs (eqs.vals n)[i.val].id = n := by rw [h.level he.1, he.2]; simp
  have hx := h.lix_get hn hg
  unfold unknowns
  rw [hg]
  simp only [Option.map_some, Option.getD_some]
  generalize hid : (eqs.vals n)[i.val].id = id at hl hx
  unfold assemble
  subst hl
  rw [dif_pos (by rw [hx]; exact i.isLt)]
  congr 1
  ext
  exact hx

theorem Ready.blocks (h : Ready m eqs) (F : Phys R K) (p : Point R) (hN : 1 ≤ m.number.sum.toNat)
    (y : PyStr → K) :
    SolvesAll (fun t => -coefV F m p t) (fun e => e.bias F m p) (allEqs eqs) y ↔
      Blocks (alphaM F m p eqs) (betaM F m p eqs) (m.number.sum.toNat - 1) 0 (unknowns eqs y) ∧
      unknowns eqs y 0 h.i0 = F.G0 p.k p.w m.latticeConstant p.eta m.ham.hopping +
        (betaM F m p eqs 0).mulVec (unknowns eqs y 1) h.i0 := by
  obtain ⟨g, hv, hg, hgr, hgid, hg0⟩ := h.vals_zero
  have hbg : g.bias F m p = F.G0 p.k p.w m.latticeConstant p.eta m.ham.hopping := by
    simp [Equation.bias, hgr]
  have hb0 : ∀ n, ∀ e ∈ eqs.vals (n + 1), n + 1 ≤ m.number.sum.toNat → e.bias F m p = 0 := by
    intro n e he hn
    have := (h.mem_vals hn).1 he
    unfold Equation.bias
    rw [if_neg]
    intro hc
    have := h.notGreen e this.1 hc
    omega
  rw [h.blocks_iff F p]
  have hget : ∀ n ≤ m.number.sum.toNat, ∀ i : Fin (GGCE.blockDim (GGCE.localBasis eqs) n),
      ∃ e, (eqs.vals n)[i.val]? = some e := by
    intro n hn i
    have hi : i.val < (eqs.vals n).length := by rw [← h.blockDim hn]; exact i.isLt
    exact ⟨_, List.getElem?_eq_getElem hi⟩
  constructor
  · intro hs
    refine ⟨⟨?_, ?_⟩, ?_⟩
    · intro k _ hk
      funext i
      obtain ⟨e, he⟩ := hget (k + 1) (by omega) i
      have := hs (k + 1) (by omega) i e he
      rw [hb0 k e (List.mem_of_getElem? he) (by omega), if_pos (by omega), zero_add] at this
      exact this
    · funext i
      have hle : 0 + (m.number.sum.toNat - 1) + 1 ≤ m.number.sum.toNat := by omega
      obtain ⟨e, he⟩ := hget _ hle i
      have := hs _ hle i e he
      rw [hb0 _ e (List.mem_of_getElem? he) hle, if_neg (by omega)] at this
      rw [this]
      show 0 + (alphaM F m p eqs (0 + (m.number.sum.toNat - 1))).mulVec _ i + 0 = _
      simp
    · have := hs 0 (by omega) h.i0 g (by rw [hv]; rfl)
      rw [hbg, if_pos (by omega)] at this
      simpa [below] using this
  · rintro ⟨⟨h1, h2⟩, h3⟩ n hn i ei hi
    match n, i, hi with
    | 0, i, hi =>
      rw [h.eq_i0 i] at hi ⊢
      rw [hv] at hi
      have : ei = g := by simpa [Ready.i0] using hi.symm
      subst this
      rw [hbg, if_pos (by omega), h3]
      simp [below]
    | n + 1, i, hi =>
      rw [hb0 n ei (List.mem_of_getElem? hi) hn]
      by_cases hlt : n + 1 < m.number.sum.toNat
      · rw [if_pos hlt, zero_add, h1 n (by omega) (by omega)]
        rfl
      · rw [if_neg hlt, zero_add, add_zero]
        have hn' : n = 0 + (m.number.sum.toNat - 1) := by omega
        subst hn'
        rw [h2]
        rfl

theorem Ready.mulVec_i0 (h : Ready m eqs) {r : Nat}
    (M : Matrix (Fin r) (Fin (GGCE.blockDim (GGCE.localBasis eqs) 0)) K)
    (v : Fin (GGCE.blockDim (GGCE.localBasis eqs) 0) → K) (i : Fin r) :
    M.mulVec v i = M i h.i0 * v h.i0 := by
  rw [Matrix.mulVec, dotProduct, Finset.sum_eq_single h.i0]
  · intro b _ hb; exact absurd (h.eq_i0 b) hb
  · simp

theorem Ready.bias_zero (h : Ready m eqs) (F : Phys R K) (p : Point R) :
    ∀ e ∈ allEqs eqs, e.config.total ≠ 0 → e.bias F m p = 0 := by
  intro e he h0
  unfold Equation.bias
  rw [if_neg]
  intro hc
  exact h0 (h.notGreen e he hc)

theorem Ready.dense_green (h : Ready m eqs) (F : Phys R K) (p : Point R)
    (hN : 1 ≤ m.number.sum.toNat) {R1} (hR : fraction (alphaM F m p eqs) (betaM F m p eqs)
      (m.number.sum.toNat - 1) 0 = .ok R1) {U : PyStr → K}
    (hU : SolvesAll (coefV F m p) (fun e => e.bias F m p) (allEqs eqs) U) :
    (1 - (betaM F m p eqs 0 * R1) h.i0 h.i0) * U "{G}[0.0]".toList =
      F.G0 p.k p.w m.latticeConstant p.eta m.ham.hopping := by
  rw [h.flip_solves (h.bias_zero F p), h.blocks F p hN] at hU
  obtain ⟨h1, h2⟩ := hU
  have h3 := fraction_unique hR h1
  rw [show unknowns eqs (flip eqs U) 1 = _ from h3, Matrix.mulVec_mulVec, h.mulVec_i0] at h2
  obtain ⟨g, hv, hg, hgr, hgid, hg0⟩ := h.vals_zero
  have h4 : unknowns eqs (flip eqs U) 0 h.i0 = U "{G}[0.0]".toList := by
    unfold unknowns flip
    rw [hv]
    simp only [Ready.i0, List.getElem?_cons_zero, Option.map_some, Option.getD_some]
    rw [h.level hg, hg0, hgid]; simp
  rw [h4] at h2
  linear_combination h2

/-- If the dense solver returns a value, the sparse equations have exactly one solution, and its
Green's function is that value. -/
theorem Ready.dense (h : Ready m eqs) (F : Phys R K) (p : Point R) (hN : 1 ≤ m.number.sum.toNat)
    {G : K} (hG : denseSolve F m p (GGCE.localBasis eqs) eqs = .ok (some G)) :
    (∃ U, SolvesAll (coefV F m p) (fun e => e.bias F m p) (allEqs eqs) U) ∧
    ∀ U, SolvesAll (coefV F m p) (fun e => e.bias F m p) (allEqs eqs) U →
      U "{G}[0.0]".toList = G ∧
      ∀ U', SolvesAll (coefV F m p) (fun e => e.bias F m p) (allEqs eqs) U' →
        ∀ e ∈ allEqs eqs, U e.id = U' e.id := by
  rw [h.denseSolve_eq F p hN] at hG
  cases hR : fraction (alphaM F m p eqs) (betaM F m p eqs) (m.number.sum.toNat - 1) 0 with
  | error e => rw [hR] at hG; cases hG
  | ok R1 =>
    rw [hR] at hG
    simp only [bind, Except.bind] at hG
    split at hG
    · cases hG
    rename_i hne
    simp only [Except.ok.injEq, Option.some.injEq] at hG
    have hgreen : ∀ U, SolvesAll (coefV F m p) (fun e => e.bias F m p) (allEqs eqs) U →
        U "{G}[0.0]".toList = G := by
      intro U hU
      have := h.dense_green F p hN hR hU
      rw [← hG, ← this, mul_div_assoc, mul_div_cancel₀ _ hne]
    constructor
    · obtain ⟨Y, k1, k2, k3⟩ := fraction_exists hR (fun _ => G)
      refine ⟨flip eqs (assemble eqs Y), ?_⟩
      rw [h.flip_solves (h.bias_zero F p), flip_flip, h.blocks F p hN]
      have hu : ∀ n ≤ m.number.sum.toNat, unknowns eqs (assemble eqs Y) n = Y n :=
        fun n hn => h.unknowns_assemble Y hn
      refine ⟨⟨?_, ?_⟩, ?_⟩
      · intro k h0 hk
        rw [hu _ (by omega), hu _ (by omega), hu _ (by omega)]
        exact k1.1 k h0 hk
      · rw [hu _ (by omega), hu _ (by omega)]
        exact k1.2
      · rw [hu _ (by omega), hu _ (by omega), k2, show Y 1 = _ from k3, Matrix.mulVec_mulVec,
          h.mulVec_i0]
        have := (div_eq_iff hne).1 hG
        rw [this]
        ring
    · intro U hU
      refine ⟨hgreen U hU, fun U' hU' e he => ?_⟩
      have hU1 := hU
      have hU1' := hU'
      rw [h.flip_solves (h.bias_zero F p), h.blocks F p hN] at hU hU'
      have h0 : unknowns eqs (flip eqs U) 0 = unknowns eqs (flip eqs U') 0 := by
        obtain ⟨g, hv, hg, hgr, hgid, hg0⟩ := h.vals_zero
        funext i
        rw [h.eq_i0 i]
        unfold unknowns flip
        rw [hv]
        simp only [Ready.i0, List.getElem?_cons_zero, Option.map_some, Option.getD_some]
        rw [hgid, hgreen U hU1, hgreen U' hU1']
      obtain ⟨n, hn, htot⟩ := h.total_le he
      have h1 := fraction_determined hR hU.1 hU'.1 h0 n (Nat.zero_le _) (by omega)
      have hv := (h.mem_vals hn).2 ⟨he, htot⟩
      have hg := h.get_lix hn hv
      have hlt : lixOf eqs n e.id < GGCE.blockDim (GGCE.localBasis eqs) n := by
        rw [h.blockDim hn]; exact (List.getElem?_eq_some_iff.1 hg).1
      have h2 := congrFun h1 ⟨_, hlt⟩
      simp only [unknowns, hg, Option.map_some, Option.getD_some, flip] at h2
      have hs : ((-1 : K) ^ levelOf eqs e.id) ≠ 0 := pow_ne_zero _ (by simp)
      exact mul_left_cancel₀ hs h2

end GGCE
