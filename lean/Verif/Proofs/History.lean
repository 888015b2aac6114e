import Verif.Proofs.AddRemove

/-! Histories of modifications of one configuration. -/

namespace GGCE
open Spec Arr

/-- a call on a `Config` -/
inductive Op where
  | add (t x : Int)
  | remove (t x : Int)
  deriving DecidableEq, Repr

/-- one call -/
def Op.run : Op → Config → Py (Config × Int)
  | .add t x, c => c.addPhonon t x
  | .remove t x, c => c.removePhonon t x

/-- a sequence of calls on the same object, stopping at the first failure -/
def runOps : List Op → Config → Py Config
  | [], c => .ok c
  | op :: ops, c =>
    match op.run c with
    | .ok (c', _) => runOps ops c'
    | .error e => .error e

/-- a cloud is determined by its chain up to translation, and its translation is determined -/
theorem cloud_unique {a b : Arr} (ha : Cloud a) (hb : Cloud b) (hn : a.nTypes = b.nTypes) {d : Int}
    (h : ∀ t y, chain b t (y + d) = chain a t y) : d = 0 ∧ a = b := by
  obtain ⟨t1, h1⟩ := Cloud.left' ha
  obtain ⟨t2, h2⟩ := Cloud.left' hb
  obtain ⟨t3, h3⟩ := Cloud.right' ha
  obtain ⟨t4, h4⟩ := Cloud.right' hb
  have pa := ha.pos
  have pb := hb.pos
  have inA : ∀ t y, chain a t y ≠ 0 → 0 ≤ y ∧ y < a.len := by
    intro t y hy
    rw [chain_eq] at hy
    split at hy
    · refine ⟨by assumption, ?_⟩
      by_contra hc; exact hy (ha.wf.get_oob _ (by omega))
    · exact absurd rfl hy
  have inB : ∀ t y, chain b t y ≠ 0 → 0 ≤ y ∧ y < b.len := by
    intro t y hy
    rw [chain_eq] at hy
    split at hy
    · refine ⟨by assumption, ?_⟩
      by_contra hc; exact hy (hb.wf.get_oob _ (by omega))
    · exact absurd rfl hy
  have hd : d = 0 := by
    have e1 := inB t1 (0 + d) (by rw [h, show (0:Int) = ((0:Nat):Int) from rfl, get_eq_chain]; exact h1)
    have e2 := inA t2 (0 - d) (by
      rw [← h, show (0 - d + d : Int) = ((0:Nat):Int) by omega, get_eq_chain]; exact h2)
    omega
  subst hd
  simp only [Int.add_zero] at h
  have hl : a.len = b.len := by
    have e1 := inB t3 ((a.len - 1 : Nat) : Int) (by rw [h, get_eq_chain]; exact h3)
    have e2 := inA t4 ((b.len - 1 : Nat) : Int) (by rw [← h, get_eq_chain]; exact h4)
    omega
  refine ⟨rfl, ext_get ha.wf hb.wf hn hl ?_⟩
  intro t x
  have := h t (x : Int)
  rw [get_eq_chain, get_eq_chain] at this
  exact this.symm

theorem get_of_chain {a : Arr} {t x : Nat} : a.get t x = chain a t (x : Int) := (get_eq_chain a t x).symm

/-- adding a phonon to a cloud, or to the one-site vacuum at its site, gives a cloud -/
theorem add_cloud {c c' : Config} {t : Nat} {x s : Int}
    (hc : Cloud c.arr ∨ (Vacuum c.arr ∧ x = 0)) (ht : t < c.arr.nTypes)
    (h : c.addPhonon t x = .ok (c', s)) : Cloud c'.arr := by
  have hwf : c.arr.WF := by rcases hc with h | h; exacts [h.wf, h.1.wf]
  have hm : c.mods < c.maxMods := by
    by_contra hc
    rw [Config.addPhonon, if_pos (by omega)] at h
    cases h
  obtain ⟨c'', s', e, w1, w2, -, -, w5, w6, w7⟩ := Config.addPhonon_spec hwf hm ht x
  rw [h] at e
  simp only [Except.ok.injEq, Prod.mk.injEq] at e
  obtain ⟨rfl, rfl⟩ := e
  have hnn : ∀ t' y, 0 ≤ chain c.arr t' y := by
    intro t' y
    rcases hc with hc | hc
    · rw [chain_eq]; split
      · exact Proper.get_nonneg hc.toProper _ _
      · exact le_refl _
    · rw [hc.1.empty]
  have hnn' : ∀ t' y, 0 ≤ chain c'.arr t' y := by
    intro t' y
    have := w7 t' (y - s)
    rw [show y - s + s = y by omega] at this
    have h2 := hnn t' (y - s)
    rw [this]; split <;> omega
  have hp : Proper c'.arr := proper_of_get w1 (fun t x => by rw [get_of_chain]; exact hnn' _ _)
  have hlpos : 0 < c'.arr.len := by omega
  have hocc : ∀ y, (∃ t', chain c.arr t' y ≠ 0) ∨ y = x → ∃ t', chain c'.arr t' (y + s) ≠ 0 := by
    rintro y (⟨t', h'⟩ | rfl)
    · refine ⟨t', ?_⟩
      rw [w7]
      have := hnn t' y
      split <;> omega
    · refine ⟨t, ?_⟩
      rw [w7]
      have := hnn t y
      simp; omega
  have hlen : 0 < c.arr.len := by rcases hc with h | h; exacts [h.pos, by rw [h.1.len]; omega]
  refine ⟨hp, hlpos, ?_, ?_⟩
  · -- left edge
    by_cases hx : x ≤ 0
    · obtain ⟨t', h'⟩ := hocc x (Or.inr rfl)
      exact ⟨t', by rwa [show x + s = 0 by omega] at h'⟩
    · rcases hc with hc | hc
      · obtain ⟨t', h'⟩ := hocc 0 (Or.inl hc.left)
        exact ⟨t', by rwa [show 0 + s = 0 by omega] at h'⟩
      · omega
  · by_cases hx : (c.arr.len : Int) - 1 ≤ x
    · obtain ⟨t', h'⟩ := hocc x (Or.inr rfl)
      exact ⟨t', by rwa [show ((c'.arr.len : Int) - 1) = x + s by omega]⟩
    · rcases hc with hc | hc
      · obtain ⟨t', h'⟩ := hocc (c.arr.len - 1) (Or.inl hc.right)
        exact ⟨t', by rwa [show ((c'.arr.len : Int) - 1) = c.arr.len - 1 + s by omega]⟩
      · have := hc.1.len
        omega

theorem npIndex_some {n : Nat} {i : Int} {j : Nat} (h : npIndex n i = some j) :
    j < n ∧ (i = j ∨ i + n = j) := by
  unfold npIndex at h
  split at h
  · simp only [Option.some.injEq] at h; omega
  · split at h
    · simp only [Option.some.injEq] at h; omega
    · simp at h

theorem removePhonon_npIndex {c : Config} {t x : Int} {t' x' : Nat}
    (ht : npIndex c.arr.nTypes t = some t') (hx : npIndex c.arr.len x = some x') :
    c.removePhonon t x = c.removePhonon (t' : Int) (x' : Int) := by
  have h1 := Config.npIndex_nat (npIndex_some ht).1
  have h2 := Config.npIndex_nat (npIndex_some hx).1
  simp only [Config.removePhonon, ht, hx, h1, h2]

/-- if a removal succeeds, the addressed (possibly wrapped) site was occupied -/
theorem remove_ok_inv {c : Config} {t x : Int} {r : Config × Int} (hwf : c.arr.WF)
    (h : c.removePhonon t x = .ok r) :
    c.mods < c.maxMods ∧ ∃ t' x', npIndex c.arr.nTypes t = some t' ∧ npIndex c.arr.len x = some x' ∧
      1 ≤ c.arr.get t' x' := by
  unfold Config.removePhonon at h
  split at h
  · cases h
  · refine ⟨by omega, ?_⟩
    split at h
    · rename_i t' x' ht hx
      refine ⟨t', x', ht, hx, ?_⟩
      simp only at h
      split at h
      · cases h
      · rename_i hg
        rw [get_bump hwf (npIndex_some ht).1 (npIndex_some hx).1] at hg
        simp only [and_self, if_true] at hg
        omega
    · cases h

theorem add_ok_inv {c : Config} {t x : Int} {r : Config × Int}
    (h : c.addPhonon t x = .ok r) :
    c.mods < c.maxMods ∧ 0 ≤ t ∧ t < c.arr.nTypes := by
  unfold Config.addPhonon at h
  split at h
  · cases h
  · split at h
    · cases h
    · omega

theorem op_mods {op : Op} {c c' : Config} {s : Int} (h : op.run c = .ok (c', s)) :
    c.mods < c.maxMods ∧ c'.mods = c.mods + 1 ∧ c'.maxMods = c.maxMods := by
  cases op with
  | add t x =>
    simp only [Op.run, Config.addPhonon] at h
    split at h
    · cases h
    · rename_i hm
      split at h
      · cases h
      · split at h
        · simp only [Except.ok.injEq, Prod.mk.injEq] at h
          obtain ⟨rfl, -⟩ := h
          exact ⟨by omega, rfl, rfl⟩
        · simp only [Except.ok.injEq, Prod.mk.injEq] at h
          obtain ⟨rfl, -⟩ := h
          exact ⟨by omega, rfl, rfl⟩
  | remove t x =>
    simp only [Op.run, Config.removePhonon] at h
    split at h
    · cases h
    · rename_i hm
      split at h
      · split at h
        · cases h
        · cases hr : (c.arr.bump _ _ (-1)).reduce with
          | error e => rw [hr] at h; cases h
          | ok p =>
            rw [hr] at h
            simp only [bind, Except.bind, pure, Except.pure, Except.ok.injEq, Prod.mk.injEq] at h
            obtain ⟨rfl, -⟩ := h
            exact ⟨by omega, rfl, rfl⟩
      · cases h

/-- one call keeps a configuration canonical, except for adding outside the vacuum -/
theorem op_canonical {op : Op} {c c' : Config} {s : Int}
    (hc : Cloud c.arr ∨ Vacuum c.arr) (h : op.run c = .ok (c', s))
    (hv : Vacuum c.arr → ∀ t x, op = .add t x → x = 0) : Cloud c'.arr ∨ Vacuum c'.arr := by
  cases op with
  | add t x =>
    obtain ⟨hm, h0, h1⟩ := add_ok_inv h
    obtain ⟨n, rfl⟩ := Int.eq_ofNat_of_zero_le h0
    refine Or.inl (add_cloud ?_ (by omega) h)
    rcases hc with hc | hc
    · exact Or.inl hc
    · exact Or.inr ⟨hc, hv hc _ _ rfl⟩
  | remove t x =>
    have hwf : c.arr.WF := by rcases hc with h | h; exacts [h.wf, h.wf]
    obtain ⟨hm, t', x', ht, hx, hg⟩ := remove_ok_inv hwf h
    rcases hc with hc | hc
    · obtain ⟨c'', s', e, w1, -⟩ := Config.removePhonon_spec hc hm hg
      simp only [Op.run] at h
      rw [removePhonon_npIndex ht hx, e] at h
      simp only [Except.ok.injEq, Prod.mk.injEq] at h
      obtain ⟨rfl, -⟩ := h
      exact w1
    · rw [get_of_chain, hc.empty] at hg
      omega

end GGCE
