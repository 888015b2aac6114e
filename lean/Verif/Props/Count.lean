import Verif.Proofs.Count
import Verif.Props.System

/-! Property theorem C11. -/

namespace GGCE.Props
open GGCE Spec

set_option linter.unusedSectionVars false
variable {R : Type} [Field R] [LinearOrder R]

/-- C11: with one phonon type, no per-site cap and the default absolute extent, the number of clouds
generated for a model equals the analytic count, for every extent and number limit. -/
theorem C11_count (m : Model R) (M N : Int) (hdim : m.ham.dimension ≤ 1) (htypes : m.nTypes = 1)
    (hM : m.extent = [M]) (hN : m.number = [N]) (hcap : m.maxPerSite = none)
    (habs : m.absExtentOpt = none) :
    ∃ confs, generateAll m = .ok confs ∧
      totalGeneralized [M] [N] 1 = .ok (confs.map (fun kv => kv.2.length)).sum := by
  have := count_generateAll hdim htypes hM hN hcap habs
  rwa [hM, hN, htypes] at this

/-- the binomial coefficients in the count: how many sets of `k` out of `n` things there are -/
theorem C11_comb (n k : Int) : (0 ≤ n → 0 ≤ k →
      combExact n k = ((Finset.range n.toNat).powersetCard k.toNat).card) ∧ (n < 0 ∨ k < 0 → combExact n k = 0) := by
  unfold combExact
  constructor
  · intro h1 h2
    rw [Finset.card_powersetCard, Finset.card_range]
    split
    · rename_i h
      rw [Nat.choose_eq_zero_of_lt (by omega)]
    · rfl
  · intro h
    rw [if_pos (by omega)]

/-- The hypotheses hold for `exModel`, where the count is 3: one phonon, two phonons on one site,
two phonons on two sites. -/
example : ∃ confs, generateAll exModel = .ok confs ∧
    totalGeneralized [2] [2] 1 = .ok (confs.map (fun kv => kv.2.length)).sum :=
  C11_count exModel 2 2 (by decide) rfl rfl rfl rfl rfl

example : totalGeneralized [2] [2] 1 = .ok 3 := by decide

/-- extent 3 and 9 phonons: the tutorial notebook reports 166 generalized equations, these clouds
and the Green's function -/
example : totalGeneralized [3] [9] 1 = .ok 165 := by decide +kernel

end GGCE.Props
