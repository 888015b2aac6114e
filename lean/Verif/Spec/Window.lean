import Verif.Spec.Residual

/-! The range of frequencies within which a model can have spectral weight. -/

namespace GGCE.Spec

/-- `-2 |t| - V + Σ_t min(0, Ω_t) N_t` with `V = Σ_h |g_h| √N_h` -/
noncomputable def bandBottom (m : Model ℝ) : ℝ :=
  -(2 * |m.ham.hopping|) - interaction m +
    ∑ t ∈ Finset.range m.nTypes, min 0 (m.ham.freqs.getD t 0) * maxNumber m t

/-- `2 |t| + V + Σ_t max(0, Ω_t) N_t` with `V = Σ_h |g_h| √N_h` -/
noncomputable def bandTop (m : Model ℝ) : ℝ :=
  2 * |m.ham.hopping| + interaction m + ∑ t ∈ Finset.range m.nTypes, max 0 (m.ham.freqs.getD t 0) * maxNumber m t

end GGCE.Spec
