import Verif.Model.Fits

/-! Least squares, as the documentation of `scipy.optimize.curve_fit` describes it. -/

namespace GGCE.Spec

/-- the sum of the squared deviations of a curve from the points; `none` if the curve is undefined at one of them -/
noncomputable def squares (f : ℝ → Option ℝ) : List (ℝ × ℝ) → Option ℝ
  | [] => some 0
  | q :: l => do
    let y ← f q.1
    let r ← squares f l
    pure ((y - q.2) ^ 2 + r)

/-- `p` gives the smallest sum of squares -/
def Minimises (f : ℝ → Peak → Option ℝ) (l : List (ℝ × ℝ)) (p : Peak) : Prop :=
  ∃ s, squares (fun x => f x p) l = some s ∧ ∀ p' s', squares (fun x => f x p') l = some s' → s ≤ s'

/-- What the documentation of `curve_fit` says: it wants as many values as abscissae and at least as many of them as
parameters (here three; otherwise it raises), and the parameters it returns minimise the sum of squares. In reality the
minimum it finds may be a local one. -/
def LeastSquares (cf : CurveFit) : Prop :=
  ∀ f xs ys p0, (xs.length ≠ ys.length → ∃ e, cf f xs ys p0 = .error e) ∧
    (xs.length < 3 → ∃ e, cf f xs ys p0 = .error e) ∧
    ∀ p, cf f xs ys p0 = .ok p → Minimises f (xs.zip ys) p

/-- the value at `w` of a Lorentzian with weight `Z` and half width `eta` at half maximum, centred at `E` -/
noncomputable def Lorentz (E Z eta w : ℝ) : ℝ := Z * (eta / Real.pi) / ((w - E) ^ 2 + eta ^ 2)

end GGCE.Spec
