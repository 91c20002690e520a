import Verif.Model.Rounding
/- Specifications used in the statements about rounding errors. -/
namespace SBayes.Rounding

/-- `y` is `x` up to `k` relative errors of size `u`: `(1-u)^k ≤ y/x ≤ (1-u)^(-k)` (for `x, y ≥ 0`). -/
def Within (u : ℝ) (k : ℕ) (x y : ℝ) : Prop :=
  0 ≤ x ∧ 0 ≤ y ∧ x * (1 - u) ^ k ≤ y ∧ y * (1 - u) ^ k ≤ x

/-- Bound on the error of a sum of `n` logarithms of probabilities with exact value `L`, if the
probabilities carry `k` relative errors `u` each: they shift the logarithms by at most `k·(-log(1-u))`,
each logarithm has relative error `v` and the additions have relative error `u`. -/
noncomputable def errorBound (u v : ℝ) (n k : ℕ) (L : ℝ) : ℝ :=
  ((1 + u) ^ (n - 1) * (1 + v) - 1) * (|L| + n * (k * -Real.log (1 - u))) + n * (k * -Real.log (1 - u))

end SBayes.Rounding
