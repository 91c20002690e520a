import Mathlib.Analysis.Real.Sqrt
import Mathlib.Data.Sym.Sym2
/-
Specification of what the plots show: independent of the model.
-/
namespace SBayes.Plot

/-- The share of the samples with property `p`. -/
noncomputable def share {α : Type*} (samples : List α) (p : α → Bool) : ℝ :=
  ((samples.filter p).length : ℝ) / (samples.length : ℝ)

/-- The squared distance of two points in the plane. -/
def sqDist (a b : ℝ × ℝ) : ℝ := (a.1 - b.1) ^ 2 + (a.2 - b.2) ^ 2

/-- `a b` is an edge of the Gabriel graph of the points: none of them lies inside the circle with diameter `a b`. -/
def IsGabriel (points : List (ℝ × ℝ)) (a b : ℝ × ℝ) : Prop :=
  ∀ c ∈ points, sqDist a b / 4 ≤ sqDist c ((a.1 + b.1) / 2, (a.2 + b.2) / 2)

/-- As `IsGabriel`, but points within a thousandth of the radius inside the circle are tolerated. -/
def IsAlmostGabriel (points : List (ℝ × ℝ)) (a b : ℝ × ℝ) : Prop :=
  ∀ c ∈ points, (999 / 1000) ^ 2 * (sqDist a b / 4) ≤ sqDist c ((a.1 + b.1) / 2, (a.2 + b.2) / 2)

/-- The samples that are left when the first `b` (a fraction, rounded down) are discarded. -/
noncomputable def afterBurnIn {α : Type*} (logged : List α) (b : ℝ) : List α :=
  logged.drop ⌊b * (logged.length : ℝ)⌋₊

end SBayes.Plot
