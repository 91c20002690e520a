import Mathlib.Data.Real.Basic
import Mathlib.Algebra.Order.Group.Abs
/- IEEE 754 doubles, used in the statements about the cluster operators in floating point. -/
namespace SBayes.Double

/-- A finite double: a 53 bit integer times a power of two that is at least 2^-1074 (subnormal numbers
included). There is no largest number: overflow is not modelled. -/
def IsDouble (x : ℝ) : Prop := ∃ m e : ℤ, |m| < 2 ^ 53 ∧ -1074 ≤ e ∧ x = m * (2:ℝ) ^ e

/-- A rounding to nearest: every real number is rounded to a double that no double is nearer to. How ties
are broken is left open (IEEE: to even). -/
structure Rounding where
  fl : ℝ → ℝ
  isDouble : ∀ x, IsDouble (fl x)
  nearest : ∀ x y, IsDouble y → |x - fl x| ≤ |x - y|

end SBayes.Double
