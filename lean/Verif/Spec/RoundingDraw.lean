import Mathlib.Data.Real.Basic
import Mathlib.Algebra.Order.Group.Abs
/- Doubles: specification used in the statements about draws from rounded distributions. -/
namespace SBayes.Rounding

/-- A finite double, without the restriction on the exponent: a 53 bit integer times a power of two. -/
def IsDouble (x : ℝ) : Prop := ∃ m e : ℤ, |m| < 2 ^ 53 ∧ x = m * (2:ℝ) ^ e

/-- `r` is a double nearest to `x` (the result of an operation with exact value `x`). -/
def Nearest (x r : ℝ) : Prop := IsDouble r ∧ ∀ y, IsDouble y → |x - r| ≤ |x - y|

end SBayes.Rounding
