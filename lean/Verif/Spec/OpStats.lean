import Verif.Model.OpStats
import Mathlib.Algebra.Order.Ring.Rat
/- How a reader takes the operator statistics file apart. -/
namespace SBayes.Log

/-- The text without blanks at its end. -/
def stripRight (s : Str) : Str := (s.reverse.dropWhile (fun ch => ch = ' ')).reverse

/-- The cells of a table: complete lines, separated by tabs, without padding. -/
def cells (text : Str) : List (List Str) :=
  (text.splitOn '\n').dropLast.map fun l => (l.splitOn '\t').map stripRight

/-- A name that survives: no tab, no line break, no blank at the end. -/
def CleanName (s : Str) : Prop := '\t' ∉ s ∧ '\n' ∉ s ∧ s.getLast? ≠ some ' '

/-- `s` is the decimal number with two digits after the point that is nearest to `100 · a / t`, with a per cent sign. -/
def RateText (s : Str) (a t : ℕ) : Prop :=
  ∃ i d₁ d₂ : ℕ, d₁ < 10 ∧ d₂ < 10 ∧
    s = Nat.toDigits 10 i ++ ['.'] ++ Nat.toDigits 10 d₁ ++ Nat.toDigits 10 d₂ ++ ['%'] ∧
    |((i : ℚ) + d₁ / 10 + d₂ / 100) - 100 * a / t| ≤ 1 / 200

/-- The cells that belong to an operator: name, accepts, rejects, their sum and the rate, or dashes if it was never used. -/
def RowOf (o : OpCount) (row : List Str) : Prop :=
  if o.accepts + o.rejects = 0 then row = [o.name, ['-'], ['-'], ['-'], ['-']]
  else ∃ rate, RateText rate o.accepts (o.accepts + o.rejects) ∧
    row = [o.name, Nat.toDigits 10 o.accepts, Nat.toDigits 10 o.rejects, Nat.toDigits 10 (o.accepts + o.rejects), rate]

end SBayes.Log
