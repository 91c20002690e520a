import Mathlib.Data.Real.Basic
import Mathlib.Data.Finset.Sort
import Mathlib.Data.Fintype.BigOperators
import Mathlib.Algebra.Field.Rat
import Mathlib.Data.Int.Log
import Mathlib.Data.List.Sort
/-
Model of small helpers of sbayes/util.py: n_smallest_distances (181-216), linear_rescale (810-822), round_single_int
(825-883), round_multiple_ints (886-906), round_int (909-943), normalize (984-1002), mle_weights (1005-1014), assign_na
(1017-1035), get_max_size_list (1079-1096), and of bounding_box (85-100).

Floating point numbers are real numbers. Python's `//` and `%` on integers are `Int`'s floor division (`/` of Lean for a
positive divisor). A raised exception is `none`.
-/
namespace SBayes.Util
open scoped BigOperators

/-! ### Arrays -/

/-- `normalize(x, axis=-1)`, util.py:984-1002, for an array with one index `α` for all leading axes. -/
noncomputable def normalize {α β : Type} [Fintype β] (x : α → β → ℝ) : α → β → ℝ :=
  fun a b => x a b / ∑ c, x a c

/-- `normalize(x, axis=0)` for a two-dimensional array. -/
noncomputable def normalize0 {α β : Type} [Fintype α] (x : α → β → ℝ) : α → β → ℝ :=
  fun a b => x a b / ∑ c, x c b

/-- `mle_weights(samples)`, util.py:1005-1014, for `n` samples in binary encoding. -/
noncomputable def mleWeights {n : ℕ} {β : Type} [Fintype β] (samples : Fin n → β → Bool) : β → ℝ :=
  fun b => (∑ i, if samples i b then (1 : ℝ) else 0) / ∑ c, ∑ i, if samples i c then (1 : ℝ) else 0

/-- `assign_na(features, n_na)`, util.py:1017-1035: the drawn (site, feature) pairs one after the other. -/
def assignNa {N F S : ℕ} (features : Fin N → Fin F → Fin S → Bool) : List (Fin N × Fin F) → Fin N → Fin F → Fin S → Bool
  | [] => features
  | (site, feat) :: rest =>
    assignNa (fun n f s => if n = site ∧ f = feat then false else features n f s) rest

/-! ### Ranges and rounding -/

/-- `linear_rescale(value, old_min, old_max, new_min, new_max)`, util.py:810-822. -/
noncomputable def linearRescale (value oldMin oldMax newMin newMax : ℝ) : ℝ :=
  (newMax - newMin) / (oldMax - oldMin) * (value - oldMax) + oldMax

/-- The modes of the rounding functions. Any other mode string raises (round_single_int) or is treated like 'down'
below zero and raises above (round_int); not modelled. -/
inductive Mode | up | down
deriving DecidableEq

/-- `len(str(m))` for a natural number. -/
def nDigitsNat (m : ℕ) : ℕ := (Nat.toDigits 10 m).length

/-- `len(str(n))` for an integer: the sign counts. -/
def lenStr (n : ℤ) : ℕ := if n < 0 then nDigitsNat n.natAbs + 1 else nDigitsNat n.natAbs

/-- util.py:853: `len(str(n)) if n > 0 else len(str(n)) - 1`. -/
def nDigits (n : ℤ) : ℕ := if n > 0 then lenStr n else lenStr n - 1

/-- `round_single_int(n, mode, position, offset)`, util.py:825-883, for an integer `n`. -/
def roundSingleInt (n : ℤ) (mode : Mode) (position offset : ℤ) : Option ℤ :=
  let d := nDigits n
  if position > d then none
  else if d = 1 then some (if mode = .down then n - offset else n + offset)
  else if d = 2 then
    if position = 1 then
      let base := n / 10 * 10
      some (if mode = .down then base - offset * 10 else base + (offset + 1) * 10)
    else if position = 2 then some (if mode = .down then n - offset else n + offset)
    else none
  else if ¬ position = d then
    let factor : ℤ := 10 ^ (d - position).toNat
    let base := n / factor * factor
    some (if mode = .down then base - offset * factor else base + (offset + 1) * factor)
  else some (if mode = .down then n - offset else n + offset)

/-- The minimum of a non-empty list, `np.min`. -/
def minInt : List ℤ → Option ℤ
  | [] => none
  | x :: xs => some (xs.foldl min x)

/-- `round_multiple_ints(ups, downs, position, offset)`, util.py:886-906. -/
def roundMultipleInts (ups downs : List ℤ) (position offset : ℤ) : Option (List ℤ × List ℤ) := do
  let m ← minInt (ups ++ downs)
  let fewest : ℤ := lenStr m
  let u ← ups.mapM (fun n => roundSingleInt n .up (position + lenStr n - fewest) offset)
  let d ← downs.mapM (fun n => roundSingleInt n .down (position + lenStr n - fewest) offset)
  return (u, d)

/-- util.py:923: the power of ten of the first digit of `offset` (not negative). -/
def convertor (offset : ℕ) : ℤ := 10 ^ (nDigitsNat offset - 1)

/-- `round_int` for `n ≥ 0`, util.py:925-936. The first branch: for mode 'up' the value is computed and then
`if mode == 'down': ... else: raise` raises. -/
def roundIntNonneg (n : ℤ) (mode : Mode) (offset : ℕ) : Option ℤ :=
  if n > offset then
    match mode with
    | .up => none
    | .down => some (n / convertor offset * convertor offset - offset)
  else some (if mode = .up then offset + convertor offset else -offset)

/-- `round_int(n, mode, offset)`, util.py:909-943, for an integer `n` and `offset ≥ 0` (`n / convertor` is computed in
floating point there, here exactly). -/
def roundInt (n : ℤ) (mode : Mode) (offset : ℕ) : Option ℤ :=
  if n ≥ 0 then roundIntNonneg n mode offset
  else (roundIntNonneg n.natAbs (if mode = .down then .up else .down) offset).map (fun r => -r)

/-- `get_max_size_list(start, end, n_total, k_groups)`, util.py:1079-1096. `np.linspace(..., endpoint=False, dtype=int)`
takes the floor of `start + i * (end - start) / k`. -/
def maxSizeList (start stop : ℤ) (nTotal kGroups : ℕ) : List ℤ :=
  let nPerGroup := (nTotal + kGroups - 1) / kGroups
  let maxSizes := (List.range kGroups).map (fun i : ℕ => start + (i : ℤ) * (stop - start) / (kGroups : ℤ))
  (maxSizes.flatMap (fun m => List.replicate nPerGroup m)).take nTotal

/-! ### Distances -/

/-- `n_smallest_distances(a, n, return_idx=False)`, util.py:208-210: the lower triangle with its zeros removed, sorted,
the first `n`. -/
noncomputable def nSmallest {m : ℕ} (a : Fin m → Fin m → ℝ) (n : ℕ) : List ℝ :=
  ((((List.finRange m).flatMap (fun i => (List.finRange m).map (fun j => if j ≤ i then a i j else 0))).filter
    (fun x => x ≠ 0)).mergeSort (fun x y => x ≤ y)).take n

open Classical in
/-- `n_smallest_distances(a, n, return_idx=True)`, util.py:208-214: the positions of the lower triangle (`np.tril`, zeros
above) whose value is in that list. -/
noncomputable def nSmallestIdx {m : ℕ} (a : Fin m → Fin m → ℝ) (n : ℕ) : List (Fin m × Fin m) :=
  (((List.finRange m).flatMap (fun i => (List.finRange m).map (fun j => (i, j)))).filter
    (fun p => (if p.2 ≤ p.1 then a p.1 p.2 else 0) ∈ nSmallest a n))

/-- `bounding_box(points)`, util.py:85-100, as (x_max, y_max, x_min, y_min). -/
noncomputable def boundingBox : List (ℝ × ℝ) → Option (ℝ × ℝ × ℝ × ℝ)
  | [] => none
  | p :: ps => some ((ps.map Prod.fst).foldl max p.1, (ps.map Prod.snd).foldl max p.2,
      (ps.map Prod.fst).foldl min p.1, (ps.map Prod.snd).foldl min p.2)

end SBayes.Util
