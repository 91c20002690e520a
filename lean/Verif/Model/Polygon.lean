import Verif.Model.Log
import Mathlib.Analysis.SpecialFunctions.Trigonometric.Basic
import Mathlib.Analysis.Convex.Combination
/-
Model of the plots of weights and preferences, sbayes/plot.py: `get_corner_points` (956-961, with its cache), `fill_outside` (964-1002),
`plot_weight` (1084-1157) and `plot_preference` (1160-1252) with more than two states. What is modelled is where the samples, the mean,
the labels, the outline and the white areas are; not how the density is estimated, nor the style. Real numbers instead of floats.
-/
namespace SBayes.Simplex
open scoped BigOperators

abbrev Str := SBayes.Log.Str
/-- A point of the figure. -/
abbrev Pt := ℝ × ℝ

/-- `get_corner_points`, plot.py:958-961: corner `j` of `n`. -/
noncomputable def unitCorner (n j : ℕ) : Pt :=
  (Real.cos (2 * Real.pi * j / n + Real.pi / 2), Real.sin (2 * Real.pi * j / n + Real.pi / 2))

/-- The arrays in the cache of `get_corner_points` (`lru_cache`, plot.py:957), for each `n` of an earlier call. A call returns the array
itself, not a copy. (The cache has place for 128 arrays, and is not emptied here.) -/
abbrev Cache := ℕ → Option (ℕ → Pt)

/-- The array that `get_corner_points(n)` returns. -/
noncomputable def getCorners (cache : Cache) (n : ℕ) : ℕ → Pt := (cache n).getD (unitCorner n)

/-- `samples.dot(corners)` for one sample, plot.py:1119, 1217. -/
noncomputable def project {n : ℕ} (corners : ℕ → Pt) (w : Fin n → ℝ) : Pt := ∑ i : Fin n, w i • corners i

/-- `np.mean(samples, axis=0)`. -/
noncomputable def meanSample {n : ℕ} (samples : List (Fin n → ℝ)) : Fin n → ℝ := fun i =>
  (samples.map fun w => w i).sum / samples.length

/-- What a plot shows: the corners of the outline (in order), the samples, the mean, the labels, the limits of the axes. -/
structure Picture where
  corners : List Pt
  points : List Pt
  mean : Option Pt
  labels : List (Pt × Str)
  xlim : ℝ × ℝ
  ylim : ℝ × ℝ

/-- `np.min` and `np.max` of one coordinate of the corners, with a margin of 0.1 (plot.py:1115-1116, 1155-1156; 1213-1214, 1250-1251). -/
noncomputable def limits (n : ℕ) (f : ℕ → ℝ) : ℝ × ℝ := ((⨅ i : Fin n, f i) - 1 / 10, (⨆ i : Fin n, f i) + 1 / 10)

/-- A call of `plot_weight` or `plot_preference`: the samples, the texts of the labels, whether labels are added. -/
inductive Call
  | weight (n : ℕ) (samples : List (Fin n → ℝ)) (names : List Str) (addLabels : Bool)
  | preference (n : ℕ) (samples : List (Fin n → ℝ)) (names : List Str) (addLabels : Bool)

/-- `plot_weight`, plot.py:1109-1157, with `mean_weights=True`. `fill_outside` raises if there are not more than two corners. -/
noncomputable def plotWeight (cache : Cache) (n : ℕ) (samples : List (Fin n → ℝ)) (names : List Str) (addLabels : Bool) :
    Cache × Option Picture :=
  let c := getCorners cache n
  (Function.update cache n (some c),
    if n ≤ 2 then none
    else some
      { corners := (List.range n).map c
        points := samples.map (project c)
        mean := some (project c (meanSample samples))
        labels := if addLabels then ((List.range n).map fun j => (23 / 20 : ℝ) • c j - (1 / 20, 1 / 20)).zip names else []
        xlim := limits n fun j => (c j).1
        ylim := limits n fun j => (c j).2 })

/-- `plot_preference` with `n > 2` states, plot.py:1208-1252. In line 1236, `xy *= 1.2` changes the rows of the array in the cache. The
other branches (n = 2: a density on a line; n < 2: nothing) do not use the corners. -/
noncomputable def plotPreference (cache : Cache) (n : ℕ) (samples : List (Fin n → ℝ)) (names : List Str) (addLabels : Bool) :
    Cache × Option Picture :=
  if n ≤ 2 then (cache, none)
  else
    let c := getCorners cache n
    let c' : ℕ → Pt := fun j => if addLabels ∧ j < min n names.length then (6 / 5 : ℝ) • c j else c j
    (Function.update cache n (some c'),
      some
        { corners := (List.range n).map c
          points := samples.map (project c)
          mean := none
          labels := if addLabels then ((List.range n).map c').zip names else []
          xlim := limits n fun j => (c j).1
          ylim := limits n fun j => (c j).2 })

/-- One plot. -/
noncomputable def plot (cache : Cache) : Call → Cache × Option Picture
  | .weight n samples names l => plotWeight cache n samples names l
  | .preference n samples names l => plotPreference cache n samples names l

/-- The cache after some plots in the same process. -/
noncomputable def after (cache : Cache) (calls : List Call) : Cache := calls.foldl (fun c x => (plot c x).1) cache

/-! ### `fill_outside` -/

/-- The loop for the bottom face, plot.py:983-989: indices of the corners after `i`. An index that is too large raises. The first
argument bounds the number of rounds. -/
def botLoop (n right : ℕ) : ℕ → ℕ → Option (List ℕ)
  | 0, _ => none
  | fuel + 1, i =>
    if i % n = right then some []
    else if i + 1 < n then (botLoop n right fuel (i + 1)).map ((i + 1) :: ·)
    else none

/-- The loop for the top face, plot.py:992-998: a negative index counts from the end; one below `-n` raises. -/
def topLoop (n right : ℕ) : ℕ → ℤ → Option (List ℕ)
  | 0, _ => none
  | fuel + 1, i =>
    if i % n = right then some []
    else if -(n : ℤ) ≤ i - 1 then
      (topLoop n right fuel (i - 1)).map ((if i - 1 < 0 then (n + (i - 1)).toNat else (i - 1).toNat) :: ·)
    else none

/-- The area that `ax.fill_between(xs, y0, ys)` fills: under (or above) each segment of the line through the points. -/
def between (chain : List Pt) (y0 : ℝ) : Set Pt :=
  {p | ∃ l a b r, chain = l ++ a :: b :: r ∧ ∃ t : ℝ, 0 ≤ t ∧ t ≤ 1 ∧ p.1 = (1 - t) * a.1 + t * b.1 ∧
    p.2 ∈ Set.uIcc y0 ((1 - t) * a.2 + t * b.2)}

/-- `fill_outside`, plot.py:964-1002, for the polygon with corners `c 0, ..., c (n - 1)`, where `left` is the index of a leftmost corner
(`np.argmin`) and `right` of a rightmost one, and `ylim` are the limits of the axis. -/
noncomputable def fillOutside (c : ℕ → Pt) (n left right : ℕ) (ylim : ℝ × ℝ) : Option (Set Pt) :=
  if n ≤ 2 then none
  else
    match botLoop n right (n + 1) left, topLoop n right (n + 1) left with
    | some bot, some top => some (between ((left :: bot).map c) ylim.1 ∪ between ((left :: top).map c) ylim.2)
    | _, _ => none

end SBayes.Simplex
