import Verif.Model.Data
import Verif.Model.Prior
import Mathlib.Combinatorics.SimpleGraph.Acyclic
/-
Model of geographical costs with cells that are empty (nan) or `inf`: `read_geo_cost_matrix`
(sbayes/preprocessing.py:382-408) with `read_costs_from_csv` (sbayes/util.py:322-335), and
`compute_cost_based_geo_prior` (sbayes/model/prior.py:622-658).
-/
namespace SBayes.Missing
open SBayes.Data SBayes.Prior

/-- A cell of the cost file, converted by `.astype(float)`, preprocessing.py:399. Negative infinity is not modelled. -/
inductive Cost
  | fin (x : ℝ)
  | inf
  | nan

/-- `np.isclose(a, b)`: infinities are equal to one another, nan to nothing (numpy's default `equal_nan=False`). -/
def Cost.Close : Cost → Cost → Prop
  | .fin a, .fin b => |a - b| ≤ 1 / 10 ^ 8 + 1 / 10 ^ 5 * |b|
  | .inf, .inf => True
  | _, _ => False

/-- `(a + b) / 2`. -/
noncomputable def Cost.avg : Cost → Cost → Cost
  | .fin a, .fin b => .fin ((a + b) / 2)
  | .nan, _ => .nan
  | _, .nan => .nan
  | _, _ => .inf

/-- The cost file as a data frame. -/
structure File where
  index : List Str
  columns : List Str
  entry : ℕ → ℕ → Cost

open Classical in
/-- `read_geo_cost_matrix`, preprocessing.py:382-408: nothing is said about cells that are empty. -/
noncomputable def readGeoCostMatrix (objectNames : List Str) (f : File) : Option (ℕ → ℕ → Cost) :=
  if (∀ x ∈ f.columns, x ∈ objectNames) ∧ (∀ x ∈ objectNames, x ∈ f.columns) then
    if ∀ x ∈ objectNames, f.index.count x = 1 ∧ x ∈ f.columns then
      let m : ℕ → ℕ → Cost := fun i j => f.entry (f.index.idxOf (objectNames.getD i [])) (f.columns.idxOf (objectNames.getD j []))
      if ∀ i < objectNames.length, ∀ j < objectNames.length, (m i j).Close (m j i) then some m
      else some fun i j => (m i j).avg (m j i)
    else none
  else none

/-- The number in a cell, if it is an edge: `csgraph_from_dense(cost_mat_z, null_value=np.inf)`, prior.py:645, takes `inf` (the null value) and
nan (scipy's default `nan_null=True`) for "no edge". -/
def Cost.edge : Cost → Option ℝ
  | .fin x => some x
  | .inf => none
  | .nan => none

/-- The graph of the pairs with a cost in one of the two cells. -/
def graph {V : Type} (cost : V → V → Cost) : SimpleGraph V :=
  SimpleGraph.fromRel fun i j => (cost i j).edge.isSome = true

/-- Cost of an undirected edge: the smaller one of the entries that exist (scipy's `minimum_spanning_tree`). -/
noncomputable def pairCost (a b : Cost) : ℝ :=
  match a.edge, b.edge with
  | some x, some y => min x y
  | some x, none => x
  | none, some y => y
  | none, none => 0

theorem pairCost_comm (a b : Cost) : pairCost a b = pairCost b a := by
  unfold pairCost
  cases a.edge <;> cases b.edge <;> simp [min_comm]

/-- The cost of an edge. -/
noncomputable def edgeCost {V : Type} (cost : V → V → Cost) : Sym2 V → ℝ :=
  Sym2.lift ⟨fun i j => pairCost (cost i j) (cost j i), fun _ _ => pairCost_comm _ _⟩

open Classical in
/-- The costs that are aggregated, prior.py:646-652: `forest` is what `minimum_spanning_tree` returns. -/
noncomputable def distances {V : Type} [Fintype V] (cost : V → V → Cost) (forest : SimpleGraph V) : Multiset ℝ :=
  let nz := (forest.edgeFinset.val.map (edgeCost cost)).filter (· ≠ 0)
  if nz = 0 then {0} else nz

/-- `compute_cost_based_geo_prior`, prior.py:622-658. -/
noncomputable def geoPrior {K N : ℕ} (agg : Agg) (f : ProbFn) (scale : ℝ) (cost : Fin N → Fin N → Cost)
    (forest : (z : Fin N → Bool) → SimpleGraph (Members z)) (clusters : Fin K → Fin N → Bool) : Option ℝ :=
  if ∀ k, 1 < clusterSize (clusters k) then
    some (∑ k, f.eval scale (agg.eval
      (distances (fun i j : Members (clusters k) => cost i j) (forest (clusters k)))))
  else none

end SBayes.Missing
