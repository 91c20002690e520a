import Mathlib.Analysis.SpecialFunctions.Log.Basic
import Mathlib.Analysis.SpecialFunctions.Gamma.Basic
import Mathlib.Combinatorics.SimpleGraph.Acyclic
/-
Model of the closed-form prior terms: `log_binom`, `log_multinom` (sbayes/util.py:1099-1158),
`ClusterSizePrior` (sbayes/model/prior.py:384-417), `GeoPrior` (444-531, 622-658).
Floats are real numbers; `-inf`/`+inf` do not occur in the cases the statements are about.
-/
namespace SBayes.Prior
open scoped BigOperators

/-- `scipy.special.betaln` for positive arguments. -/
noncomputable def betaln (a b : ℝ) : ℝ :=
  Real.log (Real.Gamma a * Real.Gamma b / Real.Gamma (a + b))

/-- `log_binom`, util.py:1099-1114. -/
noncomputable def logBinom (n k : ℕ) : ℝ := -betaln (1 + n - k) (1 + k) - Real.log (n + 1)

/-- `np.log(1 + np.arange(n))`, util.py:1140. -/
noncomputable def logI (n : ℕ) : List ℝ := (List.range n).map fun i : ℕ => Real.log (1 + (i : ℝ))

/-- `np.cumsum`, util.py:1141: entry `i` is the sum of the first `i+1` entries. -/
noncomputable def cumsum (l : List ℝ) : List ℝ :=
  (List.range l.length).map fun i => (l.take (i + 1)).sum

/-- `log_multinom`, util.py:1117-1158.  (numpy raises IndexError for an index out of range and wraps
negative ones; in range for sizes that fit.) -/
noncomputable def logMultinom (n : ℕ) (ks : List ℕ) : ℝ :=
  if ks.sum = 0 then 0
  else
    let ks' := ks.filter (0 < ·)
    let cs := cumsum (logI n)
    let m := (logI n).sum - (ks'.map fun k => cs.getD (k - 1) 0).sum
    let rest : ℤ := n - ks'.sum
    if 0 < rest then m - cs.getD (rest.toNat - 1) 0 else m

/-- The `type` of the cluster-size prior, config.py (`ClusterSizePriorConfig.Types`). -/
inductive SizePriorType where
  | uniformSize | quadraticSize | uniformArea

variable {K N : ℕ}

/-- `np.sum(clusters, axis=-1)`, prior.py:395, for one cluster. -/
def clusterSize (c : Fin N → Bool) : ℕ := (List.finRange N).countP fun n => c n

/-- `ClusterSizePrior.__call__` without caching, prior.py:395-414. -/
noncomputable def sizePrior (type : SizePriorType) (clusters : Fin K → Fin N → Bool) : ℝ :=
  let sizes := (List.finRange K).map fun k => clusterSize (clusters k)
  match type with
  | .uniformSize => -logMultinom N sizes
  | .quadraticSize => -(sizes.map fun s : ℕ => Real.log ((s : ℝ) ^ 2)).sum
  | .uniformArea => 0

/-- `scipy.special.log_expit`. -/
noncomputable def logExpit (x : ℝ) : ℝ := Real.log (1 / (1 + Real.exp (-x)))

/-- `GeoPriorConfig.ProbabilityFunction`. -/
inductive ProbFn where
  | exponential
  | sigmoid (inflectionPoint : ℝ)

/-- `GeoPrior.parse_prob_function`, prior.py:480-498. -/
noncomputable def ProbFn.eval (f : ProbFn) (scale x : ℝ) : ℝ :=
  match f with
  | .exponential => -x / scale
  | .sigmoid x0 => logExpit (-(x - x0) / scale) - logExpit (x0 / scale)

/-- `GeoPrior.AGGREGATORS`, prior.py:438-442. -/
inductive Agg where
  | mean | sum | max

/-- Aggregation of a non-empty array of costs. -/
noncomputable def Agg.eval (a : Agg) (l : Multiset ℝ) : ℝ :=
  match a with
  | .mean => l.sum / Multiset.card l
  | .sum => l.sum
  | .max => sSup {x | x ∈ l}

/-- Cost of an undirected edge: scipy's `minimum_spanning_tree` uses the smaller of the two entries. -/
def edgeCost {V : Type} (cost : V → V → ℝ) : Sym2 V → ℝ :=
  Sym2.lift ⟨fun i j => min (cost i j) (cost j i), fun _ _ => min_comm _ _⟩

open Classical in
/-- The edge costs that are aggregated, prior.py:643-651: the entries of the tree returned by
`minimum_spanning_tree`, from which scipy drops stored zeros; `[0.0]` if none is left. -/
noncomputable def distances {V : Type} [Fintype V] (cost : V → V → ℝ) (T : SimpleGraph V) :
    Multiset ℝ :=
  let nz := (T.edgeFinset.val.map (edgeCost cost)).filter (· ≠ 0)
  if nz = 0 then {0} else nz

/-- The members of a cluster. -/
abbrev Members (z : Fin N → Bool) := {n : Fin N // z n = true}

/-- `compute_cost_based_geo_prior`, prior.py:622-658.  `mst` stands for scipy's
`minimum_spanning_tree`, applied to the rows and columns of the cluster members; `none` stands for
the ValueError raised for a cluster of fewer than two objects. -/
noncomputable def geoPrior (agg : Agg) (f : ProbFn) (scale : ℝ) (cost : Fin N → Fin N → ℝ)
    (mst : (z : Fin N → Bool) → SimpleGraph (Members z)) (clusters : Fin K → Fin N → Bool) :
    Option ℝ :=
  if ∀ k, 1 < clusterSize (clusters k) then
    some (∑ k, f.eval scale (agg.eval
      (distances (fun i j : Members (clusters k) => cost i j) (mst (clusters k)))))
  else none

end SBayes.Prior
