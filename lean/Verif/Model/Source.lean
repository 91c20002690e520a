import Verif.Model.Clusters
import Mathlib.Order.Interval.Finset.Fin
/-
Model of source sampling: `sample_categorical` (sbayes/preprocessing.py:213-241), the operator
`GibbsSampleSource` (sbayes/sampling/operators.py:269-323), the source part of the cluster operators
(601-667) and of `generate_initial_sample` (sbayes/sampling/sbayes_sampling.py:311-339).
-/
namespace SBayes.Source
open SBayes.Lik SBayes.Clusters SBayes.MH
open scoped BigOperators

variable {K N F S M : ℕ} {nG : Fin M → ℕ}

/-- `np.cumsum(p, axis=-1)`, preprocessing.py:230. -/
noncomputable def cumsum (p : Fin (M + 1) → ℝ) (k : Fin (M + 1)) : ℝ := ∑ i ∈ Finset.Iic k, p i

/-- `np.argmax` of a boolean vector: the first `True`, and 0 if there is none. -/
def argmaxBool (b : Fin (M + 1) → Bool) : Fin (M + 1) := ((List.finRange (M + 1)).find? b).getD 0

open Classical in
/-- `sample_categorical`, preprocessing.py:228-233, for one position with uniform draw `z`:
`np.argmax(z < cdf)`. -/
noncomputable def sampleCategorical (p : Fin (M + 1) → ℝ) (z : ℝ) : Fin (M + 1) :=
  argmaxBool fun k => decide (z < cumsum p k)

/-- `eye[samples]`, preprocessing.py:234-238. -/
def eye (k c : Fin (M + 1)) : Bool := k == c

/-- The part of a `Sample` the sources depend on. -/
structure St (K N F S M : ℕ) (nG : Fin M → ℕ) where
  clusters : Clus K N
  source : Fin N → Fin F → Fin (M + 1) → Bool
  weights : Fin F → Fin (M + 1) → ℝ
  clusterEffect : Fin K → Fin F → Fin S → ℝ
  confEffect : (c : Fin M) → Fin (nG c) → Fin F → Fin S → ℝ

/-- `GibbsSampleSource._propose` (operators.py:286-310, `sample_from_prior = False`) and
`gibbs_sample_source` (641-667) on the objects `subset`: redraw their sources from the source
posterior of the (new) sample, with uniform draws `z`. -/
noncomputable def resampleSource (d : ModelData N F S M nG) (subset : Fin N → Bool)
    (z : Fin N → Fin F → ℝ) (s : St K N F S M nG) : St K N F S M nG :=
  let p := sourcePosterior d s.weights s.clusterEffect s.confEffect s.clusters
  { s with source := fun n f => if subset n then eye (sampleCategorical (p n f) (z n f)) else s.source n f }

/-- `GibbsSampleSource` / `gibbs_sample_source` with `sample_from_prior = True`: the source law is the
normalised weights (`update_weights`). -/
noncomputable def resampleSourcePrior (d : ModelData N F S M nG) (subset : Fin N → Bool)
    (z : Fin N → Fin F → ℝ) (s : St K N F S M nG) : St K N F S M nG :=
  let p := normalizeWeights s.weights (hasComponents d s.clusters)
  { s with source := fun n f => if subset n then eye (sampleCategorical (p n f) (z n f)) else s.source n f }

/-- An accepted cluster move (any of the cluster operators with `resample_source`): new clusters, then
new sources for the changed objects. -/
noncomputable def moveCluster (d : ModelData N F S M nG) (fromPrior : Bool) (cl : Clus K N)
    (z : Fin N → Fin F → ℝ) (s : St K N F S M nG) : St K N F S M nG :=
  let s' := { s with clusters := cl }
  let ch := fun n => decide (n ∈ changed s.clusters cl)
  if fromPrior then resampleSourcePrior d ch z s' else resampleSource d ch z s'

/-- `GibbsSampleSource` as a random computation on the sources alone, all positions of the listed
objects at once; `p n f` is the source law of an observation. Always reported as a Gibbs step. -/
noncomputable def gibbsSource {C : ℕ} (p : Fin N → Fin F → Fin C → ℝ) (subset : List (Fin N))
    (s : Fin N × Fin F → Fin C) : Rand (Result (Fin N × Fin F → Fin C)) :=
  bind (indep (fun i => choice (List.finRange C) (p i.1 i.2)) (positions F subset) s) fun t => ret (gibbs t)

/-- `calculate_source_posterior`, operators.py:312-323, from component likelihoods and normalised
weights: `normalize(lh * weights)`. -/
noncomputable def sourceLaw {C : ℕ} (lh w : Fin N → Fin F → Fin C → ℝ) (n : Fin N) (f : Fin F) (c : Fin C) : ℝ :=
  lh n f c * w n f c / ∑ c', lh n f c' * w n f c'

end SBayes.Source
