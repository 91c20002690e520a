import Mathlib.Algebra.Order.Floor.Defs
import Mathlib.Algebra.BigOperators.Group.List.Basic
import Mathlib.Algebra.Order.Archimedean.Real.Basic
/-
Model of sbayes/postprocessing.py: the information criterion, the alignment of chains and the ranking of clusters.
Exceptions are `none`. Floating point is not modelled (log-likelihoods are reals).
-/
namespace SBayes.Post

/-- `lh[math.ceil(len(lh) * burn_in):]`, postprocessing.py:16-17 (the same two lines in plot.py:349-350 and
1697-1699), for a burn-in that is not negative. -/
noncomputable def dropCeil {α : Type*} (lh : List α) (burnIn : ℝ) : List α :=
  lh.drop ⌈(lh.length : ℝ) * burnIn⌉₊

/-- `np.mean` of a list. -/
noncomputable def mean (l : List ℝ) : ℝ := l.sum / (l.length : ℝ)

/-- `compute_dic`, postprocessing.py:9-25. `np.max` of an empty array raises. -/
noncomputable def computeDic (lh : List ℝ) (burnIn : ℝ) : Option ℝ :=
  match dropCeil lh burnIn with
  | [] => none
  | x :: r =>
    let dPhiPm := -2 * r.foldl max x
    let meanDPhi := -4 * mean (x :: r)
    some (meanDPhi + dPhiPm)

/-- The statistics that are relabelled: one entry per sample, in it one entry per cluster. -/
structure Stats (α β : Type) where
  clusters : List (List α)
  lh : List (List ℝ)
  prior : List (List ℝ)
  posterior : List (List ℝ)
  effect : List (List β)

/-- `row[ranked]` / `[row[r] for r in ranked]`; an index out of range is `none` (postprocessing.py:157-180). -/
def gather {γ : Type} (ranked : List ℕ) (row : List γ) : Option (List γ) := ranked.mapM (fun r => row[r]?)

/-- What `np.argsort(keys)` may return: a permutation of the positions along which the keys do not decrease. Its
default algorithm is not stable, so the order of equal keys is left open. -/
def ArgsortOf (keys : List ℝ) (ranked : List ℕ) : Prop :=
  ranked.Perm (List.range keys.length) ∧ ranked.Pairwise (fun a b => keys.getD a 0 ≤ keys.getD b 0)

/-- `np.mean(post_per_cluster, axis=0)`, postprocessing.py:143-144. Rows of different length raise; no sample at
all (a mean of nothing) is not modelled and also `none`. -/
noncomputable def clusterMeans (post : List (List ℝ)) : Option (List ℝ) :=
  match post with
  | [] => none
  | row :: rest =>
    if rest.all (fun r => r.length == row.length) then
      some ((List.range row.length).map (fun k => mean ((row :: rest).map (fun r => r.getD k 0))))
    else none

/-- The five loops, postprocessing.py:155-180. -/
def applyRanking {α β : Type} (ranked : List ℕ) (s : Stats α β) : Option (Stats α β) := do
  let clusters ← s.clusters.mapM (gather ranked)
  let lh ← s.lh.mapM (gather ranked)
  let prior ← s.prior.mapM (gather ranked)
  let posterior ← s.posterior.mapM (gather ranked)
  let effect ← s.effect.mapM (gather ranked)
  pure ⟨clusters, lh, prior, posterior, effect⟩

/-- `rank_clusters`, postprocessing.py:133-182: the possible results (one for each order of ties). -/
def RankClusters {α β : Type} (s s' : Stats α β) : Prop :=
  ∃ means ranked, clusterMeans s.posterior = some means ∧ ArgsortOf (means.map (fun x => -x)) ranked ∧
    applyRanking ranked s = some s'

/-- `match_clusters`, postprocessing.py:28-77. `cluster_samples.shape` must have three entries, so there must be a
sample. The loop at 42-44 computes the permutation of every sample but never stores it: `matching_list` stays
empty, and it is what the samples are reordered with. `best` is `get_best_permutation`. -/
def matchClusters {β : Type} (best : List (List Bool) → List (List ℕ) → List ℕ) (s : Stats (List Bool) β) :
    Option (Stats (List Bool) β) :=
  match s.clusters with
  | [] => none
  | c :: _ => do
    let zeros : List (List ℕ) := c.map (fun row => row.map (fun _ => 0))
    let matchingList : List (List ℕ) := []
    let _ := s.clusters.foldl (fun acc x =>
      let p := best x acc
      List.zipWith (fun a i => List.zipWith (fun n b => n + if b then 1 else 0) a (x.getD i [])) acc p) zeros
    let re {γ : Type} (l : List (List γ)) : Option (List (List γ)) :=
      l.zipIdx.mapM (fun x => do
        let m ← matchingList[x.2]?
        gather m x.1)
    let clusters ← re s.clusters
    let effect ← re s.effect
    let lh ← re s.lh
    let prior ← re s.prior
    let posterior ← re s.posterior
    pure ⟨clusters, lh, prior, posterior, effect⟩

end SBayes.Post
