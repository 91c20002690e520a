import Verif.Model.MH
import Verif.Model.Likelihood
/-
Model of the cluster operators `AlterCluster` (sbayes/sampling/operators.py:917-1102),
`AlterClusterGibbsish` and `AlterClusterGibbsish2` (686-914), and of `get_neighbours`
(sbayes/util.py:103-119).  The state is the array of clusters; everything else in the sample is fixed
(source resampling is modelled separately).
-/
namespace SBayes.Clusters
open SBayes.MH SBayes.Lik

variable {K N : ℕ}

/-- Clusters: `sample.clusters.value`. -/
abbrev Clus (K N : ℕ) := Fin K → Fin N → Bool

/-- `np.count_nonzero` of a boolean vector. -/
def count (c : Fin N → Bool) : ℕ := (List.finRange N).countP fun n => c n

/-- `mask.nonzero()[0]`. -/
def indices (c : Fin N → Bool) : List (Fin N) := (List.finRange N).filter fun n => c n

/-- `~clusters.any_cluster()`, state.py:139-140. -/
def free (cl : Clus K N) (n : Fin N) : Bool := !anyGroup cl n

/-- `get_neighbours`, util.py:103-119: `adj_mat.dot(cluster)` as boolean, without
`already_in_cluster`. -/
def getNeighbours (cluster occupied : Fin N → Bool) (adj : Fin N → Fin N → Bool) (n : Fin N) : Bool :=
  ((List.finRange N).any fun m => adj n m && cluster m) && !occupied n

/-- `clusters.add_object`, state.py:142-144. -/
def addObject (cl : Clus K N) (z : Fin K) (o : Fin N) : Clus K N :=
  fun k n => if k = z ∧ n = o then true else cl k n

/-- `clusters.remove_object`, state.py:146-148. -/
def removeObject (cl : Clus K N) (z : Fin K) (o : Fin N) : Clus K N :=
  fun k n => if k = z ∧ n = o then false else cl k n

/-- Configuration: size bounds, adjacency, probability of a connected grow-step. -/
structure Cfg (N : ℕ) where
  minSize : ℕ
  maxSize : ℕ
  adj : Fin N → Fin N → Bool
  pConn : ℝ

/-- The transition probability of growing cluster `z` of `cl` by `o`, operators.py:1028-1036 (also
used for the back-probability of shrinking, 1079-1090). -/
noncomputable def growProb (cfg : Cfg N) (cl : Clus K N) (z : Fin K) (o : Fin N) : ℝ :=
  let nb := getNeighbours (cl z) (anyGroup cl) cfg.adj
  (1 - cfg.pConn) * (1 / (count (free cl) : ℝ)) +
    if nb o then cfg.pConn * (1 / (count nb : ℝ)) else 0

/-- `AlterCluster.grow_cluster`, operators.py:999-1054 (without source resampling). -/
noncomputable def growCluster (cfg : Cfg N) (cl : Clus K N) : Rand (Result (Clus K N)) :=
  bind (uniform (List.finRange K)) fun z =>
    let size := count (cl z)
    if cfg.maxSize ≤ size then ret (reject cl)
    else
      bind (bernoulli cfg.pConn) fun connected =>
        let candidates := if connected then getNeighbours (cl z) (anyGroup cl) cfg.adj else free cl
        if count candidates = 0 then ret (reject cl)
        else
          bind (uniform (indices candidates)) fun o =>
            ret ⟨addObject cl z o, growProb cfg cl z o, 1 / ((size : ℝ) + 1)⟩

/-- `AlterCluster.shrink_cluster`, operators.py:1056-1102 (without source resampling). -/
noncomputable def shrinkCluster (cfg : Cfg N) (cl : Clus K N) : Rand (Result (Clus K N)) :=
  bind (uniform (List.finRange K)) fun z =>
    let size := count (cl z)
    if size ≤ cfg.minSize then ret (reject cl)
    else
      bind (uniform (indices (cl z))) fun o =>
        let new := removeObject cl z o
        ret ⟨new, 1 / ((indices (cl z)).length : ℝ), growProb cfg new z o⟩

/-- `_AlterCluster._propose`, operators.py:568-572. -/
noncomputable def alterCluster (cfg : Cfg N) (cl : Clus K N) : Rand (Result (Clus K N)) :=
  bind (bernoulli (1 / 2)) fun shrink => if shrink then shrinkCluster cfg cl else growCluster cfg cl

/-- `normalize`, util.py, of a vector. -/
noncomputable def normalizeVec (x : Fin N → ℝ) (n : Fin N) : ℝ := x n / (List.map x (List.finRange N)).sum

/-- A boolean as a number. -/
def ind (b : Bool) : ℝ := if b then 1 else 0

/-- `AlterClusterGibbsish.grow_cluster`, operators.py:770-812.  `post cl z n` is the result of
`compute_cluster_posterior` for object `n`. -/
noncomputable def gibbsishGrow (cfg : Cfg N) (post : Clus K N → Fin K → Fin N → ℝ) (cl : Clus K N) :
    Rand (Result (Clus K N)) :=
  bind (uniform (List.finRange K)) fun z =>
    if count (free cl) = 0 then ret (reject cl)
    else if count (cl z) = cfg.maxSize then ret (reject cl)
    else
      let pAdd := normalizeVec fun n => post cl z n * ind (free cl n)
      bind (choice (List.finRange N) pAdd) fun o =>
        let new := addObject cl z o
        let pRemove := normalizeVec fun n => (1 - post cl z n) * ind (new z n)
        ret ⟨new, pAdd o, pRemove o⟩

/-- `AlterClusterGibbsish.shrink_cluster`, operators.py:814-859. -/
noncomputable def gibbsishShrink (cfg : Cfg N) (post : Clus K N → Fin K → Fin N → ℝ) (cl : Clus K N) :
    Rand (Result (Clus K N)) :=
  bind (uniform (List.finRange K)) fun z =>
    if count (cl z) = cfg.minSize then ret (reject cl)
    else
      let pRemove := normalizeVec fun n => (1 - post cl z n) * ind (cl z n)
      bind (choice (List.finRange N) pRemove) fun o =>
        let new := removeObject cl z o
        let pAdd := normalizeVec fun n => post cl z n * ind (free new n)
        ret ⟨new, pRemove o, pAdd o⟩

/-- `_AlterCluster._propose` for the Gibbs-ish operator. -/
noncomputable def gibbsish (cfg : Cfg N) (post : Clus K N → Fin K → Fin N → ℝ) (cl : Clus K N) :
    Rand (Result (Clus K N)) :=
  bind (bernoulli (1 / 2)) fun shrink =>
    if shrink then gibbsishShrink cfg post cl else gibbsishGrow cfg post cl

/-- `available`, operators.py:582-584. -/
def available (cl : Clus K N) (z : Fin K) (n : Fin N) : Bool := free cl n || cl z n

/-- `AlterClusterGibbsish2._propose`, operators.py:864-914 (without source resampling): redraw the
membership of all available objects at once. -/
noncomputable def gibbsish2 (cfg : Cfg N) (post : Clus K N → Fin K → Fin N → ℝ) (cl : Clus K N) :
    Rand (Result (Clus K N)) :=
  bind (uniform (List.finRange K)) fun z =>
    let av := available cl z
    let p := post cl z
    bind (indep (fun n => bernoulli (p n)) (indices av) fun _ => false) fun new =>
      let size := count fun n => av n && new n
      if ¬ (cfg.minSize ≤ size ∧ size ≤ cfg.maxSize) then ret (reject cl)
      else if (indices av).all (fun n => new n == cl z n) then ret (reject cl)
      else
        let q := ((indices av).map fun n => p n * ind (new n) + (1 - p n) * (1 - ind (new n))).prod
        let qBack := ((indices av).map fun n => p n * ind (cl z n) + (1 - p n) * (1 - ind (cl z n))).prod
        ret ⟨fun k n => if k = z ∧ av n = true then new n else cl k n, q, qBack⟩

/-! ### `compute_cluster_posterior` -/

variable {F S M : ℕ} {nG : Fin M → ℕ}

/-- Likelihood of the confounder components (columns 1.. of `update_component_likelihoods`,
likelihood.py:116-139) at object `n`, feature `f`: all groups visited, missing features 1. -/
noncomputable def confLh (d : ModelData N F S M nG) (eff : (c : Fin M) → Fin (nG c) → Fin F → Fin S → ℝ)
    (n : Fin N) (f : Fin F) (c : Fin M) : ℝ :=
  overwriteNA d.features (computeComponentLikelihood d.features (eff c) (d.confGroups c)
    (List.finRange (nG c)) (fun _ _ => 0)) n f

/-- `compute_cluster_posterior`, operators.py:699-743 with `sample_from_prior = False`, and
`compute_feature_weights_with_and_without`, 745-762: `has_components[:, 0]` is flipped, the
weights are normalised for both versions, and `np.where` picks the version with resp. without the
cluster. Component 0 of the likelihood is the cluster effect of `z` (0 for missing features). -/
noncomputable def clusterPosterior (d : ModelData N F S M nG) (w : Fin F → Fin (M + 1) → ℝ)
    (clusterEffect : Fin K → Fin F → Fin S → ℝ)
    (confEffect : (c : Fin M) → Fin (nG c) → Fin F → Fin S → ℝ) (cl : Clus K N) (z : Fin K)
    (n : Fin N) : ℝ :=
  let allLh : Fin F → Fin (M + 1) → ℝ := fun f =>
    Fin.cons (stateProb d.features (clusterEffect z) n f) (confLh d confEffect n f)
  let has := hasComponents d cl
  let flipped : Fin N → Fin (M + 1) → Bool := fun n => Function.update (has n) 0 (!has n 0)
  let wCurrent := normalizeWeights w has
  let wFlipped := normalizeWeights w flipped
  let w1 := if flipped n 0 then wFlipped n else wCurrent n
  let w0 := if flipped n 0 then wCurrent n else wFlipped n
  let lh1 := ((List.finRange F).map fun f => ∑ c, allLh f c * w1 f c).prod
  let lh0 := ((List.finRange F).map fun f => ∑ c, allLh f c * w0 f c).prod
  lh1 / (lh0 + lh1)

/-! ### Source resampling -/

variable {C : ℕ}

/-- `np.where(cluster_old != cluster_new)` / `[object_add]` / `[object_remove]`: the objects whose
membership a cluster move changed. -/
def changed (x y : Clus K N) : List (Fin N) :=
  (List.finRange N).filter fun n => (List.finRange K).any fun k => x k n != y k n

/-- Positions `(object, feature)` of the changed objects. -/
def positions (F : ℕ) (l : List (Fin N)) : List (Fin N × Fin F) :=
  l.flatMap fun n => (List.finRange F).map fun f => (n, f)

/-- A cluster operator followed by `propose_new_sources` in mode "gibbs" and
`gibbs_sample_source`, operators.py:601-612, 641-667: for the changed objects the sources are redrawn
from `p(new sample)`, the transition probability is multiplied by `∏ p[new source]` and the back
probability by `∏ p_back[old source]`, where `p_back` is computed from the old sample.
`p cl n f` is the source distribution of an observation (a categorical over the components), which
depends on the clusters. The early `return sample, Q_REJECT, ...` of the operators are the results
whose clusters are unchanged. A source array is modelled by the index of its 1 in each row. -/
noncomputable def withSource (p : Clus K N → Fin N → Fin F → Fin C → ℝ)
    (op : Clus K N → Rand (Result (Clus K N))) (x : Clus K N × (Fin N × Fin F → Fin C)) :
    Rand (Result (Clus K N × (Fin N × Fin F → Fin C))) :=
  bind (op x.1) fun r =>
    if r.new = x.1 then ret (reject x)
    else
      let pos := positions F (changed x.1 r.new)
      bind (indep (fun i => choice (List.finRange C) (p r.new i.1 i.2)) pos x.2) fun s =>
        ret ⟨(r.new, s), r.q * (pos.map fun i => p r.new i.1 i.2 (s i)).prod,
          r.qBack * (pos.map fun i => p x.1 i.1 i.2 (x.2 i)).prod⟩

/-- Likelihood of component `c` as `update_component_likelihoods` (likelihood.py:82-143) gives it on
a sample with clusters `cl`, all groups visited. -/
noncomputable def componentLh (d : ModelData N F S M nG) (clusterEffect : Fin K → Fin F → Fin S → ℝ)
    (confEffect : (c : Fin M) → Fin (nG c) → Fin F → Fin S → ℝ) (cl : Clus K N)
    (n : Fin N) (f : Fin F) : Fin (M + 1) → ℝ :=
  Fin.cons (overwriteNA d.features (computeComponentLikelihood d.features clusterEffect cl
    (List.finRange K) (fun _ _ => 0)) n f) (confLh d confEffect n f)

/-- `calculate_source_posterior`, operators.py:669-683: component likelihoods times weights,
normalised over components. -/
noncomputable def sourcePosterior (d : ModelData N F S M nG) (w : Fin F → Fin (M + 1) → ℝ)
    (clusterEffect : Fin K → Fin F → Fin S → ℝ)
    (confEffect : (c : Fin M) → Fin (nG c) → Fin F → Fin S → ℝ) (cl : Clus K N)
    (n : Fin N) (f : Fin F) (c : Fin (M + 1)) : ℝ :=
  let x := fun c => componentLh d clusterEffect confEffect cl n f c *
    normalizeWeights w (hasComponents d cl) n f c
  x c / ∑ c, x c

end SBayes.Clusters
