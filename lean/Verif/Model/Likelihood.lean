import Mathlib.Algebra.BigOperators.Fin
import Mathlib.Algebra.Field.Basic
/-
Model of `sbayes/model/likelihood.py`.

Arrays are functions on `Fin n`.  `N` objects, `F` features, `S` states, `G` groups, `C` components.
Floats are elements of a field `𝕜`; `x / 0 = 0` in Lean where numpy gives nan/inf, so statements about
divisions carry the guard that the denominator is not zero.
-/
namespace SBayes.Lik
open scoped BigOperators

variable {𝕜 : Type} [Field 𝕜] {N F S G C : ℕ}

/-- `features[n, f]`: one-hot vector of the observed state, all `false` if missing. -/
abbrev Features (N F S : ℕ) := Fin N → Fin F → Fin S → Bool

/-- A boolean as a number (numpy's implicit conversion). -/
def b2n (𝕜 : Type) [Field 𝕜] (b : Bool) : 𝕜 := if b then 1 else 0

/-- `groups.any(axis=0)` at object `n` (likelihood.py:153; `any_cluster` state.py:139-140;
`any_group` load_data.py:143-144). -/
def anyGroup (groups : Fin G → Fin N → Bool) (n : Fin N) : Bool :=
  (List.finRange G).any fun g => groups g n

/-- `self.na_features`, likelihood.py:44: `np.sum(features, axis=-1) == 0`. -/
def isNA (x : Features N F S) (n : Fin N) (f : Fin F) : Bool :=
  (List.finRange S).all fun s => !x n f s

/-- One entry of `np.einsum('ijk,jk->ij', f_g, p_g)`, likelihood.py:158. -/
def stateProb (x : Features N F S) (p : Fin F → Fin S → 𝕜) (n : Fin N) (f : Fin F) : 𝕜 :=
  ∑ s, b2n 𝕜 (x n f s) * p f s

/-- Body of the loop in `compute_component_likelihood`, likelihood.py:154-158, for group `i`. -/
def writeGroup (x : Features N F S) (probs : Fin G → Fin F → Fin S → 𝕜)
    (groups : Fin G → Fin N → Bool) (out : Fin N → Fin F → 𝕜) (i : Fin G) : Fin N → Fin F → 𝕜 :=
  fun n f => if groups i n then stateProb x (probs i) n f else out n f

/-- `compute_component_likelihood`, likelihood.py:146-159.  `order` is the sequence in which Python
happens to iterate over the set `changed_groups`. -/
def computeComponentLikelihood (x : Features N F S) (probs : Fin G → Fin F → Fin S → 𝕜)
    (groups : Fin G → Fin N → Bool) (order : List (Fin G)) (out : Fin N → Fin F → 𝕜) :
    Fin N → Fin F → 𝕜 :=
  order.foldl (writeGroup x probs groups) fun n f => if anyGroup groups n then out n f else 0

/-- `component_likelihood[self.na_features] = 1.`, likelihood.py:139, for one component. -/
def overwriteNA (x : Features N F S) (out : Fin N → Fin F → 𝕜) : Fin N → Fin F → 𝕜 :=
  fun n f => if isNA x n f then 1 else out n f

/-- `normalize_weights`, likelihood.py:180-198. -/
def normalizeWeights (w : Fin F → Fin C → 𝕜) (has : Fin N → Fin C → Bool) :
    Fin N → Fin F → Fin C → 𝕜 :=
  fun n f c => w f c * b2n 𝕜 (has n c) / ∑ c', w f c' * b2n 𝕜 (has n c')

/-- All index triples in the order of `ndarray.ravel()`. -/
def ravelIdx (N F C : ℕ) : List (Fin N × Fin F × Fin C) :=
  (List.finRange N).flatMap fun n => (List.finRange F).flatMap fun f =>
    (List.finRange C).map fun c => (n, f, c)

/-- `get_observation_lhs`, likelihood.py:70-80: one number per observation. -/
def observationLhs (lh w : Fin N → Fin F → Fin C → 𝕜) :
    Option (Fin N → Fin F → Fin C → Bool) → List 𝕜
  | none => (List.finRange N).flatMap fun n => (List.finRange F).map fun f =>
      ∑ c, w n f c * lh n f c
  | some src => ((ravelIdx N F C).filter fun t => src t.1 t.2.1 t.2.2).map fun t => lh t.1 t.2.1 t.2.2

/-- `np.sum(np.log(observation_lhs))`, likelihood.py:65, in linear space: the likelihood itself. -/
def likelihood (obs : List 𝕜) : 𝕜 := obs.prod

/-- `weights.ravel()[is_source]` in `SourcePrior.__call__`, prior.py:359-361: the weights of the
components the observations are attributed to. -/
def sourceWeights (w : Fin N → Fin F → Fin C → 𝕜) (src : Fin N → Fin F → Fin C → Bool) : List 𝕜 :=
  ((ravelIdx N F C).filter fun t => src t.1 t.2.1 t.2.2).map fun t => w t.1 t.2.1 t.2.2

/-- The data: features and, for each of `M` confounders, its groups
(`Confounder.group_assignment`). -/
structure ModelData (N F S M : ℕ) (nG : Fin M → ℕ) where
  features : Features N F S
  confGroups : (c : Fin M) → Fin (nG c) → Fin N → Bool

/-- The `Sample` values the likelihood depends on (state.py:385-403), without versions. -/
structure Params (𝕜 : Type) (K N F S M : ℕ) (nG : Fin M → ℕ) where
  clusters : Fin K → Fin N → Bool
  weights : Fin F → Fin (M + 1) → 𝕜
  clusterEffect : Fin K → Fin F → Fin S → 𝕜
  confEffect : (c : Fin M) → Fin (nG c) → Fin F → Fin S → 𝕜
  source : Option (Fin N → Fin F → Fin (M + 1) → Bool)

variable {K M : ℕ} {nG : Fin M → ℕ}

/-- `update_component_likelihoods`, likelihood.py:82-143, given which groups are visited in which
order (`what_changed`) and the previous content of the buffer. -/
def updateComponents (d : ModelData N F S M nG) (p : Params 𝕜 K N F S M nG)
    (clOrder : List (Fin K)) (confOrder : (c : Fin M) → List (Fin (nG c)))
    (buf : Fin N → Fin F → Fin (M + 1) → 𝕜) : Fin N → Fin F → Fin (M + 1) → 𝕜 :=
  fun n f => Fin.cons
    (overwriteNA d.features (computeComponentLikelihood d.features p.clusterEffect p.clusters clOrder
      (fun n f => buf n f 0)) n f)
    (fun c => overwriteNA d.features (computeComponentLikelihood d.features (p.confEffect c)
      (d.confGroups c) (confOrder c) (fun n f => buf n f c.succ)) n f)

/-- `HasComponents.__init__`, state.py:274-279. -/
def hasComponents (d : ModelData N F S M nG) (clusters : Fin K → Fin N → Bool) :
    Fin N → Fin (M + 1) → Bool :=
  fun n => Fin.cons (anyGroup clusters n) (fun c => anyGroup (d.confGroups c) n)

/-- `Likelihood.__call__` on a freshly created sample, likelihood.py:46-67: all groups are visited,
the buffer is `np.empty` (state.py:311-313), the weights are normalised from scratch. The result is
`sample.observation_lhs`. -/
def freshObservationLhs (d : ModelData N F S M nG) (p : Params 𝕜 K N F S M nG)
    (clOrder : List (Fin K)) (confOrder : (c : Fin M) → List (Fin (nG c)))
    (empty : Fin N → Fin F → Fin (M + 1) → 𝕜) : List 𝕜 :=
  observationLhs (updateComponents d p clOrder confOrder empty)
    (normalizeWeights p.weights (hasComponents d p.clusters)) p.source

end SBayes.Lik
