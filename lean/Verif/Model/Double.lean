import Verif.Spec.Double
import Verif.Model.Clusters
/-
Model of the operator `AlterClusterGibbsish` (sbayes/sampling/operators.py:686-859) in IEEE double
arithmetic: every operation is followed by rounding to nearest.  Not a number is `none`.
Simplification: sums and products of arrays are accumulated from left to right.
-/
namespace SBayes.Double
open SBayes.Lik SBayes.Clusters

variable {K N F S M C : ℕ} {nG : Fin M → ℕ}

/-- `np.sum` of a list of doubles. -/
def sum (D : Rounding) (l : List ℝ) : ℝ := l.foldl (fun a x => D.fl (a + x)) 0

/-- `np.prod` of a list of doubles, operators.py:735. -/
def prod (D : Rounding) (l : List ℝ) : ℝ := l.foldl (fun a x => D.fl (a * x)) 1

/-- `a / b`: not a number if `b` is 0 (`0/0`; the code below never divides a positive number by 0). -/
noncomputable def div (D : Rounding) (a b : ℝ) : Option ℝ := if b = 0 then none else some (D.fl (a / b))

/-- `normalize_weights`, likelihood.py:180-198, in doubles (Lean's `x / 0 = 0` where numpy gives nan). -/
noncomputable def normalizeWeights (D : Rounding) (w : Fin F → Fin C → ℝ) (has : Fin N → Fin C → Bool) :
    Fin N → Fin F → Fin C → ℝ :=
  fun n f c => D.fl (D.fl (w f c * b2n ℝ (has n c)) / sum D (List.ofFn fun c' => D.fl (w f c' * b2n ℝ (has n c'))))

/-- `marginal_lh_z01[b]`, operators.py:710-735 and `compute_feature_weights_with_and_without`, 745-762, in
doubles: the likelihood of the observations of object `n` if it is (`b = true`) or is not in cluster `z`. The
component likelihoods are exact (C103). -/
noncomputable def memberLh (D : Rounding) (d : ModelData N F S M nG) (w : Fin F → Fin (M + 1) → ℝ)
    (clusterEffect : Fin K → Fin F → Fin S → ℝ)
    (confEffect : (c : Fin M) → Fin (nG c) → Fin F → Fin S → ℝ) (cl : Clus K N) (z : Fin K)
    (n : Fin N) (b : Bool) : ℝ :=
  let allLh : Fin F → Fin (M + 1) → ℝ := fun f =>
    Fin.cons (Lik.stateProb d.features (clusterEffect z) n f) (confLh d confEffect n f)
  let has := hasComponents d cl
  let flipped : Fin N → Fin (M + 1) → Bool := fun n => Function.update (has n) 0 (!has n 0)
  let wCurrent := normalizeWeights D w has
  let wFlipped := normalizeWeights D w flipped
  let w1 := if flipped n 0 then wFlipped n else wCurrent n
  let w0 := if flipped n 0 then wCurrent n else wFlipped n
  prod D ((List.finRange F).map fun f =>
    sum D (List.ofFn fun c => D.fl (allLh f c * (if b then w1 f c else w0 f c))))

/-- `compute_cluster_posterior`, operators.py:699-743 (`sample_from_prior = False`), in doubles. -/
noncomputable def clusterPosterior (D : Rounding) (d : ModelData N F S M nG) (w : Fin F → Fin (M + 1) → ℝ)
    (clusterEffect : Fin K → Fin F → Fin S → ℝ)
    (confEffect : (c : Fin M) → Fin (nG c) → Fin F → Fin S → ℝ) (cl : Clus K N) (z : Fin K)
    (n : Fin N) : Option ℝ :=
  let lh := memberLh D d w clusterEffect confEffect cl z n
  div D (lh true) (D.fl (lh false + lh true))

/-- `normalize(...)` of a vector of doubles (util.py:984-1004): not a number if the entries add up to 0. -/
noncomputable def normalizeVec (D : Rounding) (x : Fin N → ℝ) : Option (Fin N → ℝ) :=
  let tot := sum D (List.ofFn x)
  if tot = 0 then none else some fun n => D.fl (x n / tot)

/-- `normalize((1 - cluster_posterior) * candidates)` in `shrink_cluster`, operators.py:838. An entry of
`cluster_posterior` that is not a number makes the sum, hence everything, not a number. -/
noncomputable def pRemove (D : Rounding) (post : Fin N → Option ℝ) (candidates : Fin N → Bool) :
    Option (Fin N → ℝ) :=
  if (List.finRange N).all fun n => (post n).isSome then
    normalizeVec D fun n => D.fl (D.fl (1 - (post n).getD 0) * b2n ℝ (candidates n))
  else none

/-- `normalize(cluster_posterior * candidates)` in `grow_cluster`, operators.py:795. -/
noncomputable def pAdd (D : Rounding) (post : Fin N → Option ℝ) (candidates : Fin N → Bool) :
    Option (Fin N → ℝ) :=
  if (List.finRange N).all fun n => (post n).isSome then
    normalizeVec D fun n => D.fl ((post n).getD 0 * b2n ℝ (candidates n))
  else none

/-- What happens in `shrink_cluster` (operators.py:814-842) before sources are redrawn, for the chosen
cluster `z`. -/
inductive Outcome (N : ℕ)
  | reject
  | draw (p : Fin N → ℝ)
  | valueError

/-- `shrink_cluster`, operators.py:814-842, for cluster `z`: `np.random.choice` raises a ValueError if the
probabilities contain nan ("probabilities contain NaN"). -/
noncomputable def shrink (D : Rounding) (d : ModelData N F S M nG) (w : Fin F → Fin (M + 1) → ℝ)
    (clusterEffect : Fin K → Fin F → Fin S → ℝ)
    (confEffect : (c : Fin M) → Fin (nG c) → Fin F → Fin S → ℝ) (cl : Clus K N) (minSize : ℕ) (z : Fin K) :
    Outcome N :=
  if count (cl z) = minSize then .reject
  else match pRemove D (clusterPosterior D d w clusterEffect confEffect cl z) (cl z) with
    | none => .valueError
    | some p => .draw p

/-- `grow_cluster`, operators.py:770-798, for cluster `z`. -/
noncomputable def grow (D : Rounding) (d : ModelData N F S M nG) (w : Fin F → Fin (M + 1) → ℝ)
    (clusterEffect : Fin K → Fin F → Fin S → ℝ)
    (confEffect : (c : Fin M) → Fin (nG c) → Fin F → Fin S → ℝ) (cl : Clus K N) (maxSize : ℕ) (z : Fin K) :
    Outcome N :=
  if count (free cl) = 0 then .reject
  else if count (cl z) = maxSize then .reject
  else match pAdd D (clusterPosterior D d w clusterEffect confEffect cl z) (free cl) with
    | none => .valueError
    | some p => .draw p

end SBayes.Double
