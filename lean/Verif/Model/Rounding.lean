import Verif.Model.Likelihood
import Verif.Model.MH
import Verif.Model.Source
import Mathlib.Analysis.SpecialFunctions.Log.Basic
/-
Model of the floating point evaluation of the likelihood (sbayes/model/likelihood.py), the source
prior (sbayes/model/prior.py:346-366) and the Metropolis-Hastings ratio (sbayes/sampling/mcmc.py:367-386).

Floats are reals, and every operation is replaced by one that returns the exact result up to a relative
error `u` (`v` for the logarithm): the standard model of floating point arithmetic.
Simplification: no overflow and no underflow (a product below 2^-1022 would lose relative accuracy).
The order in which numpy adds the entries of an array (pairwise, with unrolled loops, depending on the
memory layout) is not fixed: any order and any bracketing is allowed.
-/
namespace SBayes.Rounding
open SBayes.Lik

/-- Floating point operations with relative error at most `u` (at most `v` for the logarithm). For
doubles rounded to nearest `u = 2^-53`. Adding 0 and multiplying by 1 is exact. -/
structure Arith (u v : ℝ) where
  add : ℝ → ℝ → ℝ
  mul : ℝ → ℝ → ℝ
  div : ℝ → ℝ → ℝ
  log : ℝ → ℝ
  add_err : ∀ x y, |add x y - (x + y)| ≤ u * |x + y|
  mul_err : ∀ x y, |mul x y - x * y| ≤ u * |x * y|
  div_err : ∀ x y, |div x y - x / y| ≤ u * |x / y|
  log_err : ∀ x, 0 < x → |log x - Real.log x| ≤ v * |Real.log x|
  add_zero : ∀ x, add x 0 = x
  zero_add : ∀ x, add 0 x = x
  mul_one : ∀ x, mul x 1 = x
  one_mul : ∀ x, mul 1 x = x

variable {u v : ℝ}

/-- `Sums A l s`: `s` can be obtained by adding the numbers in `l` in some order and bracketing
(`np.sum`, `np.einsum`; `reduce` starting from 0 is included, since adding 0 is exact). -/
inductive Sums (A : Arith u v) : List ℝ → ℝ → Prop
  | nil : Sums A [] 0
  | one (x : ℝ) : Sums A [x] x
  | add {l l' : List ℝ} {a b : ℝ} : Sums A l a → Sums A l' b → Sums A (l ++ l') (A.add a b)
  | perm {l l' : List ℝ} {a : ℝ} : l.Perm l' → Sums A l a → Sums A l' a

/-- The places in the code where arrays are summed: each may use its own order. -/
inductive Site
  | einsum
  | weights
  | observation
  | total
  | sourcePrior
  | sourceLaw

/-- Floating point operations together with the summation numpy uses at each place. -/
structure Machine (u v : ℝ) extends Arith u v where
  sum : Site → List ℝ → ℝ
  sum_ok : ∀ k l, Sums toArith l (sum k l)

variable {N F S G C K : ℕ}

/-- One entry of `np.einsum('ijk,jk->ij', f_g, p_g)`, likelihood.py:158, computed in floating point. -/
noncomputable def stateProb (A : Machine u v) (x : Features N F S) (p : Fin F → Fin S → ℝ) (n : Fin N) (f : Fin F) : ℝ :=
  A.sum .einsum (List.ofFn fun s => A.mul (b2n ℝ (x n f s)) (p f s))

/-- Loop body of `compute_component_likelihood`, likelihood.py:154-158, in floating point. -/
noncomputable def writeGroup (A : Machine u v) (x : Features N F S) (probs : Fin G → Fin F → Fin S → ℝ)
    (groups : Fin G → Fin N → Bool) (out : Fin N → Fin F → ℝ) (i : Fin G) : Fin N → Fin F → ℝ :=
  fun n f => if groups i n then stateProb A x (probs i) n f else out n f

/-- `compute_component_likelihood`, likelihood.py:146-159, in floating point. -/
noncomputable def computeComponentLikelihood (A : Machine u v) (x : Features N F S)
    (probs : Fin G → Fin F → Fin S → ℝ) (groups : Fin G → Fin N → Bool) (order : List (Fin G))
    (out : Fin N → Fin F → ℝ) : Fin N → Fin F → ℝ :=
  order.foldl (writeGroup A x probs groups) fun n f => if anyGroup groups n then out n f else 0

variable {M : ℕ} {nG : Fin M → ℕ}

/-- `update_component_likelihoods`, likelihood.py:82-143, in floating point. -/
noncomputable def updateComponents (A : Machine u v) (d : ModelData N F S M nG) (p : Params ℝ K N F S M nG)
    (clOrder : List (Fin K)) (confOrder : (c : Fin M) → List (Fin (nG c)))
    (buf : Fin N → Fin F → Fin (M + 1) → ℝ) : Fin N → Fin F → Fin (M + 1) → ℝ :=
  fun n f => Fin.cons
    (overwriteNA d.features (computeComponentLikelihood A d.features p.clusterEffect p.clusters clOrder
      (fun n f => buf n f 0)) n f)
    (fun c => overwriteNA d.features (computeComponentLikelihood A d.features (p.confEffect c)
      (d.confGroups c) (confOrder c) (fun n f => buf n f c.succ)) n f)

/-- `normalize_weights`, likelihood.py:180-198, in floating point. -/
noncomputable def normalizeWeights (A : Machine u v) (w : Fin F → Fin C → ℝ) (has : Fin N → Fin C → Bool) :
    Fin N → Fin F → Fin C → ℝ :=
  fun n f c => A.div (A.mul (w f c) (b2n ℝ (has n c)))
    (A.sum .weights (List.ofFn fun c' => A.mul (w f c') (b2n ℝ (has n c'))))

/-- `get_observation_lhs`, likelihood.py:70-80, in floating point. -/
def observationLhs (A : Machine u v) (lh w : Fin N → Fin F → Fin C → ℝ) :
    Option (Fin N → Fin F → Fin C → Bool) → List ℝ
  | none => (List.finRange N).flatMap fun n => (List.finRange F).map fun f =>
      A.sum .observation (List.ofFn fun c => A.mul (w n f c) (lh n f c))
  | some src => ((ravelIdx N F C).filter fun t => src t.1 t.2.1 t.2.2).map fun t => lh t.1 t.2.1 t.2.2

/-- `Likelihood.__call__` on a freshly created sample, likelihood.py:46-67, in floating point: the
number it returns, `np.sum(np.log(observation_lhs))`. -/
noncomputable def logLikelihood (A : Machine u v) (d : ModelData N F S M nG) (p : Params ℝ K N F S M nG)
    (clOrder : List (Fin K)) (confOrder : (c : Fin M) → List (Fin (nG c)))
    (empty : Fin N → Fin F → Fin (M + 1) → ℝ) : ℝ :=
  A.sum .total ((observationLhs A (updateComponents A d p clOrder confOrder empty)
    (normalizeWeights A p.weights (hasComponents d p.clusters)) p.source).map A.log)

/-- `SourcePrior.__call__`, prior.py:348-366, in floating point:
`np.log(weights.ravel()[is_source]).sum()`. -/
noncomputable def logSourcePrior (A : Machine u v) (d : ModelData N F S M nG) (p : Params ℝ K N F S M nG)
    (src : Fin N → Fin F → Fin (M + 1) → Bool) : ℝ :=
  A.sum .sourcePrior ((sourceWeights (normalizeWeights A p.weights (hasComponents d p.clusters)) src).map A.log)

/-- `metropolis_hastings_ratio`, mcmc.py:367-386, in floating point, at `temperature = 1`
(subtraction is addition of the negated number, which is exact). -/
def mhRatio (A : Arith u v) (llNew llPrev priorNew priorPrev logQ logQBack : ℝ) : ℝ :=
  A.add (A.add (A.mul (A.add llNew (-llPrev)) 1) (-(A.add logQ (-logQBack)))) (A.add priorNew (-priorPrev))

/-- `np.cumsum(p, axis=-1)`, preprocessing.py:230, in floating point: strictly from left to right. -/
def cumsum (A : Arith u v) (p : Fin (M + 1) → ℝ) (k : Fin (M + 1)) : ℝ :=
  Fin.induction (motive := fun _ => ℝ) (p 0) (fun i acc => A.add acc (p i.succ)) k

open Classical in
/-- `sample_categorical`, preprocessing.py:228-233, in floating point: `np.argmax(z < cdf)` for the draw `z`
(which is 0 if `z` is below no entry of `cdf`). -/
noncomputable def sampleCategorical (A : Arith u v) (p : Fin (M + 1) → ℝ) (z : ℝ) : Fin (M + 1) :=
  Source.argmaxBool fun k => decide (z < cumsum A p k)

/-- `calculate_source_posterior`, operators.py:312-323, in floating point:
`normalize(lh_per_component * weights)` (util.py:984-1004). -/
noncomputable def sourceLaw (A : Machine u v) (lh w : Fin N → Fin F → Fin C → ℝ) (n : Fin N) (f : Fin F)
    (c : Fin C) : ℝ :=
  A.div (A.mul (lh n f c) (w n f c)) (A.sum .sourceLaw (List.ofFn fun c' => A.mul (lh n f c') (w n f c')))

end SBayes.Rounding
