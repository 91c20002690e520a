import Verif.Model.Double
import Mathlib.Data.EReal.Operations
import Mathlib.Analysis.SpecialFunctions.Log.Basic
/-
Model of a Metropolis-Hastings step (sbayes/sampling/mcmc.py:321-386) with the operators `AlterClusterGibbsish`
and `AlterClusterGibbsish2` (sbayes/sampling/operators.py:686-914), whose probabilities are computed in
doubles.  Logarithms can be `-inf` or not a number.
Simplification: finite logarithms and their sums are exact; only whether they are finite, `-inf` or not a number
matters here.
-/
namespace SBayes.Double
open SBayes.Lik SBayes.Clusters

variable {K N F S M : ℕ} {nG : Fin M → ℕ}

/-- A floating point logarithm: `none` is nan, `⊥` is `-inf`. -/
abbrev LogVal := Option EReal

/-- `np.log(p)` of a nonnegative number or nan. -/
noncomputable def logOf : Option ℝ → LogVal
  | none => none
  | some p => if p = 0 then some ⊥ else some (Real.log p : ℝ)

/-- `a + b`. (No number here is `+inf`, so `-inf + inf` does not occur.) -/
noncomputable def plus : LogVal → LogVal → LogVal
  | some a, some b => some (a + b)
  | _, _ => none

/-- `a - b`. -/
noncomputable def minus : LogVal → LogVal → LogVal
  | some a, some b => some (a - b)
  | _, _ => none

/-- `x[i]` of an array that may be nan. -/
def entry (x : Option (Fin N → ℝ)) (n : Fin N) : Option ℝ := x.map fun p => p n

/-- `log_q` and `log_q_back` of `grow_cluster` when object `o` was drawn for cluster `z`, operators.py:789-806
(before sources are redrawn). The posterior of the current sample is used for both directions. -/
noncomputable def growLogQ (D : Rounding) (post : Fin N → Option ℝ) (cl : Clus K N) (z : Fin K) (o : Fin N) :
    LogVal × LogVal :=
  (logOf (entry (pAdd D post (free cl)) o), logOf (entry (pRemove D post (addObject cl z o z)) o))

/-- What `AlterClusterGibbsish2._propose` returns: sample, `log_q`, `log_q_back`. -/
structure Proposal (K N : ℕ) where
  clusters : Clus K N
  logQ : LogVal
  logQBack : LogVal

/-- `np.random.random(n_available) < p`, operators.py:880, `v` the random numbers; a comparison with nan
is false. -/
noncomputable def redraw (post : Fin N → Option ℝ) (av : Fin N → Bool) (v : Fin N → ℝ) (n : Fin N) : Bool :=
  av n && match post n with
    | none => false
    | some p => decide (v n < p)

/-- `p * c + (1 - p) * (1 - c)` in doubles, operators.py:893, 895. -/
noncomputable def siteProb (D : Rounding) (p : Option ℝ) (c : Bool) : Option ℝ :=
  p.map fun p => D.fl (D.fl (p * b2n ℝ c) + D.fl (D.fl (1 - p) * b2n ℝ (!c)))

/-- `np.log(q_per_site).sum()` over the available objects, operators.py:894, 896. -/
noncomputable def logSum (D : Rounding) (post : Fin N → Option ℝ) (av : Fin N → Bool) (c : Fin N → Bool) : LogVal :=
  ((indices av).map fun n => logOf (siteProb D (post n) (c n))).foldl plus (some 0)

/-- `AlterClusterGibbsish2._propose`, operators.py:864-901 (before sources are redrawn) for the chosen
cluster `z`. -/
noncomputable def propose2 (D : Rounding) (post : Fin N → Option ℝ) (cl : Clus K N) (minSize maxSize : ℕ) (z : Fin K)
    (v : Fin N → ℝ) : Proposal K N :=
  let av := available cl z
  let new := redraw post av v
  if ¬ (minSize ≤ count new ∧ count new ≤ maxSize) then ⟨cl, some 0, some ⊥⟩
  else if (indices av).all fun n => new n == cl z n then ⟨cl, some 0, some ⊥⟩
  else ⟨Function.update cl z fun n => if av n then new n else cl z n, logSum D post av new, logSum D post av (cl z)⟩

/-- The decision of `MCMCGenerative.step`, mcmc.py:342-352, with `metropolis_hastings_ratio`, 380-386: `ll` and
`prior` are the differences of log-likelihoods and log-priors, `u` the random number. -/
noncomputable def accepts (ll prior logQ logQBack : LogVal) (u : ℝ) : Bool :=
  if logQBack = some ⊥ then false
  else if logQ = some ⊥ then true
  else match plus (minus ll (minus logQ logQBack)) prior with
    | none => false
    | some r => decide (((Real.log u : ℝ) : EReal) < r)

end SBayes.Double
