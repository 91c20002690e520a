import Mathlib.Data.Real.Basic
import Mathlib.Algebra.BigOperators.Group.List.Basic
import Mathlib.Logic.Equiv.Defs
/-
Specification of postprocessing: independent of the model.
-/
namespace SBayes.Post

/-- The deviance of a sample with this log-likelihood. -/
def deviance (logLh : ℝ) : ℝ := -2 * logLh

/-- The deviance information criterion with the best sample as point estimate (Spiegelhalter et al. 2002, Celeux
et al. 2006): mean deviance plus the effective number of parameters, which is the mean deviance minus the deviance
at the point estimate. -/
noncomputable def dic (logLhs : List ℝ) (best : ℝ) : ℝ :=
  let meanDev := (logLhs.map deviance).sum / (logLhs.length : ℝ)
  meanDev + (meanDev - deviance best)

/-- `best` is the largest value of the list. -/
def IsMax (l : List ℝ) (best : ℝ) : Prop := best ∈ l ∧ ∀ x ∈ l, x ≤ best

/-- The rows of `new` are the rows of `old`, position `i` of each now holding what was at position `σ i`. -/
def RelabelledBy {γ : Type} (K : ℕ) (σ : Equiv.Perm (Fin K)) (old new : List (List γ)) : Prop :=
  new.length = old.length ∧
    ∀ s, s < old.length → ((new[s]?).map List.length = some K) ∧
      ∀ i : Fin K, ((new[s]?).bind fun r => r[(i : ℕ)]?) = ((old[s]?).bind fun r => r[(σ i : ℕ)]?)

/-- The mean over the samples of the value in position `k`. -/
noncomputable def meanAt (rows : List (List ℝ)) (k : ℕ) : ℝ := (rows.map (fun r => r.getD k 0)).sum / (rows.length : ℝ)

end SBayes.Post
