import Verif.Spec.Chain
import Verif.Model.Logged
/- The log of the ideal chain. -/
namespace SBayes.Sampler
open SBayes.Lik SBayes.Cache SBayes.Posterior
open scoped BigOperators

variable {𝕜 : Type} [Field 𝕜] {K N F S M : ℕ} {nG : Fin M → ℕ}

/-- The likelihoods of the observations given the parameters, everything recomputed. -/
def idealObs (d : ModelData N F S M nG) (p : Params 𝕜 K N F S M nG) : List 𝕜 :=
  freshObservationLhs d p (List.finRange K) (fun c => List.finRange (nG c)) (fun _ _ _ => 0)

/-- What should be logged for parameters `p` after step `i`. -/
def idealEntry (d : ModelData N F S M nG) (P : PriorFns 𝕜 K N F S M nG) (fromPrior : Bool) (i : ℕ)
    (p : Params 𝕜 K N F S M nG) : Entry 𝕜 K N F S M nG :=
  ⟨i, p, ⟨some (idealLh d P fromPrior p), some (idealPrior d P p), if fromPrior then none else some (idealObs d p)⟩⟩

/-- The log of the ideal run: one entry for every step whose number is a multiple of `every`, with the parameters after that
step. -/
def idealLog (d : ModelData N F S M nG) (P : PriorFns 𝕜 K N F S M nG) (fromPrior : Bool) (every : ℕ) :
    Params 𝕜 K N F S M nG → ℕ → List (Move 𝕜 K N F S M nG) → List (Entry 𝕜 K N F S M nG)
  | _, _, [] => []
  | p, i, m :: ms =>
    (if i % every = 0 then [idealEntry d P fromPrior i (idealStep d P fromPrior p m)] else []) ++
      idealLog d P fromPrior every (idealStep d P fromPrior p m) (i + 1) ms

end SBayes.Sampler
