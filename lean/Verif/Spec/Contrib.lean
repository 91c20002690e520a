import Verif.Spec.Chain
/- The parameters of a model with only one of the clusters. -/
namespace SBayes.Sampler
open SBayes.Lik SBayes.Cache SBayes.Posterior

variable {𝕜 : Type} [Field 𝕜] {K N F S M : ℕ} {nG : Fin M → ℕ}

/-- Cluster `k` alone, with its effect, the weights and the confounding effects; the sources are marginalised. -/
def onlyCluster (p : Params 𝕜 K N F S M nG) (k : Fin K) : Params 𝕜 1 N F S M nG where
  clusters := fun _ => p.clusters k
  weights := p.weights
  clusterEffect := fun _ => p.clusterEffect k
  confEffect := p.confEffect
  source := none

end SBayes.Sampler
