import Verif.Model.Clusters
/- Specification of the membership probability used by the Gibbs-ish cluster operators. -/
namespace SBayes.Clusters
open SBayes.Lik
variable {K N F S M : ℕ} {nG : Fin M → ℕ}

/-- The clusters `cl`, with object `n` put into (`b = true`) or taken out of cluster `z`. -/
def setMember (cl : Clus K N) (z : Fin K) (n : Fin N) (b : Bool) : Clus K N :=
  Function.update cl z (Function.update (cl z) n b)

/-- The likelihood of all observations given clusters, weights and effects, sources integrated out: what
`Likelihood.__call__` (likelihood.py:46-67) computes for a sample without sources. -/
noncomputable def marginalLikelihood (d : ModelData N F S M nG) (w : Fin F → Fin (M + 1) → ℝ)
    (clusterEffect : Fin K → Fin F → Fin S → ℝ) (confEffect : (c : Fin M) → Fin (nG c) → Fin F → Fin S → ℝ)
    (cl : Clus K N) : ℝ :=
  likelihood (freshObservationLhs d ⟨cl, w, clusterEffect, confEffect, none⟩ (List.finRange K)
    (fun c => List.finRange (nG c)) (fun _ _ _ => 0))

end SBayes.Clusters
