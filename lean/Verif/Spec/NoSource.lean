import Verif.Spec.Sampler
/- Specification of runs without source sampling: what the operators used there need to be able to move. -/
namespace SBayes.Kernel
open SBayes.Clusters

variable {K N F S M : ℕ} {nG : Fin M → ℕ}

/-- A run without source sampling whose operators can move everything: there is a feature, every feature has two applicable states, not all
objects are needed to fill the clusters to their minimal size, clusters may grow, and not only to neighbours. -/
structure CanMove (m : Setup K N F S M nG) : Prop where
  feature : 0 < F
  twoStates : ∀ f, ∃ s s', s ≠ s' ∧ m.cfg.app f s = true ∧ m.cfg.app f s' = true
  room : K * m.cl.minSize < N
  sizes : m.cl.minSize < m.cl.maxSize
  anywhere : m.cl.pConn < 1

end SBayes.Kernel
