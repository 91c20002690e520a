import Verif.Spec.Sampler
/- Specification of the states a run may be started from. -/
namespace SBayes.Kernel
open SBayes.Lik SBayes.Clusters

variable {K N F S M : ℕ} {nG : Fin M → ℕ}

/-- A probability distribution on the categories of `A`, in which all of them are possible. -/
structure FullDistribution {n : ℕ} (A : Fin n → Bool) (v : Fin n → ℝ) : Prop where
  pos : ∀ i, A i = true → 0 < v i
  zero : ∀ i, A i = false → v i = 0
  total : ∑ i, v i = 1

/-- A state with clusters within the constraints, where every value comes from the cluster of the object or from a confounder it has a
group of, and where weights and effects exclude nothing. -/
structure StartsWell (m : Setup K N F S M nG) (x : Disc K N F M × Cont K F S M nG) : Prop where
  clusters : Valid m.cl.minSize m.cl.maxSize x.1.1
  fromCluster : ∀ n f, x.1.2 (n, f) = 0 → ∃ k, x.1.1 k n = true
  fromConfounder : ∀ n f c, x.1.2 (n, f) = Fin.succ c → ∃ g, m.d.confGroups c g n = true
  weights : ∀ f, FullDistribution (fun _ => true) (x.2.1 f)
  effects : ∀ k f, FullDistribution (m.cfg.app f) (x.2.2.1 k f)
  confEffects : ∀ c g f, FullDistribution (m.cfg.app f) (x.2.2.2 c g f)

/-- The same without sources: clusters within the constraints, weights and effects that exclude nothing. -/
structure StartsWell0 (m : Setup K N F S M nG) (x : Clus K N × Cont K F S M nG) : Prop where
  clusters : Valid m.cl.minSize m.cl.maxSize x.1
  weights : ∀ f, FullDistribution (fun _ => true) (x.2.1 f)
  effects : ∀ k f, FullDistribution (m.cfg.app f) (x.2.2.1 k f)
  confEffects : ∀ c g f, FullDistribution (m.cfg.app f) (x.2.2.2 c g f)

end SBayes.Kernel
