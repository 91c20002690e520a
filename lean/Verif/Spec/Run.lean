import Verif.Model.Run
import Verif.Spec.Init
/- Specification of the states of a run. -/
namespace SBayes.Run
open SBayes.Lik SBayes.Clusters SBayes.Source SBayes.Effects SBayes.Init
variable {K N F S M : ℕ} {nG : Fin M → ℕ}

/-- What a run needs from its inputs: each observation missing or exactly one applicable state; every object in
some group of some confounder and in at most one group of each; symmetric neighbourhoods; size bounds that
fit the initial size. -/
structure GoodSetup (u : Setup N F S M nG) : Prop where
  onehot : ∀ n f, Missing u.data.features n f ∨ ∃ s, Observed u.data.features n f s
  observable : Observable u.data.features u.app
  disjoint : ∀ c, DisjointGroups (u.data.confGroups c)
  covered : ∀ n, ∃ c g, u.data.confGroups c g n = true
  symmetric : ∀ i j, u.cfg.adj i j = u.cfg.adj j i
  size_pos : 1 ≤ u.initialSize
  lower : u.cfg.minSize ≤ u.initialSize
  upper : u.initialSize ≤ u.cfg.maxSize

/-- A well-formed state. -/
structure WellFormed (u : Setup N F S M nG) (s : St K N F S M nG) : Prop where
  clusters : Valid u.cfg.minSize u.cfg.maxSize s.clusters
  weights : ∀ f, OpenSimplex (s.weights f)
  clusterEffect : ∀ k f, EffectOn (u.app f) (s.clusterEffect k f) ∧ ∀ x, u.app f x = true → 0 < s.clusterEffect k f x
  confEffect : ∀ c g f, EffectOn (u.app f) (s.confEffect c g f) ∧ ∀ x, u.app f x = true → 0 < s.confEffect c g f x
  source : WellAttributed u.data s

/-- The values of a state as input of the likelihood, with or without sources. -/
def params (sampleSource : Bool) (s : St K N F S M nG) : Params ℝ K N F S M nG :=
  ⟨s.clusters, s.weights, s.clusterEffect, s.confEffect, if sampleSource then some s.source else none⟩

end SBayes.Run
