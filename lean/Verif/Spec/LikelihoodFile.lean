import Verif.Spec.Chain
import Verif.Spec.Likelihood
import Verif.Model.LikelihoodFile
/- What the likelihood file should contain. -/
namespace SBayes.Sampler
open SBayes.Lik SBayes.Cache SBayes.Posterior
open scoped BigOperators

variable {𝕜 : Type} [Field 𝕜] [DecidableEq 𝕜] {K N F S M : ℕ} {nG : Fin M → ℕ}

/-- Every observation is attributed to exactly one component, or the model has no sources. -/
def SourcesOk (p : Params 𝕜 K N F S M nG) : Prop := ∀ src, p.source = some src → ∀ n f, ∃! c, src n f c = true

/-- `l` are the likelihoods of the observed value of feature `f` of object `n` under the cluster component (`l 0`) and the
confounders (`l 1`, ...). -/
structure ComponentLhs (d : ModelData N F S M nG) (p : Params 𝕜 K N F S M nG) (n : Fin N) (f : Fin F) (l : Fin (M + 1) → 𝕜) :
    Prop where
  missing : Missing d.features n f → ∀ c, l c = 1
  cluster : ∀ s k, Observed d.features n f s → p.clusters k n = true → l 0 = p.clusterEffect k f s
  noCluster : ∀ s, Observed d.features n f s → (∀ k, p.clusters k n = false) → l 0 = 0
  group : ∀ s c g, Observed d.features n f s → d.confGroups c g n = true → l c.succ = p.confEffect c g f s
  noGroup : ∀ s c, Observed d.features n f s → (∀ g, d.confGroups c g n = false) → l c.succ = 0

/-- `v` is the likelihood of feature `f` of object `n`: the one under the component it is attributed to, or, without sources,
the mean of those under the components, weighted with the weights of the components the object has. -/
def ObservationLh (d : ModelData N F S M nG) (p : Params 𝕜 K N F S M nG) (n : Fin N) (f : Fin F) (v : 𝕜) : Prop :=
  ∃ l, ComponentLhs d p n f l ∧
    match p.source with
    | some src => ∀ c, src n f c = true → v = l c
    | none => v = (∑ c, p.weights f c * b2n 𝕜 (hasComponents d p.clusters n c) * l c) /
        ∑ c, p.weights f c * b2n 𝕜 (hasComponents d p.clusters n c)

/-- A run and the samples it has logged after `i` steps: any initial parameters with disjoint clusters, any moves, any
geo-prior. -/
inductive Logging (d : ModelData N F S M nG) (P : PriorFns 𝕜 K N F S M nG) (debug : Bool) (every : ℕ) :
    LState 𝕜 K N F S M nG → ℕ → List (Entry 𝕜 K N F S M nG) → Prop
  | start (o : Orders K M nG) (p g c) (h1 : VisitsAll o.cl) (h2 : ∀ c, VisitsAll (o.cf c)) (h3 : ∀ c, VisitsAll (o.pr c))
      (hd : DisjointGroups p.clusters) (e : startL d P debug false o p g = some c) : Logging d P debug every c 0 []
  | step (c c₁ c₂ i log m) (o : Orders K M nG) (h : Logging d P debug every c i log) (hm : MoveOk c.1.sample.params m)
      (h1 : VisitsAll o.cl) (h2 : ∀ c, VisitsAll (o.cf c)) (e₁ : stepL d P debug false c i m = some c₁)
      (e₂ : screen d P debug false o c₁ i = some c₂) :
      Logging d P debug every c₂ (i + 1) (log ++ if i % every = 0 then [⟨c₁.1.iStep, c₁.1.sample.params, c₁.2⟩] else [])

end SBayes.Sampler
