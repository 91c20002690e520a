import Verif.Model.Cache
import Verif.Model.Prior
import Verif.Model.Effects
/-
Model of the whole posterior: `Prior.__call__` and `Model.__call__` (sbayes/model/prior.py:65-92, sbayes/model/model.py:65-69)
and of the reference implementation sbayes/model/model_slow.py (Model 40-79, Likelihood 92-230, Prior 239-298,
ConfoundingEffectsPrior 367-410, compute_confounding_effects_prior 781-819).

Densities are in linear space (a log-density of −∞ is the density 0). `none` is a raised exception. Weights and cluster
effects only admit uniform priors, which contribute `log 1` (prior.py:248-330, model_slow.py:425-485).
-/
namespace SBayes.Posterior
open SBayes.Lik SBayes.Prior SBayes.Effects
open scoped BigOperators

variable {K N F S M : ℕ} {nG : Fin M → ℕ}

/-- `PriorConfig.geo`: uniform or cost based, with the data it needs. -/
inductive GeoCfg (N : ℕ)
  | uniform
  | costBased (agg : Agg) (f : ProbFn) (scale : ℝ) (cost : Fin N → Fin N → ℝ)
      (mst : (z : Fin N → Bool) → SimpleGraph (Members z))

/-- `ModelConfig` as far as the posterior depends on it; `conf c g = none` is a uniform prior. -/
structure ModelCfg (N F S M : ℕ) (nG : Fin M → ℕ) where
  size : SizePriorType
  geo : GeoCfg N
  conf : (c : Fin M) → Fin (nG c) → Option (Fin F → Fin S → ℝ)
  sampleSource : Bool
  /-- `data.features.states` -/
  app : Fin F → Fin S → Bool

/-- `GeoPrior.__call__` without caching, prior.py:500-531; the same in model_slow.py:652-673. -/
noncomputable def geoTerm (g : GeoCfg N) (clusters : Fin K → Fin N → Bool) : Option ℝ :=
  match g with
  | .uniform => some 0
  | .costBased agg f scale cost mst => geoPrior agg f scale cost mst clusters

/-- The source term of `Prior.__call__`, prior.py:83-89: the assertions tie the source to the configuration. -/
noncomputable def sourceTerm (sampleSource : Bool) (w : Fin N → Fin F → Fin (M + 1) → ℝ)
    (source : Option (Fin N → Fin F → Fin (M + 1) → Bool)) : Option ℝ :=
  match sampleSource, source with
  | true, some src => some (sourceWeights w src).prod
  | false, none => some 1
  | _, _ => none

/-- `Prior.__call__` without caches, prior.py:65-92. -/
noncomputable def prior (d : ModelData N F S M nG) (cfg : ModelCfg N F S M nG) (p : Params ℝ K N F S M nG) : Option ℝ := do
  let geo ← geoTerm cfg.geo p.clusters
  let src ← sourceTerm cfg.sampleSource (normalizeWeights p.weights (hasComponents d p.clusters)) p.source
  some (Real.exp (sizePrior cfg.size p.clusters) * Real.exp geo *
    (∏ c, ∏ g, confEffectPrior cfg.app (cfg.conf c g) (p.confEffect c g)) * src)

/-- `Model.__call__` without caches, model.py:65-69. `clOrder`, `confOrder` are the orders in which Python iterates over
the sets of changed groups, `empty` the uninitialised buffer. -/
noncomputable def posterior (d : ModelData N F S M nG) (cfg : ModelCfg N F S M nG) (clOrder : List (Fin K))
    (confOrder : (c : Fin M) → List (Fin (nG c))) (empty : Fin N → Fin F → Fin (M + 1) → ℝ)
    (p : Params ℝ K N F S M nG) : Option ℝ :=
  (prior d cfg p).map (fun q => likelihood (freshObservationLhs d p clOrder confOrder empty) * q)

/-! ### The reference implementation -/

/-- `compute_component_likelihood`, model_slow.py:193-203: groups in order, on a zero buffer (158). -/
noncomputable def slowComponent {G : ℕ} (x : Features N F S) (probs : Fin G → Fin F → Fin S → ℝ)
    (groups : Fin G → Fin N → Bool) : Fin N → Fin F → ℝ :=
  (List.finRange G).foldl (writeGroup x probs groups) (fun _ _ => 0)

/-- `update_component_likelihoods`, model_slow.py:156-185. -/
noncomputable def slowComponents (d : ModelData N F S M nG) (p : Params ℝ K N F S M nG) :
    Fin N → Fin F → Fin (M + 1) → ℝ :=
  fun n f => Fin.cons (overwriteNA d.features (slowComponent d.features p.clusterEffect p.clusters) n f)
    (fun c => overwriteNA d.features (slowComponent d.features (p.confEffect c) (d.confGroups c)) n f)

/-- `update_weights` with `compute_has_components`, model_slow.py:186-191 and 206-230. -/
noncomputable def slowWeights (d : ModelData N F S M nG) (p : Params ℝ K N F S M nG) : Fin N → Fin F → Fin (M + 1) → ℝ :=
  normalizeWeights p.weights (fun n => Fin.cons (anyGroup p.clusters n) (fun c => anyGroup (d.confGroups c) n))

/-- `Likelihood.__call__`, model_slow.py:114-140: the probability of the sources is part of the likelihood here. -/
noncomputable def slowLikelihood (d : ModelData N F S M nG) (p : Params ℝ K N F S M nG) : ℝ :=
  likelihood (observationLhs (slowComponents d p) (slowWeights d p) p.source) *
    match p.source with
    | none => 1
    | some src => (sourceWeights (slowWeights d p) src).prod

/-- `Prior.__call__`, model_slow.py:265-287, with `ConfoundingEffectsPrior` (367-410): only uniform priors on confounding
effects are accepted, and their density is evaluated as a Dirichlet density with parameters 1. -/
noncomputable def slowPrior (cfg : ModelCfg N F S M nG) (p : Params ℝ K N F S M nG) : Option ℝ := do
  let geo ← geoTerm cfg.geo p.clusters
  if ∀ c g, (cfg.conf c g).isNone then
    some (Real.exp (sizePrior cfg.size p.clusters) * Real.exp geo *
      ∏ c, ∏ g, groupEffectPrior cfg.app (fun _ _ => 1) (p.confEffect c g))
  else none

/-- `Model.__call__`, model_slow.py:72-76. -/
noncomputable def slowPosterior (d : ModelData N F S M nG) (cfg : ModelCfg N F S M nG) (p : Params ℝ K N F S M nG) : Option ℝ :=
  (slowPrior cfg p).map (fun q => slowLikelihood d p * q)

/-! ### `Model.__call__` with caches -/

section
open SBayes.Cache
variable {𝕜 : Type} [Field 𝕜]

/-- The loop over the confounders in `Prior.__call__`, prior.py:80-81. -/
def evalConfs (P : PriorFns 𝕜 K N F S M nG) (caching : Bool) (order : (c : Fin M) → List (Fin (nG c))) :
    List (Fin M) → Sample 𝕜 K N F S M nG → Sample 𝕜 K N F S M nG × 𝕜
  | [], s => (s, 0)
  | c :: cs, s =>
    let r := evalConf P s c caching (order c)
    let r' := evalConfs P caching order cs r.1
    (r'.1, r.2 + r'.2)

/-- `Prior.__call__`, prior.py:65-92. -/
def evalPrior (P : PriorFns 𝕜 K N F S M nG) (caching : Bool) (order : (c : Fin M) → List (Fin (nG c)))
    (s : Sample 𝕜 K N F S M nG) : Sample 𝕜 K N F S M nG × 𝕜 :=
  let a := evalSize P s caching
  let b := evalGeo P a.1 caching
  let c := evalConfs P caching order (List.finRange M) b.1
  let e := if c.1.useSource then evalSrc P c.1 caching else (c.1, 0)
  (e.1, a.2 + b.2 + c.2 + e.2)

/-- `Model.__call__`, model.py:65-69: the flag is passed to the likelihood only, the prior always uses its caches. -/
def evalModel (d : ModelData N F S M nG) (P : PriorFns 𝕜 K N F S M nG) (caching : Bool) (clO : List (Fin K))
    (cfO order : (c : Fin M) → List (Fin (nG c))) (s : Sample 𝕜 K N F S M nG) : Sample 𝕜 K N F S M nG × 𝕜 :=
  let a := evalLh d s caching clO cfO
  let b := evalPrior P true order a.1
  (b.1, (a.2.map P.logf).sum + b.2)
end

end SBayes.Posterior
