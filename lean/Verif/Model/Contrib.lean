import Verif.Model.Chain
/-
Model of the contributions of single clusters written to the stats file (sbayes/sampling/loggers.py:72-76, 199-212):
for each cluster (in the order of the cluster matching) a copy of the sample is reduced to this cluster, given a new cache
and evaluated without caching by the logger's own copy of the model, which does not use sources.
-/
namespace SBayes.Sampler
open SBayes.Lik SBayes.Cache SBayes.Posterior
open scoped BigOperators

variable {𝕜 : Type} [Field 𝕜] [DecidableEq 𝕜] {K N F S M : ℕ} {nG : Fin M → ℕ}

/-- The grouped parameter after `param._value = value[[i], ...]` (loggers.py:205-206): only the array is replaced; `version`
and `group_versions` stay, of the latter the first entry remains meaningful. -/
def GP.single {α : Type} (p : GP K α) (perm : Fin K → Fin K) (i : Fin K) : GP 1 α :=
  ⟨fun _ => p.value (perm i), p.version, fun _ => p.gver ⟨0, i.pos⟩⟩

/-- The sample for cluster `i`, loggers.py:201-207: `copy()`, no source, one row of clusters and cluster effects (of the
permuted arrays, 141-146), a new `ModelCache`. -/
def singleSample (d : ModelData N F S M nG) (s : Sample 𝕜 K N F S M nG) (perm : Fin K → Fin K) (i : Fin K)
    (garbage : Fin N → Fin F → Fin (M + 1) → 𝕜) : Sample 𝕜 1 N F S M nG :=
  let t := s.copy d
  { clusters := GP.single t.clusters perm i
    weights := t.weights
    clusterEffect := GP.single t.clusterEffect perm i
    confEffect := t.confEffect
    useSource := false
    source := t.source
    cache := freshCache d (GP.single t.clusters perm i).value garbage }

/-- The values of the columns `lh_a{i}`, `prior_a{i}`, `post_a{i}`, loggers.py:208-212; `P1` are the prior terms for one
cluster. -/
def contribution (d : ModelData N F S M nG) (P1 : PriorFns 𝕜 1 N F S M nG) (s : Sample 𝕜 K N F S M nG) (perm : Fin K → Fin K)
    (o : Orders 1 M nG) (garbage : Fin N → Fin F → Fin (M + 1) → 𝕜) (i : Fin K) : 𝕜 × 𝕜 × 𝕜 :=
  let r := evalLh d (singleSample d s perm i garbage) false o.cl o.cf
  let lh := (r.2.map P1.logf).sum
  let q := evalPrior P1 false o.pr r.1
  (lh, q.2, lh + q.2)

end SBayes.Sampler
