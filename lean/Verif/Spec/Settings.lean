import Verif.Model.Settings
/- Specification for property C107: settings, and what their documentation says. -/
namespace SBayes.Settings
open SBayes.Validate SBayes.Prior

/-- The configuration with another `skeleton` of the geo-prior. -/
def withSkeleton (c : SBayesConfig) (s : Skeleton) : SBayesConfig :=
  { c with model := { c.model with prior := { c.model.prior with geo := { c.model.prior.geo with skeleton := s } } } }

/-- The configuration with another `grow_to_adjacent`. -/
def withGrowToAdjacent (c : SBayesConfig) (q : ℚ) : SBayesConfig :=
  { c with mcmc := { c.mcmc with growToAdjacent := q } }

/-- "The graph along which the costs are aggregated": the log-prior if it is the complete graph. -/
noncomputable def completeGraphPrior {K N : ℕ} (agg : Agg) (f : ProbFn) (scale : ℝ) (cost : Fin N → Fin N → ℝ)
    (clusters : Fin K → Fin N → Bool) : ℝ :=
  ∑ k, f.eval scale (agg.eval
    (((⊤ : SimpleGraph (Members (clusters k))).edgeFinset.val).map (edgeCost fun i j : Members (clusters k) => cost i j)))

/-- "In warmup chains can have a different max_size for clusters": the limit for chain `c`. -/
def Sampler.limit (s : Sampler) (c : ℕ) : Option ℤ :=
  match s.maxSize with
  | .one a => some a
  | .perChain l => l[c]?

end SBayes.Settings
