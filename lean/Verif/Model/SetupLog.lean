import Verif.Model.Validate
import Verif.Model.Results
/-
What a run writes to experiment.log about its set-up: MCMCSetup.log_setup and the set-up messages of the model and of the priors.
-/
namespace SBayes.SetupLog
open SBayes.Validate
open SBayes.Log (lit fileText)

abbrev Str := List Char

/-- How Python's f-strings show integers, lists of integers, floating-point numbers and the two enumerations that are not shown through
`.value` (before Python 3.12 as `mean`, later as `AggregationStrategies.MEAN`). -/
structure Format where
  int : ℤ → Str
  ints : List ℤ → Str
  num : ℚ → Str
  prob : ProbType → Str
  agg : AggType → Str

variable (fmt : Format)

/-- A number that may be `None`. -/
def Format.opt : Option ℚ → Str
  | none => lit "None"
  | some q => fmt.num q

/-- The field `clusters`: a number, or a list in the configuration file. -/
def Format.clusters : NumClusters → Str
  | .one n => fmt.int n
  | .many l => fmt.ints l

/-- `prior_type.value` for the enumerations of config.py:88-91, 144-147, 160-162. -/
def geoValue : GeoType → Str
  | .uniform => lit "uniform"
  | .costBased => lit "cost_based"
  | .diameterBased => lit "diameter_based"
@[inherit_doc geoValue] def sizeValue : SizeType → Str
  | .uniformArea => lit "uniform_area"
  | .uniformSize => lit "uniform_size"
  | .quadratic => lit "quadratic"
@[inherit_doc geoValue] def dirValue : DirType → Str
  | .uniform => lit "uniform"
  | .dirichlet => lit "dirichlet"

/-- `GeoPrior.get_setup_message`, prior.py:537-552. Every line ends with `\n`. -/
def geoMessage (g : GeoPriorConfig) : Str :=
  fileText [lit "Geo-prior: " ++ geoValue g.type] ++
  (if g.type = .costBased then
    fileText [lit "\tProbability function: " ++ fmt.prob g.probabilityFunction] ++
    fileText [lit "\tAggregation policy: " ++ fmt.agg g.aggregation] ++
    fileText [lit "\tScale: " ++ fmt.opt g.rate] ++
    (if g.probabilityFunction = .sigmoid then fileText [lit "\tInflection point: " ++ fmt.opt g.inflectionPoint] else []) ++
    (match g.costs with
      | .fromData => fileText [lit "\tCost-matrix inferred from geo-locations."]
      | .file p => fileText [lit "\tCost-matrix file: " ++ p])
  else [])

/-- One line of `ConfoundingEffectsPrior.get_setup_message`, prior.py:248-253. -/
def groupLine (conf : Str) (g : Str × DirichletConfig) : Str :=
  match g.2.type with
  | .uniform => lit "\tUniform prior for confounder " ++ conf ++ lit " = " ++ g.1 ++ lit "."
  | .dirichlet => lit "\tDirichlet prior for confounder " ++ conf ++ lit " = " ++ g.1 ++ lit "."

/-- `ConfoundingEffectsPrior.get_setup_message`, prior.py:244-255. -/
def confMessage (c : Str × List (Str × DirichletConfig)) : Str :=
  fileText [lit "Prior on confounding effect " ++ c.1 ++ lit ":"] ++ fileText (c.2.map (groupLine c.1))

/-- `Prior.get_setup_message`, prior.py:90-99, with 419-421, 341-343, 294-296. -/
def priorMessage (p : PriorConfig) : Str :=
  geoMessage fmt p.geo ++
  fileText [lit "Prior on cluster size: " ++ sizeValue p.size.type] ++
  fileText [lit "Prior on weights: " ++ dirValue p.weights.type] ++
  fileText [lit "Prior on cluster effect: " ++ dirValue p.clusterEffect.type] ++
  p.confoundingEffects.flatMap confMessage

/-- `Model.get_setup_message`, model.py:74-83. -/
def modelMessage (m : ModelConfig) : Str :=
  fileText [[], lit "Model", lit "##########################################",
    lit "Number of clusters: " ++ fmt.clusters m.clusters,
    lit "Clusters have a minimum size of " ++ fmt.int m.prior.size.min ++ lit " and a maximum size of " ++ fmt.int m.prior.size.max] ++
  priorMessage fmt m.prior

/-- The second record of `log_setup`, mcmc_setup.py:44-52, with the `\n` the log handler adds. -/
def mcmcRecord (m : MCMCConfig) : Str :=
  fileText [[], lit "MCMC SETUP", lit "##########################################",
    lit "MCMC with " ++ fmt.int m.steps ++ lit " steps and " ++ fmt.int m.samples ++ lit " samples",
    lit "Warm-up: " ++ fmt.int m.warmup.chains ++ lit " chains exploring the parameter space in " ++ fmt.int m.warmup.steps ++ lit " steps",
    lit "Ratio of cluster steps (growing, shrinking, swapping clusters): " ++ fmt.num m.operators.clusters,
    lit "Ratio of weight steps (changing weights): " ++ fmt.num m.operators.weights,
    lit "Ratio of cluster_effect steps (changing probabilities in clusters): " ++ fmt.num m.operators.clusterEffect,
    lit "Ratio of confounding_effects steps (changing probabilities in confounders): " ++ fmt.num m.operators.confoundingEffects]

/-- What `MCMCSetup.log_setup` appends to experiment.log, mcmc_setup.py:39-55: each record is followed by `\n`. -/
def setupText (c : SBayesConfig) : Str :=
  modelMessage fmt c.model ++ ['\n'] ++
  mcmcRecord fmt c.mcmc ++
  (if c.model.sampleSource then
    fileText [lit "Ratio of source steps (changing source component assignment): " ++ fmt.num c.mcmc.operators.source] else []) ++
  fileText [[], []]

end SBayes.SetupLog
