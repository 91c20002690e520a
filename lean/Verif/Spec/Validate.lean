import Verif.Model.Validate
import Verif.Spec.Config
/- Specification of the validation of configurations: what an accepted configuration guarantees, and where its values come from. -/
namespace SBayes.Validate
open SBayes.Config
open SBayes.Log (lit)

/-- A Dirichlet prior has parameters, and the file with them exists. -/
structure DirichletOk (env : Env) (c : DirichletConfig) : Prop where
  given : c.type = .dirichlet → c.file.isSome ∨ c.parameters.isSome
  readable : ∀ p, c.file = some p → env.isFile p = true

/-- What the comments in the configuration classes promise of a configuration. -/
structure Guarantees (env : Env) (c : SBayesConfig) : Prop where
  steps : 0 < c.mcmc.steps
  samples : 0 < c.mcmc.samples
  spacing : c.mcmc.samples ∣ c.mcmc.steps
  runs : 0 < c.mcmc.runs
  initSize : 0 < c.mcmc.initObjectsPerCluster
  grow : 0 ≤ c.mcmc.growToAdjacent ∧ c.mcmc.growToAdjacent ≤ 1
  warmup : 0 < c.mcmc.warmup.steps ∧ 0 < c.mcmc.warmup.chains
  operators : 0 ≤ c.mcmc.operators.clusters ∧ 0 ≤ c.mcmc.operators.weights ∧ 0 ≤ c.mcmc.operators.clusterEffect ∧
    0 ≤ c.mcmc.operators.confoundingEffects ∧ 0 ≤ c.mcmc.operators.source
  sizes : 0 < c.model.prior.size.min ∧ 0 < c.model.prior.size.max
  rate : ∀ r, c.model.prior.geo.rate = some r → 0 < r
  costBased : c.model.prior.geo.type = .costBased → c.model.prior.geo.rate.isSome
  costs : ∀ p, c.model.prior.geo.costs = .file p → env.isFile p = true
  clusterEffect : DirichletOk env c.model.prior.clusterEffect
  weights : DirichletOk env c.model.prior.weights
  confounding : ∀ x ∈ c.model.prior.confoundingEffects, ∀ y ∈ x.2, DirichletOk env y.2
  /-- Every group of every confounder has a prior. -/
  priors : ∀ x ∈ c.model.confounders, ∃ P, c.model.prior.confoundingEffects.lookup x.1 = some P ∧
    ∀ g ∈ x.2, (P.lookup g).isSome
  data : env.isFile c.data.features = true ∧ env.isFile c.data.featureStates = true

/-- What the file says at a path. -/
abbrev says_at (raw : Raw) (p : List Str) : Option RawVal := (Val.dict raw).at p

/-- An integer setting: the integer in the file, or the default. A number with a fraction loses its fraction, `true` is 1, text is
converted as by Python. -/
def IntSetting (env : Env) (raw : Raw) (p : List Str) (dflt r : ℕ) : Prop :=
  (∀ n : ℤ, says_at raw p = some (.atom (.int n)) → (r : ℤ) = n) ∧
  (∀ q : ℚ, says_at raw p = some (.atom (.num q)) → (r : ℚ) ≤ q ∧ q < r + 1) ∧
  (∀ b, says_at raw p = some (.atom (.bool b)) → b = true ∧ r = 1) ∧
  (∀ t, says_at raw p = some (.atom (.str t)) → env.intOfStr t = some (r : ℤ)) ∧ (says_at raw p = none → r = dflt)

/-- A numerical setting. -/
def NumSetting (env : Env) (raw : Raw) (p : List Str) (dflt r : ℚ) : Prop :=
  (∀ q, says_at raw p = some (.atom (.num q)) → r = q) ∧
  (∀ n : ℤ, says_at raw p = some (.atom (.int n)) → r = n) ∧
  (∀ b, says_at raw p = some (.atom (.bool b)) → r = if b then 1 else 0) ∧
  (∀ t, says_at raw p = some (.atom (.str t)) → env.numOfStr t = some r) ∧ (says_at raw p = none → r = dflt)

/-- A numerical setting that may be left out. -/
def OptNumSetting (env : Env) (raw : Raw) (p : List Str) (r : Option ℚ) : Prop :=
  (∀ q, says_at raw p = some (.atom (.num q)) → r = some q) ∧
  (∀ n : ℤ, says_at raw p = some (.atom (.int n)) → r = some (n : ℚ)) ∧
  (∀ b, says_at raw p = some (.atom (.bool b)) → r = some (if b then 1 else 0)) ∧
  (∀ t, says_at raw p = some (.atom (.str t)) → r.isSome ∧ env.numOfStr t = r) ∧
  (says_at raw p = some (.atom .null) ∨ says_at raw p = none → r = none)

/-- The words for a switch, in any case. -/
def switchWords : Bool → List Str
  | true => [lit "1", lit "on", lit "t", lit "true", lit "y", lit "yes"]
  | false => [lit "0", lit "off", lit "f", lit "false", lit "n", lit "no"]

/-- A switch. -/
def BoolSetting (raw : Raw) (p : List Str) (dflt r : Bool) : Prop :=
  (∀ b, says_at raw p = some (.atom (.bool b)) → r = b) ∧
  (∀ n : ℤ, says_at raw p = some (.atom (.int n)) → n = if r then 1 else 0) ∧
  (∀ q : ℚ, says_at raw p = some (.atom (.num q)) → q = if r then 1 else 0) ∧
  (∀ t, says_at raw p = some (.atom (.str t)) → t.map Char.toLower ∈ switchWords r) ∧ (says_at raw p = none → r = dflt)

/-- A choice between names; `none`: there is no default. -/
def EnumSetting {T : Type} (raw : Raw) (p : List Str) (name : T → Str) (dflt : Option T) (r : T) : Prop :=
  (∀ v, says_at raw p = some v → v = .atom (.str (name r))) ∧ (says_at raw p = none → dflt = some r)

/-- The names of the choices. -/
def geoName : GeoType → Str
  | .uniform => lit "uniform"
  | .costBased => lit "cost_based"
  | .diameterBased => lit "diameter_based"
@[inherit_doc geoName] def aggName : AggType → Str
  | .mean => lit "mean"
  | .sum => lit "sum"
  | .max => lit "max"
@[inherit_doc geoName] def probName : ProbType → Str
  | .exponential => lit "exponential"
  | .sigmoid => lit "sigmoid"
@[inherit_doc geoName] def skeletonName : Skeleton → Str
  | .mst => lit "mst"
  | .delaunay => lit "delaunay"
  | .diameter => lit "diameter"
  | .complete => lit "complete_graph"
@[inherit_doc geoName] def sizeName : SizeType → Str
  | .uniformArea => lit "uniform_area"
  | .uniformSize => lit "uniform_size"
  | .quadratic => lit "quadratic"
@[inherit_doc geoName] def dirName : DirType → Str
  | .uniform => lit "uniform"
  | .dirichlet => lit "dirichlet"

/-- The text a name in a list of groups stands for: YAML reads names such as `1` or `yes` as other things than text, and they are turned
back as Python prints them. -/
def pyText (env : Env) : Atom → Option Str
  | .str s => some s
  | .int n => some (env.showInt n)
  | .num q => some (env.showNum q)
  | .bool true => some (lit "True")
  | .bool false => some (lit "False")
  | .null => none
  | .list _ => none

/-- What Python takes for false: `None`, `False`, 0, an empty text, list or dictionary. -/
def PyFalse : RawVal → Prop
  | .atom .null => True
  | .atom (.bool b) => b = false
  | .atom (.int n) => n = 0
  | .atom (.num q) => q = 0
  | .atom (.str s) => s = []
  | .atom (.list l) => l = []
  | .dict d => d = .nil

/-- A file: the path in the file relative to the directory of the configuration file. -/
def FileSetting (env : Env) (raw : Raw) (p : List Str) (r : Str) : Prop :=
  ∃ s, says_at raw p = some (.atom (.str s)) ∧ r = (if s.head? = some '/' then s else env.base ++ ['/'] ++ s)

end SBayes.Validate

namespace SBayes.Validate
open SBayes.Config
open SBayes.Log (lit)

/-- The settings a section may contain. -/
def sectionKeys : List (List Str × List Str) := [
  ([], [lit "data", lit "model", lit "mcmc", lit "results"]),
  ([lit "data"], [lit "features", lit "feature_states", lit "projection"]),
  ([lit "results"], [lit "path", lit "log_file"]),
  ([lit "mcmc"], [lit "steps", lit "samples", lit "runs", lit "sample_from_prior", lit "init_objects_per_cluster",
    lit "grow_to_adjacent", lit "operators", lit "warmup"]),
  ([lit "mcmc", lit "operators"], [lit "clusters", lit "weights", lit "cluster_effect", lit "confounding_effects", lit "source"]),
  ([lit "mcmc", lit "warmup"], [lit "warmup_steps", lit "warmup_chains"]),
  ([lit "model"], [lit "clusters", lit "confounders", lit "sample_source", lit "prior"]),
  ([lit "model", lit "prior"], [lit "confounding_effects", lit "cluster_effect", lit "geo", lit "objects_per_cluster",
    lit "weights"]),
  ([lit "model", lit "prior", lit "cluster_effect"], [lit "type", lit "file", lit "parameters"]),
  ([lit "model", lit "prior", lit "weights"], [lit "type", lit "file", lit "parameters"]),
  ([lit "model", lit "prior", lit "objects_per_cluster"], [lit "type", lit "min", lit "max"]),
  ([lit "model", lit "prior", lit "geo"], [lit "type", lit "costs", lit "aggregation", lit "probability_function", lit "rate",
    lit "inflection_point", lit "skeleton"])]

/-- Where every setting comes from. -/
structure Settings (env : Env) (raw : Raw) (c : SBayesConfig) : Prop where
  steps : IntSetting env raw [lit "mcmc", lit "steps"] 1000000 c.mcmc.steps
  samples : IntSetting env raw [lit "mcmc", lit "samples"] 1000 c.mcmc.samples
  runs : IntSetting env raw [lit "mcmc", lit "runs"] 1 c.mcmc.runs
  fromPrior : BoolSetting raw [lit "mcmc", lit "sample_from_prior"] false c.mcmc.sampleFromPrior
  initSize : IntSetting env raw [lit "mcmc", lit "init_objects_per_cluster"] 5 c.mcmc.initObjectsPerCluster
  grow : NumSetting env raw [lit "mcmc", lit "grow_to_adjacent"] (4 / 5) c.mcmc.growToAdjacent
  warmupSteps : IntSetting env raw [lit "mcmc", lit "warmup", lit "warmup_steps"] 50000 c.mcmc.warmup.steps
  warmupChains : IntSetting env raw [lit "mcmc", lit "warmup", lit "warmup_chains"] 10 c.mcmc.warmup.chains
  opClusters : NumSetting env raw [lit "mcmc", lit "operators", lit "clusters"] 45 c.mcmc.operators.clusters
  opWeights : NumSetting env raw [lit "mcmc", lit "operators", lit "weights"] 15 c.mcmc.operators.weights
  opClusterEffect : NumSetting env raw [lit "mcmc", lit "operators", lit "cluster_effect"] 5 c.mcmc.operators.clusterEffect
  opConfounding : NumSetting env raw [lit "mcmc", lit "operators", lit "confounding_effects"] 15 c.mcmc.operators.confoundingEffects
  /-- The frequency of the source operator is 0 without sources; whether they are sampled is decided by the truth value in Python here. -/
  opSource : ∀ v, says_at raw [lit "model", lit "sample_source"] = some v → ¬ PyFalse v →
    NumSetting env raw [lit "mcmc", lit "operators", lit "source"] 10 c.mcmc.operators.source
  opNoSource : ∀ v, says_at raw [lit "model", lit "sample_source"] = some v → PyFalse v → c.mcmc.operators.source = 0
  sampleSource : BoolSetting raw [lit "model", lit "sample_source"] true c.model.sampleSource
  clusters : (∀ n : ℤ, says_at raw [lit "model", lit "clusters"] = some (.atom (.int n)) → c.model.clusters = .one n) ∧
    (says_at raw [lit "model", lit "clusters"] = none → c.model.clusters = .one 1)
  clusterList : ∀ l : List ℤ, says_at raw [lit "model", lit "clusters"] = some (.atom (.list (l.map .int))) → c.model.clusters = .many l
  confounders : ∀ name groups, says_at raw [lit "model", lit "confounders", name] = some (.atom (.list groups)) →
    ∃ names, c.model.confounders.lookup name = some names ∧ groups.map (pyText env) = names.map some
  noConfounders : ∀ name, says_at raw [lit "model", lit "confounders", name] = none → c.model.confounders.lookup name = none
  minSize : IntSetting env raw [lit "model", lit "prior", lit "objects_per_cluster", lit "min"] 2 c.model.prior.size.min
  maxSize : IntSetting env raw [lit "model", lit "prior", lit "objects_per_cluster", lit "max"] 10000 c.model.prior.size.max
  sizeType : EnumSetting raw [lit "model", lit "prior", lit "objects_per_cluster", lit "type"] sizeName none c.model.prior.size.type
  geoType : EnumSetting raw [lit "model", lit "prior", lit "geo", lit "type"] geoName (some .uniform) c.model.prior.geo.type
  aggregation : EnumSetting raw [lit "model", lit "prior", lit "geo", lit "aggregation"] aggName (some .mean)
    c.model.prior.geo.aggregation
  prob : EnumSetting raw [lit "model", lit "prior", lit "geo", lit "probability_function"] probName (some .exponential)
    c.model.prior.geo.probabilityFunction
  skeleton : EnumSetting raw [lit "model", lit "prior", lit "geo", lit "skeleton"] skeletonName (some .mst) c.model.prior.geo.skeleton
  rate : OptNumSetting env raw [lit "model", lit "prior", lit "geo", lit "rate"] c.model.prior.geo.rate
  inflection : OptNumSetting env raw [lit "model", lit "prior", lit "geo", lit "inflection_point"] c.model.prior.geo.inflectionPoint
  weightsType : EnumSetting raw [lit "model", lit "prior", lit "weights", lit "type"] dirName (some .uniform) c.model.prior.weights.type
  clusterEffectType : EnumSetting raw [lit "model", lit "prior", lit "cluster_effect", lit "type"] dirName (some .uniform)
    c.model.prior.clusterEffect.type
  features : FileSetting env raw [lit "data", lit "features"] c.data.features
  featureStates : FileSetting env raw [lit "data", lit "feature_states"] c.data.featureStates
  logFile : BoolSetting raw [lit "results", lit "log_file"] true c.results.logFile
  projection : (∀ a, says_at raw [lit "data", lit "projection"] = some (.atom a) → pyText env a = some c.data.projection) ∧
    (says_at raw [lit "data", lit "projection"] = none → c.data.projection = lit "epsg:4326")
  resultsPath : ((says_at raw [lit "results", lit "path"]).isSome → FileSetting env raw [lit "results", lit "path"] c.results.path) ∧
    (says_at raw [lit "results", lit "path"] = none → c.results.path = env.base ++ ['/'] ++ lit "./results")

/-- Every prior on a confounding effect: its type, file and parameters. -/
def ConfoundingSettings (env : Env) (raw : Raw) (c : SBayesConfig) : Prop :=
  ∀ name group P x, c.model.prior.confoundingEffects.lookup name = some P → P.lookup group = some x →
    EnumSetting raw [lit "model", lit "prior", lit "confounding_effects", name, group, lit "type"] dirName (some .uniform) x.type ∧
    (∀ p, x.file = some p → FileSetting env raw [lit "model", lit "prior", lit "confounding_effects", name, group, lit "file"] p) ∧
    ∀ d, says_at raw [lit "model", lit "prior", lit "confounding_effects", name, group, lit "parameters"] = some (.dict d) →
      x.parameters = some d

end SBayes.Validate

namespace SBayes.Validate

/-- A prior without what it does not use: the file has precedence over the parameters, a uniform prior uses neither. -/
def DirichletConfig.used (x : DirichletConfig) : DirichletConfig :=
  match x.type with
  | .uniform => ⟨.uniform, none, none⟩
  | .dirichlet => if x.file.isSome then ⟨.dirichlet, x.file, none⟩ else ⟨.dirichlet, none, x.parameters⟩

/-- A configuration without what it does not use. -/
def SBayesConfig.used (c : SBayesConfig) : SBayesConfig :=
  { c with
    model := { c.model with
      prior := { c.model.prior with
        confoundingEffects := c.model.prior.confoundingEffects.map fun x => (x.1, x.2.map fun y => (y.1, y.2.used))
        clusterEffect := c.model.prior.clusterEffect.used
        weights := c.model.prior.weights.used } }
    mcmc := { c.mcmc with
      operators := { c.mcmc.operators with source := if c.model.sampleSource then c.mcmc.operators.source else 0 } } }

end SBayes.Validate
