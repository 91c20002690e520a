import Verif.Model.Config
import Mathlib.Data.Rat.Floor
/-
Model of the validation of a configuration, sbayes/config/config.py:29-412, i.e. of what pydantic (version 1) does with
the configuration classes.

The input is the dictionary read from the JSON or YAML file. Keys are strings (YAML would allow others). Numbers are
finite. Any exception, whether a `ValidationError` or not, is `none`. Which files exist, and how Python converts strings to
numbers and back, is a parameter.
-/
namespace SBayes.Validate
open SBayes.Config
open SBayes.Log (lit)

/-- Values other than dictionaries. (Dictionaries inside of lists do not occur in a valid configuration.) -/
inductive Atom
  | null
  | bool (b : Bool)
  | int (n : ℤ)
  | num (q : ℚ)
  | str (s : Str)
  | list (l : List Atom)

abbrev RawVal := Val Str Atom
abbrev Raw := Dict Str Atom

/-- What parsing depends on besides the file: `RelativePath.BASE_DIR`, the file system, `int(..)` and `float(..)` of a string,
`str(..)` of a number. -/
structure Env where
  base : Str
  isFile : Str → Bool
  canMakeDir : Str → Bool
  intOfStr : Str → Option ℤ
  numOfStr : Str → Option ℚ
  showInt : ℤ → Str
  showNum : ℚ → Str

/-! ### Conversion of single values (pydantic's validators) -/

/-- `fix_relative_path`, util.py:1169-1183 (the normalisation by `pathlib` is left out). -/
def fixPath (env : Env) (p : Str) : Str :=
  if p.head? = some '/' then p else env.base ++ ['/'] ++ p

/-- pydantic's `int_validator`: `int(v)`, which truncates floats. -/
def toInt (env : Env) : RawVal → Option ℤ
  | .atom (.int n) => some n
  | .atom (.bool b) => some (if b then 1 else 0)
  | .atom (.num q) => some (q.num.tdiv q.den)
  | .atom (.str s) => env.intOfStr s
  | _ => none

/-- `PositiveInt`. -/
def toPosInt (env : Env) (v : RawVal) : Option ℕ :=
  match toInt env v with
  | some n => if 0 < n then some n.toNat else none
  | none => none

/-- pydantic's `float_validator`: `float(v)`. -/
def toNum (env : Env) : RawVal → Option ℚ
  | .atom (.int n) => some n
  | .atom (.bool b) => some (if b then 1 else 0)
  | .atom (.num q) => some q
  | .atom (.str s) => env.numOfStr s
  | _ => none

/-- `PositiveFloat`, `NonNegativeFloat`, `confloat(ge=0, le=1)`: a float with a condition. -/
def toNumIf (env : Env) (ok : ℚ → Bool) (v : RawVal) : Option ℚ :=
  match toNum env v with
  | some q => if ok q then some q else none
  | none => none

/-- pydantic's `bool_validator`. -/
def toBool : RawVal → Option Bool
  | .atom (.bool b) => some b
  | .atom (.int n) => if n = 0 then some false else if n = 1 then some true else none
  | .atom (.num q) => if q = 0 then some false else if q = 1 then some true else none
  | .atom (.str s) =>
    if s.map Char.toLower ∈ [lit "0", lit "off", lit "f", lit "false", lit "n", lit "no"] then some false
    else if s.map Char.toLower ∈ [lit "1", lit "on", lit "t", lit "true", lit "y", lit "yes"] then some true
    else none
  | _ => none

/-- pydantic's `str_validator`. -/
def toStr (env : Env) : Atom → Option Str
  | .str s => some s
  | .int n => some (env.showInt n)
  | .num q => some (env.showNum q)
  | .bool b => some (if b then lit "True" else lit "False")
  | _ => none

/-- A field of type `str`. -/
def toStrVal (env : Env) : RawVal → Option Str
  | .atom a => toStr env a
  | .dict _ => none

/-- An enumeration of strings. -/
def toEnum {T : Type} (table : List (Str × T)) : RawVal → Option T
  | .atom (.str s) => table.lookup s
  | _ => none

/-- `RelativeFilePath`, config.py:38-43: made absolute, must be an existing file. -/
def toFile (env : Env) : RawVal → Option Str
  | .atom (.str s) => if env.isFile (fixPath env s) then some (fixPath env s) else none
  | _ => none

/-- `RelativeDirectoryPath`, config.py:46-57: made absolute, created if necessary. -/
def toDir (env : Env) : RawVal → Option Str
  | .atom (.str s) => if env.canMakeDir (fixPath env s) then some (fixPath env s) else none
  | _ => none

/-- A section: pydantic calls `dict(v)` if `v` is not a dictionary, which succeeds for empty lists and strings. -/
def toDict : RawVal → Option Raw
  | .dict d => some d
  | .atom (.list []) => some .nil
  | .atom (.str []) => some .nil
  | _ => none

/-- `List[str]`. -/
def toStrs (env : Env) : RawVal → Option (List Str)
  | .atom (.list l) => l.mapM (toStr env)
  | _ => none

/-- `Dict[str, T]`: `typing.Dict` fields need a mapping or something `dict` accepts. -/
def mapDict {T : Type} (p : RawVal → Option T) : Raw → Option (List (Str × T))
  | .nil => some []
  | .cons k v rest => do
    let x ← p v
    let xs ← mapDict p rest
    some ((k, x) :: xs)

/-- A field with or without (`dflt = none`: the key is required) a default. -/
def field {T : Type} (d : Raw) (k : Str) (dflt : Option T) (p : RawVal → Option T) : Option T :=
  match d.get k with
  | none => dflt
  | some v => p v

/-- A field of type `Optional[..]` with default `None`. -/
def optional {T : Type} (d : Raw) (k : Str) (p : RawVal → Option T) : Option (Option T) :=
  match d.get k with
  | none => some none
  | some (.atom .null) => some none
  | some v => (p v).map some

/-- `Extra.forbid`, config.py:74-75. -/
def onlyKeys (ks : List Str) : Raw → Bool
  | .nil => true
  | .cons k _ rest => decide (k ∈ ks) && onlyKeys ks rest

/-! ### The sections -/

inductive GeoType | uniform | costBased | diameterBased
deriving DecidableEq
inductive AggType | mean | sum | max
deriving DecidableEq
inductive ProbType | exponential | sigmoid
deriving DecidableEq
inductive Skeleton | mst | delaunay | diameter | complete
deriving DecidableEq
inductive Costs | fromData | file (path : Str)
deriving DecidableEq
inductive SizeType | uniformArea | uniformSize | quadratic
deriving DecidableEq
inductive DirType | uniform | dirichlet
deriving DecidableEq

/-- config.py:85-89. -/
def geoTypes : List (Str × GeoType) :=
  [(lit "uniform", .uniform), (lit "cost_based", .costBased), (lit "diameter_based", .diameterBased)]
/-- config.py:91-94. -/
def aggTypes : List (Str × AggType) := [(lit "mean", .mean), (lit "sum", .sum), (lit "max", .max)]
/-- config.py:96-98. -/
def probTypes : List (Str × ProbType) := [(lit "exponential", .exponential), (lit "sigmoid", .sigmoid)]
/-- config.py:100-104. -/
def skeletons : List (Str × Skeleton) :=
  [(lit "mst", .mst), (lit "delaunay", .delaunay), (lit "diameter", .diameter), (lit "complete_graph", .complete)]
/-- config.py:144-147. -/
def sizeTypes : List (Str × SizeType) :=
  [(lit "uniform_area", .uniformArea), (lit "uniform_size", .uniformSize), (lit "quadratic", .quadratic)]
/-- config.py:160-162. -/
def dirTypes : List (Str × DirType) := [(lit "uniform", .uniform), (lit "dirichlet", .dirichlet)]

/-- `Union[RelativeFilePath, Literal["from_data"]]`, config.py:109: the path is tried first. -/
def toCosts (env : Env) (v : RawVal) : Option Costs :=
  match toFile env v with
  | some p => some (.file p)
  | none => toEnum [(lit "from_data", Costs.fromData)] v

/-- `GeoPriorConfig`, config.py:82-138. -/
structure GeoPriorConfig where
  type : GeoType
  costs : Costs
  aggregation : AggType
  probabilityFunction : ProbType
  rate : Option ℚ
  inflectionPoint : Option ℚ
  skeleton : Skeleton

/-- `GeoPriorConfig`, config.py:82-138. -/
def parseGeo (env : Env) (v : RawVal) : Option GeoPriorConfig := do
  let d ← toDict v
  guard (onlyKeys [lit "type", lit "costs", lit "aggregation", lit "probability_function", lit "rate",
    lit "inflection_point", lit "skeleton"] d)
  let type ← field d (lit "type") (some .uniform) (toEnum geoTypes)
  let costs ← field d (lit "costs") (some .fromData) (toCosts env)
  let aggregation ← field d (lit "aggregation") (some .mean) (toEnum aggTypes)
  let prob ← field d (lit "probability_function") (some .exponential) (toEnum probTypes)
  let rate ← optional d (lit "rate") (toNumIf env fun q => decide (0 < q))
  let inflection ← optional d (lit "inflection_point") (toNum env)
  let skeleton ← field d (lit "skeleton") (some .mst) (toEnum skeletons)
  guard (¬ (type = .costBased ∧ rate.isNone))
  some ⟨type, costs, aggregation, prob, rate, inflection, skeleton⟩

/-- `ClusterSizePriorConfig`, config.py:141-156. -/
structure SizePriorConfig where
  type : SizeType
  min : ℕ
  max : ℕ

/-- `ClusterSizePriorConfig`, config.py:141-156. -/
def parseSize (env : Env) (v : RawVal) : Option SizePriorConfig := do
  let d ← toDict v
  guard (onlyKeys [lit "type", lit "min", lit "max"] d)
  let type ← field d (lit "type") none (toEnum sizeTypes)
  let min ← field d (lit "min") (some 2) (toPosInt env)
  let max ← field d (lit "max") (some 10000) (toPosInt env)
  some ⟨type, min, max⟩

/-- `DirichletPriorConfig`, config.py:159-202. -/
structure DirichletConfig where
  type : DirType
  file : Option Str
  parameters : Option Raw

/-- `values.get(key) is None`. -/
def isNone (d : Raw) (k : Str) : Bool :=
  match d.get k with
  | none => true
  | some (.atom .null) => true
  | _ => false

/-- `values.get("type") == "dirichlet"`, config.py:183. -/
def saysDirichlet (d : Raw) : Bool :=
  match d.get (lit "type") with
  | some (.atom (.str s)) => s == lit "dirichlet"
  | _ => false

/-- `DirichletPriorConfig`, config.py:159-202, with `validate_dirichlet_parameters`. -/
def parseDirichlet (env : Env) (v : RawVal) : Option DirichletConfig := do
  let d ← toDict v
  guard (¬ (saysDirichlet d ∧ isNone d (lit "file") ∧ isNone d (lit "parameters")))
  guard (onlyKeys [lit "type", lit "file", lit "parameters"] d)
  let type ← field d (lit "type") (some .uniform) (toEnum dirTypes)
  let file ← optional d (lit "file") (toFile env)
  let parameters ← optional d (lit "parameters") toDict
  some ⟨type, file, parameters⟩

/-- `PriorConfig`, config.py:223-233. -/
structure PriorConfig where
  confoundingEffects : List (Str × List (Str × DirichletConfig))
  clusterEffect : DirichletConfig
  geo : GeoPriorConfig
  size : SizePriorConfig
  weights : DirichletConfig

/-- `PriorConfig`, config.py:223-233. -/
def parsePrior (env : Env) (v : RawVal) : Option PriorConfig := do
  let d ← toDict v
  guard (onlyKeys [lit "confounding_effects", lit "cluster_effect", lit "geo", lit "objects_per_cluster", lit "weights"] d)
  let conf ← field d (lit "confounding_effects") none
    (fun v => (toDict v).bind (mapDict fun v => (toDict v).bind (mapDict (parseDirichlet env))))
  let clusterEffect ← field d (lit "cluster_effect") none (parseDirichlet env)
  let geo ← field d (lit "geo") none (parseGeo env)
  let size ← field d (lit "objects_per_cluster") none (parseSize env)
  let weights ← field d (lit "weights") none (parseDirichlet env)
  some ⟨conf, clusterEffect, geo, size, weights⟩

/-- `Union[int, List[int]]`, config.py:240. -/
inductive NumClusters
  | one (n : ℤ)
  | many (l : List ℤ)

/-- The field `clusters`, config.py:240: `int` is tried first, then `List[int]`. -/
def toClusters (env : Env) (v : RawVal) : Option NumClusters :=
  match toInt env v with
  | some n => some (.one n)
  | none => match v with
    | .atom (.list l) => (l.mapM fun a => toInt env (.atom a)).map .many
    | _ => none

/-- `ModelConfig`, config.py:236-265. -/
structure ModelConfig where
  clusters : NumClusters
  confounders : List (Str × List Str)
  sampleSource : Bool
  prior : PriorConfig

/-- `d[key]` on a value that may not be a dictionary. -/
def item (v : RawVal) (k : Str) : Option RawVal :=
  match v with
  | .dict d => d.get k
  | _ => none

/-- `g in container` for a dictionary or a list of strings (`in` on a string would look for a substring: not modelled). -/
def contains (v : RawVal) (g : Atom) : Bool :=
  match v, g with
  | .dict d, .str s => (d.get s).isSome
  | .atom (.list l), .str s => l.any fun a => match a with | .str t => t == s | _ => false
  | _, _ => false

/-- The inner loop of `validate_confounder_priors`, config.py:261-263: all names in the list `groups` have a prior. -/
def groupsHavePriors (groups priors : RawVal) : Bool :=
  match groups with
  | .atom (.list l) => l.all (contains priors)
  | _ => false

/-- The loop over `values['confounders'].items()`, config.py:255-263. -/
def confoundersHavePriors (priors : RawVal) : Raw → Bool
  | .nil => true
  | .cons conf groups rest =>
    (match item priors conf with
    | none => false
    | some p => groupsHavePriors groups p) && confoundersHavePriors priors rest

/-- `validate_confounder_priors`, config.py:253-265, runs before any default is filled in: `values['confounders']` must
exist. -/
def validateConfounderPriors (d : Raw) : Option Unit := do
  let confounders ← d.get (lit "confounders")
  match confounders with
  | .dict cs =>
    match (d.get (lit "prior")).bind fun p => item p (lit "confounding_effects") with
    | some priors => guard (confoundersHavePriors priors cs)
    | none => match cs with
      | .nil => some ()
      | .cons _ _ _ => none
  | .atom _ => none

/-- `ModelConfig`, config.py:236-265. -/
def parseModel (env : Env) (v : RawVal) : Option ModelConfig := do
  let d ← toDict v
  validateConfounderPriors d
  guard (onlyKeys [lit "clusters", lit "confounders", lit "sample_source", lit "prior"] d)
  let clusters ← field d (lit "clusters") (some (.one 1)) (toClusters env)
  let confounders ← field d (lit "confounders") (some []) (fun v => (toDict v).bind (mapDict (toStrs env)))
  let sampleSource ← field d (lit "sample_source") (some true) toBool
  let prior ← field d (lit "prior") none (parsePrior env)
  some ⟨clusters, confounders, sampleSource, prior⟩

/-- `OperatorsConfig`, config.py:268-286. -/
structure OperatorsConfig where
  clusters : ℚ
  weights : ℚ
  clusterEffect : ℚ
  confoundingEffects : ℚ
  source : ℚ

/-- `OperatorsConfig()`, config.py:268-286. -/
def defaultOperators : OperatorsConfig := ⟨45, 15, 5, 15, 10⟩

/-- `OperatorsConfig`, config.py:268-286. -/
def parseOperators (env : Env) (v : RawVal) : Option OperatorsConfig := do
  let d ← toDict v
  guard (onlyKeys [lit "clusters", lit "weights", lit "cluster_effect", lit "confounding_effects", lit "source"] d)
  let nonneg := toNumIf env fun q => decide (0 ≤ q)
  let clusters ← field d (lit "clusters") (some 45) nonneg
  let weights ← field d (lit "weights") (some 15) nonneg
  let clusterEffect ← field d (lit "cluster_effect") (some 5) nonneg
  let confoundingEffects ← field d (lit "confounding_effects") (some 15) nonneg
  let source ← field d (lit "source") (some 10) nonneg
  some ⟨clusters, weights, clusterEffect, confoundingEffects, source⟩

/-- `WarmupConfig`, config.py:289-297. -/
structure WarmupConfig where
  steps : ℕ
  chains : ℕ

/-- `WarmupConfig`, config.py:289-297. -/
def parseWarmup (env : Env) (v : RawVal) : Option WarmupConfig := do
  let d ← toDict v
  guard (onlyKeys [lit "warmup_steps", lit "warmup_chains"] d)
  let steps ← field d (lit "warmup_steps") (some 50000) (toPosInt env)
  let chains ← field d (lit "warmup_chains") (some 10) (toPosInt env)
  some ⟨steps, chains⟩

/-- `MCMCConfig`, config.py:300-330. -/
structure MCMCConfig where
  steps : ℕ
  samples : ℕ
  runs : ℕ
  sampleFromPrior : Bool
  initObjectsPerCluster : ℕ
  growToAdjacent : ℚ
  operators : OperatorsConfig
  warmup : WarmupConfig

/-- `MCMCConfig`, config.py:300-330, with `validate_sample_spacing`. -/
def parseMcmc (env : Env) (v : RawVal) : Option MCMCConfig := do
  let d ← toDict v
  guard (onlyKeys [lit "steps", lit "samples", lit "runs", lit "sample_from_prior", lit "init_objects_per_cluster",
    lit "grow_to_adjacent", lit "operators", lit "warmup"] d)
  let steps ← field d (lit "steps") (some 1000000) (toPosInt env)
  let samples ← field d (lit "samples") (some 1000) (toPosInt env)
  let runs ← field d (lit "runs") (some 1) (toPosInt env)
  let fromPrior ← field d (lit "sample_from_prior") (some false) toBool
  let init ← field d (lit "init_objects_per_cluster") (some 5) (toPosInt env)
  let grow ← field d (lit "grow_to_adjacent") (some (4 / 5)) (toNumIf env fun q => decide (0 ≤ q ∧ q ≤ 1))
  let operators ← field d (lit "operators") (some defaultOperators) (parseOperators env)
  let warmup ← field d (lit "warmup") (some ⟨50000, 10⟩) (parseWarmup env)
  guard (steps % samples = 0)
  some ⟨steps, samples, runs, fromPrior, init, grow, operators, warmup⟩

/-- `DataConfig`, config.py:332-343. -/
structure DataConfig where
  features : Str
  featureStates : Str
  projection : Str

/-- `DataConfig`, config.py:332-343. -/
def parseData (env : Env) (v : RawVal) : Option DataConfig := do
  let d ← toDict v
  guard (onlyKeys [lit "features", lit "feature_states", lit "projection"] d)
  let features ← field d (lit "features") none (toFile env)
  let states ← field d (lit "feature_states") none (toFile env)
  let projection ← field d (lit "projection") (some (lit "epsg:4326"))
    (toStrVal env)
  some ⟨features, states, projection⟩

/-- `ResultsConfig`, config.py:346-356. -/
structure ResultsConfig where
  path : Str
  logFile : Bool

/-- `ResultsConfig`, config.py:346-356; the default path is not validated. -/
def parseResults (env : Env) (v : RawVal) : Option ResultsConfig := do
  let d ← toDict v
  guard (onlyKeys [lit "path", lit "log_file"] d)
  let path ← field d (lit "path") (some (fixPath env (lit "./results"))) (toDir env)
  let logFile ← field d (lit "log_file") (some true) toBool
  some ⟨path, logFile⟩

/-- `SBayesConfig`, config.py:368-381. -/
structure SBayesConfig where
  data : DataConfig
  model : ModelConfig
  mcmc : MCMCConfig
  results : ResultsConfig

/-- `not v`. -/
def falsy : RawVal → Bool
  | .atom .null => true
  | .atom (.bool b) => !b
  | .atom (.int n) => n == 0
  | .atom (.num q) => q == 0
  | .atom (.str s) => s.isEmpty
  | .atom (.list l) => l.isEmpty
  | .dict .nil => true
  | .dict _ => false

/-- `values['mcmc']['operators']['source'] = 0.0`; `none` if one of the sections is missing. -/
def clearSource (d : Raw) : Option Raw := do
  let mcmc ← d.get (lit "mcmc")
  match mcmc with
  | .dict md => do
    let ops ← md.get (lit "operators")
    match ops with
    | .dict od =>
      some (d.set (lit "mcmc") (.dict (md.set (lit "operators") (.dict (od.set (lit "source") (.atom (.num 0)))))))
    | .atom _ => none
  | .atom _ => none

/-- `validate_operators`, config.py:376-381, also before defaults are filled in. -/
def validateOperators (d : Raw) : Option Raw := do
  let model ← d.get (lit "model")
  let sampleSource ← item model (lit "sample_source")
  if falsy sampleSource then clearSource d else some d

/-- `SBayesConfig(**config_dict)`, config.py:368-381. -/
def parseConfig (env : Env) (raw : Raw) : Option SBayesConfig := do
  let d ← validateOperators raw
  guard (onlyKeys [lit "data", lit "model", lit "mcmc", lit "results"] d)
  let data ← field d (lit "data") none (parseData env)
  let model ← field d (lit "model") none (parseModel env)
  let mcmc ← field d (lit "mcmc") none (parseMcmc env)
  let results ← field d (lit "results") (some ⟨fixPath env (lit "./results"), true⟩) (parseResults env)
  some ⟨data, model, mcmc, results⟩

/-- `SBayesConfig.from_config_file(path, custom_settings)`, config.py:384-407: `raw` is what the file contains. -/
def fromConfigFile (env : Env) (raw : Raw) (custom : Option Raw) : Option SBayesConfig :=
  parseConfig env (match custom with | none => raw | some c => updateRecursive raw c)

/-! ### Back to dictionaries -/

/-- The name of a value of an enumeration (tables: config.py:85-104, 144-147, 160-162). -/
def enumName {T : Type} [DecidableEq T] (table : List (Str × T)) (t : T) : RawVal :=
  .atom (.str ((table.find? fun p => p.2 = t).elim [] Prod.fst))

/-- `None` or the value, in pydantic's `.dict()` (used by `update`, config.py:410-412). -/
def ofOption : Option RawVal → RawVal
  | none => .atom .null
  | some v => v

/-- The items of a dictionary. -/
def mkDict : List (Str × RawVal) → Raw
  | [] => .nil
  | (k, v) :: r => .cons k v (mkDict r)

/-- pydantic's `.dict()` of the section at config.py:82-120. -/
def dumpGeo (g : GeoPriorConfig) : RawVal :=
  .dict (mkDict [(lit "type", enumName geoTypes g.type),
    (lit "costs", match g.costs with | .fromData => .atom (.str (lit "from_data")) | .file p => .atom (.str p)),
    (lit "aggregation", enumName aggTypes g.aggregation),
    (lit "probability_function", enumName probTypes g.probabilityFunction),
    (lit "rate", ofOption (g.rate.map fun q => .atom (.num q))),
    (lit "inflection_point", ofOption (g.inflectionPoint.map fun q => .atom (.num q))),
    (lit "skeleton", enumName skeletons g.skeleton)])

/-- pydantic's `.dict()` of the section at config.py:141-156. -/
def dumpSize (s : SizePriorConfig) : RawVal :=
  .dict (mkDict [(lit "type", enumName sizeTypes s.type), (lit "min", .atom (.int s.min)), (lit "max", .atom (.int s.max))])

/-- `DirichletPriorConfig.dict`, config.py:190-202: hides what does not apply. -/
def dumpDirichlet (c : DirichletConfig) : RawVal :=
  let file := (lit "file", ofOption (c.file.map fun p => .atom (.str p)))
  let parameters := (lit "parameters", ofOption (c.parameters.map Val.dict))
  .dict (mkDict ((lit "type", enumName dirTypes c.type) ::
    match c.type with
    | .uniform => []
    | .dirichlet => if c.file.isSome then [file] else if c.parameters.isSome then [parameters] else [file, parameters]))

/-- pydantic's `.dict()` of the section at config.py:223-233. -/
def dumpPrior (p : PriorConfig) : RawVal :=
  .dict (mkDict [
    (lit "confounding_effects", .dict (mkDict (p.confoundingEffects.map fun c =>
      (c.1, .dict (mkDict (c.2.map fun g => (g.1, dumpDirichlet g.2))))))),
    (lit "cluster_effect", dumpDirichlet p.clusterEffect), (lit "geo", dumpGeo p.geo),
    (lit "objects_per_cluster", dumpSize p.size), (lit "weights", dumpDirichlet p.weights)])

/-- pydantic's `.dict()` of the section at config.py:236-251. -/
def dumpModel (m : ModelConfig) : RawVal :=
  .dict (mkDict [
    (lit "clusters", match m.clusters with | .one n => .atom (.int n) | .many l => .atom (.list (l.map .int))),
    (lit "confounders", .dict (mkDict (m.confounders.map fun c => (c.1, .atom (.list (c.2.map .str)))))),
    (lit "sample_source", .atom (.bool m.sampleSource)), (lit "prior", dumpPrior m.prior)])

/-- pydantic's `.dict()` of the section at config.py:300-330. -/
def dumpMcmc (m : MCMCConfig) : RawVal :=
  .dict (mkDict [(lit "steps", .atom (.int m.steps)), (lit "samples", .atom (.int m.samples)), (lit "runs", .atom (.int m.runs)),
    (lit "sample_from_prior", .atom (.bool m.sampleFromPrior)),
    (lit "init_objects_per_cluster", .atom (.int m.initObjectsPerCluster)),
    (lit "grow_to_adjacent", .atom (.num m.growToAdjacent)),
    (lit "operators", .dict (mkDict [(lit "clusters", .atom (.num m.operators.clusters)),
      (lit "weights", .atom (.num m.operators.weights)), (lit "cluster_effect", .atom (.num m.operators.clusterEffect)),
      (lit "confounding_effects", .atom (.num m.operators.confoundingEffects)), (lit "source", .atom (.num m.operators.source))])),
    (lit "warmup", .dict (mkDict [(lit "warmup_steps", .atom (.int m.warmup.steps)),
      (lit "warmup_chains", .atom (.int m.warmup.chains))]))])

/-- `SBayesConfig.dict()`. Enumerations and paths are dumped as such; they are read back like the strings used here. -/
def dump (c : SBayesConfig) : Raw :=
  mkDict [
    (lit "data", .dict (mkDict [(lit "features", .atom (.str c.data.features)),
      (lit "feature_states", .atom (.str c.data.featureStates)), (lit "projection", .atom (.str c.data.projection))])),
    (lit "model", dumpModel c.model), (lit "mcmc", dumpMcmc c.mcmc),
    (lit "results", .dict (mkDict [(lit "path", .atom (.str c.results.path)), (lit "log_file", .atom (.bool c.results.logFile))]))]

/-- `SBayesConfig.update(other)`, config.py:410-412. -/
def update (env : Env) (c : SBayesConfig) (other : Raw) : Option SBayesConfig :=
  parseConfig env (updateRecursive (dump c) other)

end SBayes.Validate
