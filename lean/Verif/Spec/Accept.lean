import Verif.Spec.Validate
/- Specification for property C86: the configurations that are accepted, section by section, with settings of the documented types. -/
namespace SBayes.Validate
open SBayes.Config
open SBayes.Log (lit)

/-- A positive integer. -/
def PosIntValue (v : RawVal) : Prop := ∃ n : ℤ, 0 < n ∧ v = .atom (.int n)

/-- A number in a range. -/
def NumValue (ok : ℚ → Prop) (v : RawVal) : Prop :=
  (∃ q, ok q ∧ v = .atom (.num q)) ∨ ∃ n : ℤ, ok n ∧ v = .atom (.int n)

/-- A switch: a boolean, or a word for it. -/
def SwitchValue (v : RawVal) : Prop :=
  (∃ b, v = .atom (.bool b)) ∨ ∃ s b, s.map Char.toLower ∈ switchWords b ∧ v = .atom (.str s)

/-- One of the names of a choice. -/
def NameValue {T : Type} (name : T → Str) (v : RawVal) : Prop := ∃ t, v = .atom (.str (name t))

/-- A text. -/
def TextValue (v : RawVal) : Prop := ∃ s, v = .atom (.str s)

/-- A path to an existing file, relative to the configuration file. -/
def FileValue (env : Env) (v : RawVal) : Prop :=
  ∃ s, v = .atom (.str s) ∧ env.isFile (if s.head? = some '/' then s else env.base ++ ['/'] ++ s) = true

/-- A path to a directory that exists or can be created. -/
def DirValue (env : Env) (v : RawVal) : Prop :=
  ∃ s, v = .atom (.str s) ∧ env.canMakeDir (if s.head? = some '/' then s else env.base ++ ['/'] ++ s) = true

/-- If a setting is given, its value is as described. -/
def If (d : Raw) (k : Str) (P : RawVal → Prop) : Prop := ∀ v, d.get k = some v → P v

/-- A setting is given, and its value is as described. -/
def Given (d : Raw) (k : Str) (P : RawVal → Prop) : Prop := ∃ v, d.get k = some v ∧ P v

/-- There are no other settings. -/
def Only (d : Raw) (ks : List Str) : Prop := ∀ k, (d.get k).isSome → k ∈ ks

/-- The setting has the integer value `n`, given or by default. -/
def IntIs (d : Raw) (k : Str) (dflt n : ℤ) : Prop := d.get k = some (.atom (.int n)) ∨ (d.get k = none ∧ n = dflt)

/-- A dictionary with a condition. -/
def DictValue (P : Raw → Prop) (v : RawVal) : Prop := ∃ d, v = .dict d ∧ P d

/-- The value `null`, or another one. -/
def OrNull (P : RawVal → Prop) (v : RawVal) : Prop := v = .atom .null ∨ P v

structure DirichletGood (env : Env) (d : Raw) : Prop where
  only : Only d [lit "type", lit "file", lit "parameters"]
  type : If d (lit "type") (NameValue dirName)
  file : If d (lit "file") (OrNull (FileValue env))
  parameters : If d (lit "parameters") (OrNull (DictValue fun _ => True))
  given : d.get (lit "type") = some (.atom (.str (lit "dirichlet"))) →
    Given d (lit "file") (FileValue env) ∨ Given d (lit "parameters") (DictValue fun _ => True)

structure GeoGood (env : Env) (d : Raw) : Prop where
  only : Only d [lit "type", lit "costs", lit "aggregation", lit "probability_function", lit "rate", lit "inflection_point", lit "skeleton"]
  type : If d (lit "type") (NameValue geoName)
  costs : If d (lit "costs") fun v => FileValue env v ∨ v = .atom (.str (lit "from_data"))
  aggregation : If d (lit "aggregation") (NameValue aggName)
  prob : If d (lit "probability_function") (NameValue probName)
  rate : If d (lit "rate") (OrNull (NumValue (0 < ·)))
  inflection : If d (lit "inflection_point") (OrNull (NumValue fun _ => True))
  skeleton : If d (lit "skeleton") (NameValue skeletonName)
  costBased : d.get (lit "type") = some (.atom (.str (lit "cost_based"))) → Given d (lit "rate") (NumValue (0 < ·))

structure SizeGood (d : Raw) : Prop where
  only : Only d [lit "type", lit "min", lit "max"]
  type : Given d (lit "type") (NameValue sizeName)
  min : If d (lit "min") PosIntValue
  max : If d (lit "max") PosIntValue

structure PriorGood (env : Env) (d : Raw) : Prop where
  only : Only d [lit "confounding_effects", lit "cluster_effect", lit "geo", lit "objects_per_cluster", lit "weights"]
  conf : Given d (lit "confounding_effects") (DictValue fun e => ∀ name, If e name (DictValue fun g => ∀ group,
    If g group (DictValue (DirichletGood env))))
  clusterEffect : Given d (lit "cluster_effect") (DictValue (DirichletGood env))
  geo : Given d (lit "geo") (DictValue (GeoGood env))
  size : Given d (lit "objects_per_cluster") (DictValue SizeGood)
  weights : Given d (lit "weights") (DictValue (DirichletGood env))

/-- Every confounder has a list of names of groups, and every group a prior. -/
def ConfoundersGood (d : Raw) (prior : Raw) : Prop :=
  Given d (lit "confounders") (DictValue fun cs => ∀ name, If cs name fun v => ∃ groups : List Str, v = .atom (.list (groups.map .str)) ∧
    Given prior (lit "confounding_effects") (DictValue fun e => Given e name (DictValue fun g => ∀ x ∈ groups, (g.get x).isSome)))

structure ModelGood (env : Env) (d : Raw) : Prop where
  only : Only d [lit "clusters", lit "confounders", lit "sample_source", lit "prior"]
  clusters : If d (lit "clusters") fun v => (∃ n : ℤ, v = .atom (.int n)) ∨ ∃ l : List ℤ, v = .atom (.list (l.map .int))
  sampleSource : Given d (lit "sample_source") SwitchValue
  prior : Given d (lit "prior") (DictValue fun p => PriorGood env p ∧ ConfoundersGood d p)

structure OperatorsGood (d : Raw) : Prop where
  only : Only d [lit "clusters", lit "weights", lit "cluster_effect", lit "confounding_effects", lit "source"]
  nonneg : ∀ k, If d k (NumValue (0 ≤ ·))

structure WarmupGood (d : Raw) : Prop where
  only : Only d [lit "warmup_steps", lit "warmup_chains"]
  pos : ∀ k, If d k PosIntValue

structure McmcGood (d : Raw) : Prop where
  only : Only d [lit "steps", lit "samples", lit "runs", lit "sample_from_prior", lit "init_objects_per_cluster",
    lit "grow_to_adjacent", lit "operators", lit "warmup"]
  ints : ∀ k ∈ [lit "steps", lit "samples", lit "runs", lit "init_objects_per_cluster"], If d k PosIntValue
  fromPrior : If d (lit "sample_from_prior") SwitchValue
  grow : If d (lit "grow_to_adjacent") (NumValue fun q => 0 ≤ q ∧ q ≤ 1)
  operators : If d (lit "operators") (DictValue OperatorsGood)
  warmup : If d (lit "warmup") (DictValue WarmupGood)
  spacing : ∀ n m, IntIs d (lit "steps") 1000000 n → IntIs d (lit "samples") 1000 m → m ∣ n

structure DataGood (env : Env) (d : Raw) : Prop where
  only : Only d [lit "features", lit "feature_states", lit "projection"]
  features : Given d (lit "features") (FileValue env)
  featureStates : Given d (lit "feature_states") (FileValue env)
  projection : If d (lit "projection") TextValue

structure ResultsGood (env : Env) (d : Raw) : Prop where
  only : Only d [lit "path", lit "log_file"]
  path : If d (lit "path") (DirValue env)
  logFile : If d (lit "log_file") SwitchValue

/-- A configuration file as documented. (`confounders` and `sample_source` have to be given, and `operators` if sources are not sampled, see
`C86_required_despite_default`.) -/
structure ConfigGood (env : Env) (raw : Raw) : Prop where
  only : Only raw [lit "data", lit "model", lit "mcmc", lit "results"]
  data : Given raw (lit "data") (DictValue (DataGood env))
  model : Given raw (lit "model") (DictValue (ModelGood env))
  mcmc : Given raw (lit "mcmc") (DictValue McmcGood)
  results : If raw (lit "results") (DictValue (ResultsGood env))
  noSource : ∀ v, says_at raw [lit "model", lit "sample_source"] = some v → PyFalse v →
    (says_at raw [lit "mcmc", lit "operators"]).isSome

end SBayes.Validate
