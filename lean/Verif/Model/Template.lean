import Verif.Model.Validate
/-
The template of a configuration that is shipped with the program, sbayes/config/config_template.yaml, as the dictionary the
YAML parser makes of it. Comments are left out. The lines with placeholders are parameters, so that completed versions of the
template are instances of the same definition.
-/
namespace SBayes.Validate
open SBayes.Config
open SBayes.Log (lit)

/-- The optional lines of the template. -/
inductive Line | effectFile | effectParameters | rate | inflection | weightsFile | weightsParameters
deriving DecidableEq

/-- What a user writes into the template: the values of the required settings, the optional lines (`none`: the line is
deleted) and the confounders. -/
structure Entries where
  features : RawVal
  featureStates : RawVal
  confoundingEffects : RawVal
  sizeType : RawVal
  confounders : RawVal
  line : Line → Option RawVal

/-- A line that may have been deleted. -/
def optLine (k : Str) (v : Option RawVal) (rest : Raw) : Raw :=
  match v with
  | none => rest
  | some v => .cons k v rest

/-- config_template.yaml:18-22 and 39-43. -/
def templateDirichlet (file parameters : Option RawVal) : RawVal :=
  .dict (.cons (lit "type") (.atom (.str (lit "uniform")))
    (optLine (lit "file") file (optLine (lit "parameters") parameters .nil)))

/-- config_template.yaml:24-31. -/
def templateGeo (rate inflection : Option RawVal) : RawVal :=
  .dict (.cons (lit "type") (.atom (.str (lit "uniform")))
    (.cons (lit "costs") (.atom (.str (lit "from_data")))
    (.cons (lit "aggregation") (.atom (.str (lit "mean")))
    (.cons (lit "probability_function") (.atom (.str (lit "exponential")))
    (optLine (lit "rate") rate (optLine (lit "inflection_point") inflection .nil))))))

/-- config_template.yaml:33-37. -/
def templateSize (type : RawVal) : RawVal :=
  .dict (mkDict [(lit "type", type), (lit "min", .atom (.int 2)), (lit "max", .atom (.int 10000))])

/-- config_template.yaml:14-43. -/
def templatePrior (e : Entries) : RawVal :=
  .dict (mkDict [(lit "confounding_effects", e.confoundingEffects),
    (lit "cluster_effect", templateDirichlet (e.line .effectFile) (e.line .effectParameters)),
    (lit "geo", templateGeo (e.line .rate) (e.line .inflection)),
    (lit "objects_per_cluster", templateSize e.sizeType),
    (lit "weights", templateDirichlet (e.line .weightsFile) (e.line .weightsParameters))])

/-- config_template.yaml:8-43. -/
def templateModel (e : Entries) : RawVal :=
  .dict (mkDict [(lit "clusters", .atom (.int 1)), (lit "confounders", e.confounders),
    (lit "sample_source", .atom (.bool true)), (lit "prior", templatePrior e)])

/-- config_template.yaml:45-65. -/
def templateMcmc : RawVal :=
  .dict (mkDict [(lit "steps", .atom (.int 1000000)), (lit "samples", .atom (.int 1000)), (lit "runs", .atom (.int 1)),
    (lit "sample_from_prior", .atom (.bool false)), (lit "init_objects_per_cluster", .atom (.int 5)),
    (lit "grow_to_adjacent", .atom (.num (4 / 5))),
    (lit "operators", .dict (mkDict [(lit "clusters", .atom (.num 45)), (lit "weights", .atom (.num 15)),
      (lit "cluster_effect", .atom (.num 5)), (lit "confounding_effects", .atom (.num 15)), (lit "source", .atom (.num 10))])),
    (lit "warmup", .dict (mkDict [(lit "warmup_steps", .atom (.int 50000)), (lit "warmup_chains", .atom (.int 10))]))])

/-- config_template.yaml:1-70. -/
def template (e : Entries) : Raw :=
  mkDict [
    (lit "data", .dict (mkDict [(lit "features", e.features), (lit "feature_states", e.featureStates),
      (lit "projection", .atom (.str (lit "epsg:4326")))])),
    (lit "model", templateModel e), (lit "mcmc", templateMcmc),
    (lit "results", .dict (mkDict [(lit "path", .atom (.str (lit "results"))), (lit "log_file", .atom (.bool true))]))]

/-- The placeholders. -/
def requiredText : RawVal := .atom (.str (lit "<REQUIRED>"))
@[inherit_doc requiredText] def optionalText : RawVal := .atom (.str (lit "<OPTIONAL>"))

/-- The template as it is shipped, config_template.yaml:1-70. -/
def shipped : Entries := ⟨requiredText, requiredText, requiredText, requiredText, .dict .nil, fun _ => some optionalText⟩

end SBayes.Validate
