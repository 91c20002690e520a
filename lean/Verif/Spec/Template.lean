import Verif.Model.Template
import Verif.Spec.Validate
/- The placeholders of the template, and what it stands for when they are replaced. -/
namespace SBayes.Validate
open SBayes.Config
open SBayes.Log (lit)

/-- Where the template says `<REQUIRED>`. -/
def requiredPaths : List (List Str) := [
  [lit "data", lit "features"], [lit "data", lit "feature_states"],
  [lit "model", lit "prior", lit "confounding_effects"],
  [lit "model", lit "prior", lit "objects_per_cluster", lit "type"]]

/-- Where the template says `<OPTIONAL>`. -/
def optionalPaths : List (List Str) := [
  [lit "model", lit "prior", lit "cluster_effect", lit "file"], [lit "model", lit "prior", lit "cluster_effect", lit "parameters"],
  [lit "model", lit "prior", lit "geo", lit "rate"], [lit "model", lit "prior", lit "geo", lit "inflection_point"],
  [lit "model", lit "prior", lit "weights", lit "file"], [lit "model", lit "prior", lit "weights", lit "parameters"]]

/-- There are no files named like the placeholders, and Python does not read them as numbers. -/
structure NoPlaceholders (env : Env) : Prop where
  noFile : ∀ p, p = lit "<REQUIRED>" ∨ p = lit "<OPTIONAL>" → env.isFile (env.base ++ ['/'] ++ p) = false
  number : env.numOfStr (lit "<OPTIONAL>") = none

/-- The settings a program without any optional setting uses. -/
def defaultGeo : GeoPriorConfig := ⟨.uniform, .fromData, .mean, .exponential, none, none, .mst⟩
@[inherit_doc defaultGeo] def defaultDirichlet : DirichletConfig := ⟨.uniform, none, none⟩
@[inherit_doc defaultGeo] def defaultMcmc : MCMCConfig := ⟨1000000, 1000, 1, false, 5, 4 / 5, ⟨45, 15, 5, 15, 10⟩, ⟨50000, 10⟩⟩

/-- A configuration file with the required settings only. (The sections `mcmc`, `cluster_effect`, `geo` and `weights` and the
settings `confounders` and `sample_source` are needed as well: C86.) -/
def minimal (e : Entries) : Raw :=
  mkDict [
    (lit "data", .dict (mkDict [(lit "features", e.features), (lit "feature_states", e.featureStates)])),
    (lit "model", .dict (mkDict [(lit "confounders", e.confounders), (lit "sample_source", .atom (.bool true)),
      (lit "prior", .dict (mkDict [(lit "confounding_effects", e.confoundingEffects), (lit "cluster_effect", .dict .nil),
        (lit "geo", .dict .nil), (lit "objects_per_cluster", .dict (mkDict [(lit "type", e.sizeType)])),
        (lit "weights", .dict .nil)]))])),
    (lit "mcmc", .dict .nil)]

/-- The entries are complete: existing files, a prior for every group, a type of size prior; optional lines are deleted or
empty. -/
structure Complete (env : Env) (e : Entries) (f s : Str) (conf : List (Str × List Str))
    (effects : List (Str × List (Str × DirichletConfig))) (t : SizeType) : Prop where
  features : e.features = .atom (.str f)
  featuresFile : env.isFile (fixPath env f) = true
  states : e.featureStates = .atom (.str s)
  statesFile : env.isFile (fixPath env s) = true
  sizeType : e.sizeType = .atom (.str (sizeName t))
  confounders : e.confounders = .dict (mkDict (conf.map fun c => (c.1, .atom (.list (c.2.map .str)))))
  /-- The priors of the confounding effects are valid: `effects` is what they say. -/
  effectsValid : ((toDict e.confoundingEffects).bind
    (mapDict fun v => (toDict v).bind (mapDict (parseDirichlet env)))) = some effects
  /-- Every group has a prior. -/
  priors : ∀ c ∈ conf, ∀ g ∈ c.2, ((effects.lookup c.1).bind (·.lookup g)).isSome
  named : ∀ c ∈ conf, (effects.lookup c.1).isSome
  line : ∀ l, e.line l = none ∨ e.line l = some (.atom .null)

end SBayes.Validate
