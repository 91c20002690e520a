import Verif.Model.Validate
import Verif.Model.Data
import Verif.Model.Sampler
/-
From a configuration and the files it names to a run that is set up: `Data.from_config` (sbayes/load_data.py:229-252) with
`Data.__init__` (206-227), `Model.__init__` (sbayes/model/model.py:43-63), `Prior.__init__` (sbayes/model/prior.py:33-62) with
the constructors of its parts, and the settings `MCMCSetup.sample` passes on (sbayes/mcmc_setup.py:57-75).

`none` is an exception, either here or at the first evaluation of the prior.
-/
namespace SBayes.Build
open SBayes.Data SBayes.Validate
open SBayes.Log (lit)

/-- What a run depends on besides the configuration: the contents of files, the conversion of cells by pandas, the
triangulation and distances of the objects (`ComputeNetwork`, preprocessing.py:94-147, `none` if it fails), the minimum
spanning trees scipy finds, the order in which Python visits sets, and the uninitialised buffer of the likelihood. -/
structure World where
  ws : Char → Bool
  isNA : Str → Bool
  float : Option Str → Option ℝ
  csv : Str → CsvFile
  json : Str → Option RawVal
  costs : Str → CostFile
  network : Objects → Option ((ℕ → ℕ → ℝ) × (ℕ → ℕ → Bool))
  mst : {N : ℕ} → (Fin N → Fin N → ℝ) → (z : Fin N → Bool) → SimpleGraph (Prior.Members z)
  order : (n : ℕ) → List (Fin n)
  empty : {N F C : ℕ} → Fin N → Fin F → Fin C → ℝ

/-! ### Data -/

/-- `Data.from_config`, load_data.py:229-244: objects, features, confounders. -/
def loadData (W : World) (c : SBayesConfig) : Option Dataset :=
  readFeatures W.ws W.isNA W.float (W.csv c.data.features) (W.csv c.data.featureStates)
    (c.model.confounders.map fun x => (x.1, some x.2))

/-- `Data.__init__`, load_data.py:221-227: the cost matrix. `objects.id` must not have gaps (a missing id is not in any cost file). -/
noncomputable def costMatrix (W : World) (c : SBayesConfig) (objects : Objects) (dist : ℕ → ℕ → ℝ) : Option (ℕ → ℕ → ℝ) :=
  match c.model.prior.geo.costs with
  | .fromData => some dist
  | .file p => (objects.ids.mapM id).bind fun ids => readGeoCostMatrix ids (W.costs p)

/-! ### Priors -/

/-- A number in a JSON or YAML file, where Python adds it to a float. -/
noncomputable def number : RawVal → Option ℝ
  | .atom (.int n) => some n
  | .atom (.num q) => some q
  | .atom (.bool b) => some (if b then 1 else 0)
  | _ => none

/-- `parse_concentration_dict`, prior.py:158-171; `names` is `feature_and_state_names`. -/
noncomputable def parseConcentration (names : List (Str × List Str)) (d : RawVal) : Option (List (List ℝ)) :=
  names.mapM fun f => f.2.mapM fun s => do
    let counts ← item d f.1
    let x ← item counts s
    let a ← number x
    some (1 + a)

/-- `config.parameters` if it is not empty (an empty dictionary is false). -/
def givenParameters (x : DirichletConfig) : Option RawVal :=
  match x.parameters with
  | some (.cons k v r) => some (.dict (.cons k v r))
  | _ => none

/-- `load_concentration`, prior.py:143-156: the file has precedence. -/
noncomputable def loadConcentration (W : World) (names : List (Str × List Str)) (x : DirichletConfig) : Option (List (List ℝ)) :=
  match x.file with
  | some p => (W.json p).bind (parseConcentration names)
  | none => (givenParameters x).bind (parseConcentration names)

/-- One group in `ConfoundingEffectsPrior.parse_attributes`, prior.py:200-211; `some none` is the uniform prior. -/
noncomputable def groupPrior (W : World) (names : List (Str × List Str)) (x : DirichletConfig) : Option (Option (List (List ℝ))) :=
  match x.type with
  | .uniform => some none
  | .dirichlet => (loadConcentration W names x).map some

/-- The loops over confounders and groups, prior.py:51-57 and 202. -/
noncomputable def confoundingPriors (W : World) (names : List (Str × List Str)) (c : SBayesConfig) :
    Option (List (Str × List (Str × Option (List (List ℝ))))) :=
  c.model.prior.confoundingEffects.mapM fun x =>
    (x.2.mapM fun g => (groupPrior W names g.2).map fun p => (g.1, p)).map fun l => (x.1, l)

/-- `self.config[group]`, `self.concentration[group]` of the prior for a confounder, prior.py:228-239. -/
def priorOf {T : Type} (P : List (Str × List (Str × T))) (conf group : Str) : Option T := (P.lookup conf).bind fun l => l.lookup group

/-- Entry of a concentration array for state `s`: the arrays have an entry for each applicable state
(`group_effect[f, states_f]`, prior.py:686). -/
def entryAt (app : ℕ → ℕ → Bool) (l : List (List ℝ)) (f s : ℕ) : ℝ :=
  (l.getD f []).getD ((List.range s).countP (app f)) 0

/-- `GeoPriorConfig.AggregationStrategies` to numpy functions, prior.py:438-442. -/
def aggregator : AggType → Prior.Agg
  | .mean => .mean
  | .sum => .sum
  | .max => .max

/-- `parse_prob_function`, prior.py:480-498: a sigmoid needs an inflection point. -/
noncomputable def probFn (g : GeoPriorConfig) : Option Prior.ProbFn :=
  match g.probabilityFunction with
  | .exponential => some .exponential
  | .sigmoid => g.inflectionPoint.map fun x : ℚ => .sigmoid (x : ℝ)

/-- `GeoPrior`, prior.py:444-478 and 500-531: a diameter based prior fails when it is evaluated (`self.TYPES` does not exist). The
setting `skeleton` is not used. -/
noncomputable def geoPrior (W : World) (g : GeoPriorConfig) {N : ℕ} (cost : Fin N → Fin N → ℝ) : Option (Posterior.GeoCfg N) :=
  match g.type with
  | .uniform => some .uniform
  | .diameterBased => none
  | .costBased => do
    let f ← probFn g
    let rate ← g.rate
    some (.costBased (aggregator g.aggregation) f rate cost (W.mst cost))

/-- `ClusterSizePriorConfig.Types`, prior.py:381-414. -/
def sizeType : SizeType → Prior.SizePriorType
  | .uniformArea => .uniformArea
  | .uniformSize => .uniformSize
  | .quadratic => .quadraticSize

/-- `WeightsPrior` and `ClusterEffectPrior` accept uniform priors only, prior.py:259-264 and 302-308. -/
def uniformOnly (x : DirichletConfig) : Option Unit := guard (x.type = .uniform)

/-- The number of clusters in a run (a list of numbers has been split up by `cli.main`, cli.py:70-83). -/
def numClusters : NumClusters → Option ℕ
  | .one n => if 0 ≤ n then some n.toNat else none
  | .many _ => none

/-! ### The run -/

structure Built where
  (K N F S M : ℕ)
  nG : Fin M → ℕ
  setup : Kernel.Setup K N F S M nG
  ops : MCMC.OpConfig
  /-- Names, in the order of the indices. -/
  features : List (Str × List Str)
  confounders : List (Str × List Str)

/-- `config.mcmc.operators`, mcmc_setup.py:69. -/
noncomputable def opConfig (o : OperatorsConfig) : MCMC.OpConfig :=
  { clusters := o.clusters, weights := o.weights, clusterEffect := o.clusterEffect,
    confoundingEffects := o.confoundingEffects, source := o.source }

open Classical in
/-- `Data.from_config`, `Model.__init__`, `Prior.__init__`, and the arguments of `ClusterMCMC`. -/
noncomputable def build (W : World) (c : SBayesConfig) : Option Built := do
  let D ← loadData W c
  let network ← W.network D.objects
  let cost ← costMatrix W c D.objects network.1
  let K ← numClusters c.model.clusters
  uniformOnly c.model.prior.weights
  uniformOnly c.model.prior.clusterEffect
  let names := ((readDataCsv W.ws W.isNA (W.csv c.data.featureStates)).cols.map Prod.fst).zip D.features.stateNames
  let P ← confoundingPriors W names c
  -- `sample.confounding_effects[self.conf]`, prior.py:223: a prior for an unknown confounder
  guard (∀ x ∈ P, x.1 ∈ D.confounders.map Prod.fst)
  -- `self.config[group]`, prior.py:233: a group without prior
  guard (∀ x ∈ D.confounders, ∀ g ∈ x.2.groupNames, (priorOf P x.1 g).isSome)
  let N := (W.csv c.data.features).nRows
  let F := (W.csv c.data.featureStates).header.length
  let S := (W.csv c.data.featureStates).nRows
  let M := D.confounders.length
  let geo ← geoPrior W c.model.prior.geo (fun i j : Fin N => cost i j)
  some
    { K := K, N := N, F := F, S := S, M := M
      nG := fun i => D.confounders[i].2.groupNames.length
      setup :=
        { d := { features := fun n f s => D.features.values n f s
                 confGroups := fun i g n => D.confounders[i].2.assignment g n }
          cfg := { size := sizeType c.model.prior.size.type
                   geo := geo
                   conf := fun i g => ((priorOf P D.confounders[i].1 (D.confounders[i].2.groupNames[g])).getD none).map fun l f s =>
                     entryAt D.features.states l f s
                   sampleSource := c.model.sampleSource
                   app := fun f s => D.features.states f s }
          cl := { minSize := c.model.prior.size.min, maxSize := c.model.prior.size.max
                  adj := fun i j => network.2 i j, pConn := c.mcmc.growToAdjacent }
          clOrder := W.order K
          confOrder := fun i => W.order D.confounders[i].2.groupNames.length
          empty := W.empty }
      ops := opConfig c.mcmc.operators
      features := names
      confounders := D.confounders.map fun x => (x.1, x.2.groupNames) }

end SBayes.Build
