import Verif.Model.Build
import Verif.Spec.Sampler
import Verif.Spec.Data
import Verif.Spec.Validate
/- Specification: what a run should be, in terms of the configuration and the files. -/
namespace SBayes.Build
open SBayes.Data SBayes.Validate
open SBayes.Log (lit)

/-- The data file and the table of states, as pandas reads them. -/
def dataTable (W : World) (c : SBayesConfig) : Table := readDataCsv W.ws W.isNA (W.csv c.data.features)
def stateTable (W : World) (c : SBayesConfig) : Table := readDataCsv W.ws W.isNA (W.csv c.data.featureStates)

/-- The counts given for a Dirichlet prior: by the file if there is one, otherwise by the parameters. -/
def CountsGiven (W : World) (x : DirichletConfig) (d : RawVal) : Prop :=
  (∃ p, x.file = some p ∧ W.json p = some d) ∨ (x.file = none ∧ ∃ r, x.parameters = some r ∧ r ≠ .nil ∧ d = .dict r)

/-- A number in a file; `true` and `false` count as 1 and 0. -/
inductive IsNumber : RawVal → ℝ → Prop
  | int (n : ℤ) : IsNumber (.atom (.int n)) n
  | num (q : ℚ) : IsNumber (.atom (.num q)) q
  | true : IsNumber (.atom (.bool Bool.true)) 1
  | false : IsNumber (.atom (.bool Bool.false)) 0

/-- The prior that the configuration gives for a group of a confounder. -/
def PriorGiven (c : SBayesConfig) (conf group : Str) (x : DirichletConfig) : Prop :=
  ∃ P, c.model.prior.confoundingEffects.lookup conf = some P ∧ P.lookup group = some x

/-- The prior count for a state of a feature. -/
def Count (d : RawVal) (feature state : Str) (a : ℝ) : Prop :=
  ∃ e v, item d feature = some e ∧ item e state = some v ∧ IsNumber v a

/-- The state table lists state `s` as the `i`-th state of the `f`-th feature `name`. -/
def IsState (fs : Table) (f i : ℕ) (name s : Str) : Prop :=
  ∃ col, fs.cols[f]? = some (name, col) ∧ i < fs.nRows ∧ col i = some s

/-- The requirements on files and settings that are not checked when the configuration is read. -/
structure Sensible (W : World) (c : SBayesConfig) : Prop where
  /-- The states of a feature are listed without gaps, and there is at least one. -/
  noGaps : ∀ f, NoGaps (stateTable W c) f
  hasState : ∀ p ∈ (stateTable W c).cols, ∃ s < (stateTable W c).nRows, (p.2 s).isSome
  /-- There is a confounder; every confounder has a group, and no group is listed twice. -/
  confounders : c.model.confounders ≠ []
  groups : ∀ x ∈ c.model.confounders, x.2.Nodup ∧ x.2 ≠ []
  /-- For every object there is a confounder that applies to it: one without a column (which applies to all objects), or
  one with a value for the object. -/
  covered : ∀ i < (dataTable W c).nRows, ∃ x ∈ c.model.confounders, ∀ col, (dataTable W c).col x.1 = some col → (col i).isSome
  clusters : ∃ k : ℤ, 0 < k ∧ c.model.clusters = .one k
  /-- Prior counts may be negative, but only down to −1 (one is added). -/
  counts : ∀ conf group x d, PriorGiven c conf group x → x.type = .dirichlet →
    CountsGiven W x d → ∀ f s a, Count d f s a → -1 < a
  /-- The geographical spread of a single object is not defined. -/
  spread : c.model.prior.geo.type = .costBased → 2 ≤ c.model.prior.size.min
  order : ∀ n, Lik.VisitsAll (W.order n)

/-- The cost from object `i` to object `j`: the distance of their locations, or the entry of the cost file for their ids. -/
def IsCost (W : World) (c : SBayesConfig) (cost : ℕ → ℕ → ℝ) : Prop :=
  ∃ o net, objectsFromDataframe W.float (dataTable W c) = some o ∧ W.network o = some net ∧
    (c.model.prior.geo.costs = .fromData → cost = net.1) ∧
    ∀ p, c.model.prior.geo.costs = .file p → ∃ ids : List Str, o.ids = ids.map some ∧ readGeoCostMatrix ids (W.costs p) = some cost

/-- The run is the one that the configuration and the files describe. -/
structure Reflects (W : World) (c : SBayesConfig) (b : Built) : Prop where
  objects : b.N = (dataTable W c).nRows
  featureCount : b.F = (stateTable W c).cols.length
  stateCount : b.S = (stateTable W c).nRows
  clusters : c.model.clusters = .one b.K
  confounderCount : b.M = c.model.confounders.length
  /-- An object has the state that the table lists there, and only if that is its entry in the column of the feature. -/
  observed : ∀ (n : Fin b.N) (f : Fin b.F) (s : Fin b.S) p, (stateTable W c).cols[f.val]? = some p → b.setup.d.features n f s = true →
    ∃ v, entryOf (dataTable W c) p.1 n = some v ∧ p.2 s = some v
  one : ∀ (n : Fin b.N) (f : Fin b.F) p, (stateTable W c).cols[f.val]? = some p → (∃ v, entryOf (dataTable W c) p.1 n = some v) →
    ∃! s, b.setup.d.features n f s = true
  applicable : ∀ (f : Fin b.F) (s : Fin b.S) p, (stateTable W c).cols[f.val]? = some p → (b.setup.cfg.app f s = true ↔ (p.2 s).isSome)
  /-- The groups of a confounder, in the order of the configuration, and the objects in them. -/
  groupCount : ∀ (i : Fin b.M) x, c.model.confounders[i.val]? = some x → b.nG i = x.2.length
  groups : ∀ (i : Fin b.M) x (g : Fin (b.nG i)) name (n : Fin b.N), c.model.confounders[i.val]? = some x → x.2[g.val]? = some name →
    (b.setup.d.confGroups i g n = true ↔ ∀ col, (dataTable W c).col x.1 = some col → col n = some name)
  /-- The configured groups are those in the data. -/
  allGroups : ∀ x ∈ c.model.confounders, ∀ col, (dataTable W c).col x.1 = some col →
    ∀ v, v ∈ x.2 ↔ ∃ i < (dataTable W c).nRows, col i = some v
  universal : ∀ x ∈ c.model.confounders, (dataTable W c).col x.1 = none → x.2 = ["<ALL>".toList]
  /-- The priors of the confounding effects: one plus the given counts. -/
  uniformPrior : ∀ (i : Fin b.M) x (g : Fin (b.nG i)) name y, c.model.confounders[i.val]? = some x → x.2[g.val]? = some name →
    PriorGiven c x.1 name y → y.type = .uniform → b.setup.cfg.conf i g = none
  dirichletPrior : ∀ (i : Fin b.M) x (g : Fin (b.nG i)) name y, c.model.confounders[i.val]? = some x → x.2[g.val]? = some name →
    PriorGiven c x.1 name y → y.type = .dirichlet →
    ∃ d a, CountsGiven W y d ∧ b.setup.cfg.conf i g = some a ∧
      ∀ (f : Fin b.F) (s : Fin b.S) feature state, IsState (stateTable W c) f.val s.val feature state → ∃ q, Count d feature state q ∧ a f s = 1 + q
  size : (b.setup.cfg.size = .uniformArea ↔ c.model.prior.size.type = .uniformArea) ∧
    (b.setup.cfg.size = .uniformSize ↔ c.model.prior.size.type = .uniformSize) ∧
    (b.setup.cfg.size = .quadraticSize ↔ c.model.prior.size.type = .quadratic)
  sizeLimits : b.setup.cl.minSize = c.model.prior.size.min ∧ b.setup.cl.maxSize = c.model.prior.size.max
  grow : b.setup.cl.pConn = c.mcmc.growToAdjacent
  source : b.setup.cfg.sampleSource = c.model.sampleSource
  geoKind : c.model.prior.geo.type ≠ .diameterBased
  geoUniform : c.model.prior.geo.type = .uniform → b.setup.cfg.geo = .uniform
  geoCost : c.model.prior.geo.type = .costBased → ∃ agg f rate cost,
    b.setup.cfg.geo = .costBased agg f rate (fun i j => cost i j) (W.mst fun i j => cost i j) ∧ IsCost W c cost ∧
    (∃ r, c.model.prior.geo.rate = some r ∧ rate = r) ∧
    ((agg = .mean ↔ c.model.prior.geo.aggregation = .mean) ∧ (agg = .sum ↔ c.model.prior.geo.aggregation = .sum) ∧
      (agg = .max ↔ c.model.prior.geo.aggregation = .max)) ∧
    (c.model.prior.geo.probabilityFunction = .exponential → f = .exponential) ∧
    (c.model.prior.geo.probabilityFunction = .sigmoid → ∃ x, c.model.prior.geo.inflectionPoint = some x ∧ f = .sigmoid x)
  neighbours : ∃ o net, objectsFromDataframe W.float (dataTable W c) = some o ∧ W.network o = some net ∧
    ∀ i j, b.setup.cl.adj i j = net.2 i j
  operators : b.ops.clusters = c.mcmc.operators.clusters ∧ b.ops.weights = c.mcmc.operators.weights ∧
    b.ops.clusterEffect = c.mcmc.operators.clusterEffect ∧ b.ops.confoundingEffects = c.mcmc.operators.confoundingEffects ∧
    b.ops.source = c.mcmc.operators.source
  order : b.setup.clOrder = W.order b.K ∧ ∀ i, b.setup.confOrder i = W.order (b.nG i)

/-- When a run can be set up. -/
structure Runnable (W : World) (c : SBayesConfig) : Prop where
  /-- Every feature of the state table is a column of the data file, and the state table lists all values in it. -/
  features : ∀ f p, (stateTable W c).cols[f]? = some p → ∃ col, (dataTable W c).col p.1 = some col ∧
    ∀ i < (dataTable W c).nRows, ∀ v, col i = some v → Lists (stateTable W c) f v
  columns : ∀ name ∈ ["x".toList, "y".toList, "id".toList], ((dataTable W c).col name).isSome
  /-- The configured groups are those in the data. A confounder without a column has only the group `<ALL>`. -/
  confounders : ∀ x ∈ c.model.confounders, (∀ col, (dataTable W c).col x.1 = some col →
      ∀ v, v ∈ x.2 ↔ ∃ i < (dataTable W c).nRows, col i = some v) ∧
    ((dataTable W c).col x.1 = none → x.2 = ["<ALL>".toList])
  network : ∀ o, objectsFromDataframe W.float (dataTable W c) = some o → (W.network o).isSome
  /-- A cost file has the ids of the objects, and each of them in one row only. -/
  costs : ∀ p, c.model.prior.geo.costs = .file p → ∃ (ids : List Str) (col : ℕ → Option Str), (dataTable W c).col "id".toList = some col ∧
    (List.range (dataTable W c).nRows).map col = ids.map some ∧
    (∀ x, x ∈ (W.costs p).columns ↔ x ∈ ids) ∧ ∀ x ∈ ids, (W.costs p).index.count x = 1
  clusters : ∃ k : ℤ, 0 ≤ k ∧ c.model.clusters = .one k
  weights : c.model.prior.weights.type = .uniform
  clusterEffect : c.model.prior.clusterEffect.type = .uniform
  /-- Priors for confounding effects: only for confounders in the model, with counts for all states of all features. -/
  priors : ∀ x ∈ c.model.prior.confoundingEffects, (∃ y ∈ c.model.confounders, y.1 = x.1) ∧
    ∀ g ∈ x.2, g.2.type = .dirichlet → ∃ d, CountsGiven W g.2 d ∧
      ∀ f i name s, IsState (stateTable W c) f i name s → ∃ a, Count d name s a
  geo : c.model.prior.geo.type ≠ .diameterBased
  sigmoid : c.model.prior.geo.type = .costBased → c.model.prior.geo.probabilityFunction = .sigmoid →
    c.model.prior.geo.inflectionPoint.isSome

end SBayes.Build
