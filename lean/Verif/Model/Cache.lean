import Verif.Model.Likelihood
import Mathlib.Logic.Function.Basic
/-
Model of samples with cached calculations: `Sample`, `ModelCache`, `CalculationNode`,
`HasComponents` (sbayes/sampling/state.py:157-459) and of the code that reads and fills the caches
(sbayes/model/likelihood.py, sbayes/model/prior.py).

Parameters are independent values here (justified by C01/C02 for all operations below except
whole-array replacement of grouped parameters, which only occurs in the `...EditAll` operations).
The cached version `-1` (`outdated_version`) is `none`.
Python iterates over sets of changed groups in an unspecified order: evaluation operations carry an
enumeration of the groups, which is filtered by "changed".
-/
namespace SBayes.Cache
open SBayes.Lik
open scoped BigOperators

/-- `GroupedParameters`, state.py:82-123: value by group, version, version of the last change by
group. -/
structure GP (G : ℕ) (α : Type) where
  value : Fin G → α
  version : ℕ
  gver : Fin G → ℕ

/-- `ArrayParameter`, state.py:38-79. -/
structure AP (α : Type) where
  value : α
  version : ℕ

variable {G : ℕ} {α : Type}

/-- `GroupedParameters.__init__`, state.py:86-88. -/
def GP.new (v : Fin G → α) : GP G α := ⟨v, 0, fun _ => 0⟩

/-- `edit_group`/`edit_cluster`/`add_object`/`remove_object`/`set_group`/`set_items` with an int or
tuple key, state.py:90-119, 142-148. -/
def GP.editGroup (p : GP G α) (g : Fin G) (f : α → α) : GP G α :=
  { value := Function.update p.value g (f (p.value g))
    version := p.version + 1
    gver := Function.update p.gver g (p.version + 1) }

/-- The inherited `edit()` (state.py:63-71) and `set_value()` (49-52): the version increases, the
group versions stay as they are. -/
def GP.editAll (p : GP G α) (f : (Fin G → α) → (Fin G → α)) : GP G α :=
  { p with value := f p.value, version := p.version + 1 }

/-- `ArrayParameter.edit` / `set_value` / `set_items`, state.py:49-71. -/
def AP.edit (p : AP α) (f : α → α) : AP α := ⟨f p.value, p.version + 1⟩

/-- A `CalculationNode` without grouped inputs (state.py:157-175): value and cached version. -/
structure Node (V α : Type) where
  value : α
  cached : Option V

variable {𝕜 : Type} [Field 𝕜] {K N F S M : ℕ} {nG : Fin M → ℕ}

/-- The `component_likelihoods` node: inputs clusters, cluster_effect, and one effect per
confounder (state.py:329-337), each with cached group versions. -/
structure CompNode (𝕜 : Type) (K N F M : ℕ) (nG : Fin M → ℕ) where
  value : Fin N → Fin F → Fin (M + 1) → 𝕜
  cached : Option (ℕ × ℕ × (Fin M → ℕ))
  gCl : Fin K → Option ℕ
  gCe : Fin K → Option ℕ
  gCf : (c : Fin M) → Fin (nG c) → Option ℕ

/-- One `confounding_effects_prior` node (state.py:320-323, 338). -/
structure ConfNode (𝕜 : Type) (G : ℕ) where
  value : Fin G → 𝕜
  cached : Option ℕ
  g : Fin G → Option ℕ

/-- `ModelCache`, state.py:294-347.  (The nodes `cluster_effect_prior` and `weights_prior` always
hold 0 because only uniform priors are accepted, prior.py:262-265 and 304-308; they are left out.) -/
structure ModelCache (𝕜 : Type) (K N F M : ℕ) (nG : Fin M → ℕ) where
  comp : CompNode 𝕜 K N F M nG
  wnorm : Node (ℕ × ℕ) (Fin N → Fin F → Fin (M + 1) → 𝕜)
  geo : Node Unit 𝕜
  size : Node ℕ 𝕜
  conf : (c : Fin M) → ConfNode 𝕜 (nG c)
  has : Node ℕ (Fin N → Fin (M + 1) → Bool)
  src : Node (ℕ × ℕ × ℕ) 𝕜

/-- `Sample`, state.py:383-417.  The source is present for both modes; `useSource` says whether
`sample.source is not None`. -/
structure Sample (𝕜 : Type) (K N F S M : ℕ) (nG : Fin M → ℕ) where
  clusters : GP K (Fin N → Bool)
  weights : AP (Fin F → Fin (M + 1) → 𝕜)
  clusterEffect : GP K (Fin F → Fin S → 𝕜)
  confEffect : (c : Fin M) → GP (nG c) (Fin F → Fin S → 𝕜)
  useSource : Bool
  source : AP (Fin N → Fin F → Fin (M + 1) → Bool)
  cache : ModelCache 𝕜 K N F M nG

/-- The prior terms as functions of the parameters (their formulas do not matter for caching):
cluster-size prior (prior.py:395-414), geo-prior (511-528), prior of one confounding effect group
(232-240), and the logarithm used in the source prior (362). -/
structure PriorFns (𝕜 : Type) (K N F S M : ℕ) (nG : Fin M → ℕ) where
  sizeP : (Fin K → Fin N → Bool) → 𝕜
  geoP : (Fin K → Fin N → Bool) → 𝕜
  confP : (c : Fin M) → Fin (nG c) → (Fin F → Fin S → 𝕜) → 𝕜
  logf : 𝕜 → 𝕜

/-- The parameter values of a sample. -/
def Sample.params (s : Sample 𝕜 K N F S M nG) : Params 𝕜 K N F S M nG where
  clusters := s.clusters.value
  weights := s.weights.value
  clusterEffect := s.clusterEffect.value
  confEffect := fun c => (s.confEffect c).value
  source := if s.useSource then some s.source.value else none

/-- `ModelCache.__init__`, state.py:310-347: `np.empty` buffers (`garbage`), all nodes outdated. -/
def freshCache (d : ModelData N F S M nG) (clusters : Fin K → Fin N → Bool)
    (garbage : Fin N → Fin F → Fin (M + 1) → 𝕜) : ModelCache 𝕜 K N F M nG where
  comp := ⟨garbage, none, fun _ => none, fun _ => none, fun _ _ => none⟩
  wnorm := ⟨garbage, none⟩
  geo := ⟨0, none⟩
  size := ⟨0, none⟩
  conf := fun _ => ⟨fun _ => 1, none, fun _ => none⟩
  has := ⟨hasComponents d clusters, none⟩
  src := ⟨0, none⟩

/-- `Sample.from_numpy_arrays`, state.py:420-438. -/
def Sample.new (d : ModelData N F S M nG) (p : Params 𝕜 K N F S M nG)
    (garbage : Fin N → Fin F → Fin (M + 1) → 𝕜) : Sample 𝕜 K N F S M nG where
  clusters := GP.new p.clusters
  weights := ⟨p.weights, 0⟩
  clusterEffect := GP.new p.clusterEffect
  confEffect := fun c => GP.new (p.confEffect c)
  useSource := p.source.isSome
  source := ⟨p.source.getD (fun _ _ _ => false), 0⟩
  cache := freshCache d p.clusters garbage

/-- `Sample.copy` with `ModelCache.copy` and `assign_from`, state.py:261-265, 368-380, 440-459:
all nodes are copied except `has_components` and `source_prior`, which are created anew. -/
def Sample.copy (d : ModelData N F S M nG) (s : Sample 𝕜 K N F S M nG) : Sample 𝕜 K N F S M nG :=
  { s with cache := { s.cache with
      has := ⟨hasComponents d s.clusters.value, none⟩
      src := ⟨0, none⟩ } }

/-- `ModelCache.clear`, state.py:248-259 and 357-366 (`source_prior` is not cleared). -/
def ModelCache.clear (m : ModelCache 𝕜 K N F M nG) : ModelCache 𝕜 K N F M nG :=
  { m with
    comp := { m.comp with cached := none, gCl := fun _ => none, gCe := fun _ => none,
                          gCf := fun _ _ => none }
    wnorm := { m.wnorm with cached := none }
    geo := { m.geo with cached := none }
    size := { m.size with cached := none }
    has := { m.has with cached := none }
    conf := fun c => { m.conf c with cached := none, g := fun _ => none } }

/-- Reading `has_components.value`, state.py:284-291. -/
def readHas (s : Sample 𝕜 K N F S M nG) : Sample 𝕜 K N F S M nG :=
  if s.cache.has.cached = some s.clusters.version then s
  else { s with cache := { s.cache with
    has := ⟨fun n => Fin.cons (anyGroup s.clusters.value n) (fun c => s.cache.has.value n c.succ),
      some s.clusters.version⟩ } }

/-- `update_weights`, likelihood.py:162-177.  The version of the node is
`(has_components.version, weights.version)`, state.py:331, 341. -/
def updateWeights (s : Sample 𝕜 K N F S M nG) (caching : Bool) : Sample 𝕜 K N F S M nG :=
  if caching = true ∧ s.cache.wnorm.cached = some (s.clusters.version, s.weights.version) then s
  else
    let s₁ := readHas s
    { s₁ with cache := { s₁.cache with
      wnorm := ⟨normalizeWeights s₁.weights.value s₁.cache.has.value,
        some (s₁.clusters.version, s₁.weights.version)⟩ } }

/-- The current version tuple of the `component_likelihoods` node, state.py:238-240. -/
def Sample.compVersion (s : Sample 𝕜 K N F S M nG) : ℕ × ℕ × (Fin M → ℕ) :=
  (s.clusters.version, s.clusterEffect.version, fun c => (s.confEffect c).version)

/-- `cache.what_changed(['cluster_effect', 'clusters'], caching)`, likelihood.py:105 and
state.py:184-197. -/
def clustersChanged (s : Sample 𝕜 K N F S M nG) (caching : Bool) (k : Fin K) : Bool :=
  !caching || decide (s.cache.comp.gCe k ≠ some (s.clusterEffect.gver k)) ||
    decide (s.cache.comp.gCl k ≠ some (s.clusters.gver k))

/-- `cache.what_changed(f'c_{conf}', caching)`, likelihood.py:125. -/
def confChanged (s : Sample 𝕜 K N F S M nG) (caching : Bool) (c : Fin M) (g : Fin (nG c)) : Bool :=
  !caching || decide (s.cache.comp.gCf c g ≠ some ((s.confEffect c).gver g))

/-- `update_component_likelihoods`, likelihood.py:82-143, with `set_up_to_date` (state.py:207-212). -/
def updateComp (d : ModelData N F S M nG) (s : Sample 𝕜 K N F S M nG) (caching : Bool)
    (clO : List (Fin K)) (cfO : (c : Fin M) → List (Fin (nG c))) : Sample 𝕜 K N F S M nG :=
  if caching = true ∧ s.cache.comp.cached = some s.compVersion then s
  else { s with cache := { s.cache with
    comp :=
      { value := updateComponents d s.params (clO.filter (clustersChanged s caching))
          (fun c => (cfO c).filter (confChanged s caching c)) s.cache.comp.value
        cached := some s.compVersion
        gCl := fun k => some (s.clusters.gver k)
        gCe := fun k => some (s.clusterEffect.gver k)
        gCf := fun c g => some ((s.confEffect c).gver g) } } }

/-- `Likelihood.__call__`, likelihood.py:46-67; the result is `sample.observation_lhs`. -/
def evalLh (d : ModelData N F S M nG) (s : Sample 𝕜 K N F S M nG) (caching : Bool)
    (clO : List (Fin K)) (cfO : (c : Fin M) → List (Fin (nG c))) : Sample 𝕜 K N F S M nG × List 𝕜 :=
  let s₀ := if caching then s else { s with cache := s.cache.clear }
  let s₂ := updateWeights (updateComp d s₀ caching clO cfO) caching
  (s₂, observationLhs s₂.cache.comp.value s₂.cache.wnorm.value s₂.params.source)

/-- `ClusterSizePrior.__call__`, prior.py:384-417. -/
def evalSize (P : PriorFns 𝕜 K N F S M nG) (s : Sample 𝕜 K N F S M nG) (caching : Bool) :
    Sample 𝕜 K N F S M nG × 𝕜 :=
  if caching = true ∧ s.cache.size.cached = some s.clusters.version then (s, s.cache.size.value)
  else
    let x := P.sizeP s.clusters.value
    ({ s with cache := { s.cache with size := ⟨x, some s.clusters.version⟩ } }, x)

/-- `GeoPrior.__call__`, prior.py:500-531.  The node has no inputs (state.py:317, no `add_input`):
its version is the empty tuple `()`. -/
def evalGeo (P : PriorFns 𝕜 K N F S M nG) (s : Sample 𝕜 K N F S M nG) (caching : Bool) :
    Sample 𝕜 K N F S M nG × 𝕜 :=
  if caching = true ∧ s.cache.geo.cached = some () then (s, s.cache.geo.value)
  else
    let x := P.geoP s.clusters.value
    ({ s with cache := { s.cache with geo := ⟨x, some ()⟩ } }, x)

/-- `ConfoundingEffectsPrior.__call__`, prior.py:212-242. -/
def evalConf (P : PriorFns 𝕜 K N F S M nG) (s : Sample 𝕜 K N F S M nG) (c : Fin M)
    (caching : Bool) (order : List (Fin (nG c))) : Sample 𝕜 K N F S M nG × 𝕜 :=
  let node := s.cache.conf c
  let par := s.confEffect c
  if caching = true ∧ node.cached = some par.version then (s, ∑ g, node.value g)
  else
    let visited := order.filter fun g => !caching || decide (node.g g ≠ some (par.gver g))
    let value := visited.foldl (fun v g => Function.update v g (P.confP c g (par.value g))) node.value
    ({ s with cache := { s.cache with
        conf := Function.update s.cache.conf c
          ⟨value, some par.version, fun g => some (par.gver g)⟩ } },
     ∑ g, value g)

/-- `SourcePrior.__call__`, prior.py:348-365.  The version of the node is
`(weights_normalized.version, source.version)`, state.py:344-347. -/
def evalSrc (P : PriorFns 𝕜 K N F S M nG) (s : Sample 𝕜 K N F S M nG) (caching : Bool) :
    Sample 𝕜 K N F S M nG × 𝕜 :=
  if caching = true ∧
      s.cache.src.cached = some (s.clusters.version, s.weights.version, s.source.version) then
    (s, s.cache.src.value)
  else
    let s₁ := updateWeights s true
    let x := ((sourceWeights s₁.cache.wnorm.value s₁.source.value).map P.logf).sum
    ({ s₁ with cache := { s₁.cache with
        src := ⟨x, some (s₁.clusters.version, s₁.weights.version, s₁.source.version)⟩ } }, x)

/-- What can happen to one sample. -/
inductive SOp (𝕜 : Type) (K N F S M : ℕ) (nG : Fin M → ℕ) where
  | clusterEdit (k : Fin K) (f : (Fin N → Bool) → (Fin N → Bool))
  | effectEdit (k : Fin K) (f : (Fin F → Fin S → 𝕜) → (Fin F → Fin S → 𝕜))
  | confEdit (c : Fin M) (g : Fin (nG c)) (f : (Fin F → Fin S → 𝕜) → (Fin F → Fin S → 𝕜))
  | weightsEdit (f : (Fin F → Fin (M + 1) → 𝕜) → (Fin F → Fin (M + 1) → 𝕜))
  | sourceEdit (f : (Fin N → Fin F → Fin (M + 1) → Bool) → (Fin N → Fin F → Fin (M + 1) → Bool))
  | clustersEditAll (f : (Fin K → Fin N → Bool) → (Fin K → Fin N → Bool))
  | effectEditAll (f : (Fin K → Fin F → Fin S → 𝕜) → (Fin K → Fin F → Fin S → 𝕜))
  | confEditAll (c : Fin M)
      (f : (Fin (nG c) → Fin F → Fin S → 𝕜) → (Fin (nG c) → Fin F → Fin S → 𝕜))
  | evalLh (caching : Bool) (clO : List (Fin K)) (cfO : (c : Fin M) → List (Fin (nG c)))
  | updateComp (caching : Bool) (clO : List (Fin K)) (cfO : (c : Fin M) → List (Fin (nG c)))
  | updateWeights (caching : Bool)
  | readHas
  | evalSize (caching : Bool)
  | evalGeo (caching : Bool)
  | evalConf (c : Fin M) (caching : Bool) (order : List (Fin (nG c)))
  | evalSrc (caching : Bool)
  | clear

/-- Effect of one operation on the sample. -/
def stepS (d : ModelData N F S M nG) (P : PriorFns 𝕜 K N F S M nG) (s : Sample 𝕜 K N F S M nG) :
    SOp 𝕜 K N F S M nG → Sample 𝕜 K N F S M nG
  | .clusterEdit k f => { s with clusters := s.clusters.editGroup k f }
  | .effectEdit k f => { s with clusterEffect := s.clusterEffect.editGroup k f }
  | .confEdit c g f =>
    { s with confEffect := Function.update s.confEffect c ((s.confEffect c).editGroup g f) }
  | .weightsEdit f => { s with weights := s.weights.edit f }
  | .sourceEdit f => { s with source := s.source.edit f }
  | .clustersEditAll f => { s with clusters := s.clusters.editAll f }
  | .effectEditAll f => { s with clusterEffect := s.clusterEffect.editAll f }
  | .confEditAll c f =>
    { s with confEffect := Function.update s.confEffect c ((s.confEffect c).editAll f) }
  | .evalLh caching clO cfO => (evalLh d s caching clO cfO).1
  | .updateComp caching clO cfO => updateComp d s caching clO cfO
  | .updateWeights caching => updateWeights s caching
  | .readHas => readHas s
  | .evalSize caching => (evalSize P s caching).1
  | .evalGeo caching => (evalGeo P s caching).1
  | .evalConf c caching order => (evalConf P s c caching order).1
  | .evalSrc caching => (evalSrc P s caching).1
  | .clear => { s with cache := s.cache.clear }

/-- Operations of a program that works with several samples: create one, copy one, do something
with one. -/
inductive WOp (𝕜 : Type) (K N F S M : ℕ) (nG : Fin M → ℕ) where
  | new (p : Params 𝕜 K N F S M nG) (garbage : Fin N → Fin F → Fin (M + 1) → 𝕜)
  | copy (i : ℕ)
  | on (i : ℕ) (op : SOp 𝕜 K N F S M nG)

/-- One operation of the program. -/
def stepW (d : ModelData N F S M nG) (P : PriorFns 𝕜 K N F S M nG)
    (w : List (Sample 𝕜 K N F S M nG)) : WOp 𝕜 K N F S M nG → List (Sample 𝕜 K N F S M nG)
  | .new p garbage => w ++ [Sample.new d p garbage]
  | .copy i => match w[i]? with
    | some s => w ++ [s.copy d]
    | none => w
  | .on i op => w.modify i (stepS d P · op)

/-- A history. -/
def runW (d : ModelData N F S M nG) (P : PriorFns 𝕜 K N F S M nG)
    (w : List (Sample 𝕜 K N F S M nG)) (ops : List (WOp 𝕜 K N F S M nG)) :
    List (Sample 𝕜 K N F S M nG) := ops.foldl (stepW d P) w

end SBayes.Cache
