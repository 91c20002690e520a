import Verif.Spec.Validate
import Verif.Lemmas.Config
/- Inversion of the parsers: what is known of the parts of an accepted configuration. -/
namespace SBayes.Validate
open SBayes.Config
open SBayes.Log (lit)

variable {env : Env}

theorem at_of_toDict {v : RawVal} {d : Raw} (h : toDict v = some d) (k : Str) (p : List Str) :
    v.at (k :: p) = (d.get k).bind fun w => w.at p := by
  unfold toDict at h
  split at h <;> simp_all [at_dict_cons, at_atom_cons]
  · subst h; rfl
  · subst h; rfl

macro "invert " h:ident : tactic =>
  `(tactic| simp only [Option.bind_eq_bind, Option.bind_eq_some_iff, Option.guard_eq_some', Option.some.injEq, exists_eq_right, exists_const, exists_and_left] at $h:ident)

structure GeoInv (env : Env) (v : RawVal) (g : GeoPriorConfig) (d : Raw) : Prop where
  dict : toDict v = some d
  keys : onlyKeys [lit "type", lit "costs", lit "aggregation", lit "probability_function", lit "rate",
    lit "inflection_point", lit "skeleton"] d = true
  type : field d (lit "type") (some .uniform) (toEnum geoTypes) = some g.type
  costs : field d (lit "costs") (some .fromData) (toCosts env) = some g.costs
  aggregation : field d (lit "aggregation") (some .mean) (toEnum aggTypes) = some g.aggregation
  prob : field d (lit "probability_function") (some .exponential) (toEnum probTypes) = some g.probabilityFunction
  rate : optional d (lit "rate") (toNumIf env fun q => decide (0 < q)) = some g.rate
  inflection : optional d (lit "inflection_point") (toNum env) = some g.inflectionPoint
  skeleton : field d (lit "skeleton") (some .mst) (toEnum skeletons) = some g.skeleton
  check : ¬ (g.type = .costBased ∧ g.rate.isNone)

theorem geo_inv {v : RawVal} {g : GeoPriorConfig} (h : parseGeo env v = some g) : ∃ d, GeoInv env v g d := by
  unfold parseGeo at h
  invert h
  obtain ⟨d, hd, hk, t, ht, c, hc, a, ha, p, hp, r, hr, i, hi, s, hs, hx, rfl⟩ := h
  exact ⟨d, hd, hk, ht, hc, ha, hp, hr, hi, hs, hx⟩

structure SizeInv (env : Env) (v : RawVal) (g : SizePriorConfig) (d : Raw) : Prop where
  dict : toDict v = some d
  keys : onlyKeys [lit "type", lit "min", lit "max"] d = true
  type : field d (lit "type") none (toEnum sizeTypes) = some g.type
  min : field d (lit "min") (some 2) (toPosInt env) = some g.min
  max : field d (lit "max") (some 10000) (toPosInt env) = some g.max

theorem size_inv {v : RawVal} {g : SizePriorConfig} (h : parseSize env v = some g) : ∃ d, SizeInv env v g d := by
  unfold parseSize at h
  invert h
  obtain ⟨d, hd, hk, x0, h0, x1, h1, x2, h2, rfl⟩ := h
  exact ⟨d, hd, hk, h0, h1, h2⟩

structure DirichletInv (env : Env) (v : RawVal) (g : DirichletConfig) (d : Raw) : Prop where
  dict : toDict v = some d
  check : ¬ (saysDirichlet d = true ∧ isNone d (lit "file") = true ∧ isNone d (lit "parameters") = true)
  keys : onlyKeys [lit "type", lit "file", lit "parameters"] d = true
  type : field d (lit "type") (some .uniform) (toEnum dirTypes) = some g.type
  file : optional d (lit "file") (toFile env) = some g.file
  parameters : optional d (lit "parameters") toDict = some g.parameters

theorem dirichlet_inv {v : RawVal} {g : DirichletConfig} (h : parseDirichlet env v = some g) : ∃ d, DirichletInv env v g d := by
  unfold parseDirichlet at h
  invert h
  obtain ⟨d, hd, hpre0, hk, x0, h0, x1, h1, x2, h2, rfl⟩ := h
  exact ⟨d, hd, hpre0, hk, h0, h1, h2⟩

structure PriorInv (env : Env) (v : RawVal) (g : PriorConfig) (d : Raw) : Prop where
  dict : toDict v = some d
  keys : onlyKeys [lit "confounding_effects", lit "cluster_effect", lit "geo", lit "objects_per_cluster", lit "weights"] d = true
  conf : field d (lit "confounding_effects") none (fun v => (toDict v).bind (mapDict fun v => (toDict v).bind (mapDict (parseDirichlet env)))) = some g.confoundingEffects
  clusterEffect : field d (lit "cluster_effect") none (parseDirichlet env) = some g.clusterEffect
  geo : field d (lit "geo") none (parseGeo env) = some g.geo
  size : field d (lit "objects_per_cluster") none (parseSize env) = some g.size
  weights : field d (lit "weights") none (parseDirichlet env) = some g.weights

theorem prior_inv {v : RawVal} {g : PriorConfig} (h : parsePrior env v = some g) : ∃ d, PriorInv env v g d := by
  unfold parsePrior at h
  invert h
  obtain ⟨d, hd, hk, x0, h0, x1, h1, x2, h2, x3, h3, x4, h4, rfl⟩ := h
  exact ⟨d, hd, hk, h0, h1, h2, h3, h4⟩

structure ModelInv (env : Env) (v : RawVal) (g : ModelConfig) (d : Raw) : Prop where
  dict : toDict v = some d
  check : validateConfounderPriors d = some ()
  keys : onlyKeys [lit "clusters", lit "confounders", lit "sample_source", lit "prior"] d = true
  clusters : field d (lit "clusters") (some (.one 1)) (toClusters env) = some g.clusters
  confounders : field d (lit "confounders") (some []) (fun v => (toDict v).bind (mapDict (toStrs env))) = some g.confounders
  sampleSource : field d (lit "sample_source") (some true) toBool = some g.sampleSource
  prior : field d (lit "prior") none (parsePrior env) = some g.prior

theorem model_inv {v : RawVal} {g : ModelConfig} (h : parseModel env v = some g) : ∃ d, ModelInv env v g d := by
  unfold parseModel at h
  invert h
  obtain ⟨d, hd, _, hpre0, hk, x0, h0, x1, h1, x2, h2, x3, h3, rfl⟩ := h
  exact ⟨d, hd, hpre0, hk, h0, h1, h2, h3⟩

structure OperatorsInv (env : Env) (v : RawVal) (g : OperatorsConfig) (d : Raw) : Prop where
  dict : toDict v = some d
  keys : onlyKeys [lit "clusters", lit "weights", lit "cluster_effect", lit "confounding_effects", lit "source"] d = true
  clusters : field d (lit "clusters") (some 45) (toNumIf env fun q => decide (0 ≤ q)) = some g.clusters
  weights : field d (lit "weights") (some 15) (toNumIf env fun q => decide (0 ≤ q)) = some g.weights
  clusterEffect : field d (lit "cluster_effect") (some 5) (toNumIf env fun q => decide (0 ≤ q)) = some g.clusterEffect
  confoundingEffects : field d (lit "confounding_effects") (some 15) (toNumIf env fun q => decide (0 ≤ q)) = some g.confoundingEffects
  source : field d (lit "source") (some 10) (toNumIf env fun q => decide (0 ≤ q)) = some g.source

theorem operators_inv {v : RawVal} {g : OperatorsConfig} (h : parseOperators env v = some g) : ∃ d, OperatorsInv env v g d := by
  unfold parseOperators at h
  invert h
  obtain ⟨d, hd, hk, x0, h0, x1, h1, x2, h2, x3, h3, x4, h4, rfl⟩ := h
  exact ⟨d, hd, hk, h0, h1, h2, h3, h4⟩

structure WarmupInv (env : Env) (v : RawVal) (g : WarmupConfig) (d : Raw) : Prop where
  dict : toDict v = some d
  keys : onlyKeys [lit "warmup_steps", lit "warmup_chains"] d = true
  steps : field d (lit "warmup_steps") (some 50000) (toPosInt env) = some g.steps
  chains : field d (lit "warmup_chains") (some 10) (toPosInt env) = some g.chains

theorem warmup_inv {v : RawVal} {g : WarmupConfig} (h : parseWarmup env v = some g) : ∃ d, WarmupInv env v g d := by
  unfold parseWarmup at h
  invert h
  obtain ⟨d, hd, hk, x0, h0, x1, h1, rfl⟩ := h
  exact ⟨d, hd, hk, h0, h1⟩

structure McmcInv (env : Env) (v : RawVal) (g : MCMCConfig) (d : Raw) : Prop where
  dict : toDict v = some d
  keys : onlyKeys [lit "steps", lit "samples", lit "runs", lit "sample_from_prior", lit "init_objects_per_cluster", lit "grow_to_adjacent", lit "operators", lit "warmup"] d = true
  steps : field d (lit "steps") (some 1000000) (toPosInt env) = some g.steps
  samples : field d (lit "samples") (some 1000) (toPosInt env) = some g.samples
  runs : field d (lit "runs") (some 1) (toPosInt env) = some g.runs
  fromPrior : field d (lit "sample_from_prior") (some false) toBool = some g.sampleFromPrior
  init : field d (lit "init_objects_per_cluster") (some 5) (toPosInt env) = some g.initObjectsPerCluster
  grow : field d (lit "grow_to_adjacent") (some (4 / 5)) (toNumIf env fun q => decide (0 ≤ q ∧ q ≤ 1)) = some g.growToAdjacent
  operators : field d (lit "operators") (some defaultOperators) (parseOperators env) = some g.operators
  warmup : field d (lit "warmup") (some ⟨50000, 10⟩) (parseWarmup env) = some g.warmup
  spacing : g.steps % g.samples = 0

theorem mcmc_inv {v : RawVal} {g : MCMCConfig} (h : parseMcmc env v = some g) : ∃ d, McmcInv env v g d := by
  unfold parseMcmc at h
  invert h
  obtain ⟨d, hd, hk, x0, h0, x1, h1, x2, h2, x3, h3, x4, h4, x5, h5, x6, h6, x7, h7, hpost0, rfl⟩ := h
  exact ⟨d, hd, hk, h0, h1, h2, h3, h4, h5, h6, h7, hpost0⟩

structure DataInv (env : Env) (v : RawVal) (g : DataConfig) (d : Raw) : Prop where
  dict : toDict v = some d
  keys : onlyKeys [lit "features", lit "feature_states", lit "projection"] d = true
  features : field d (lit "features") none (toFile env) = some g.features
  featureStates : field d (lit "feature_states") none (toFile env) = some g.featureStates
  projection : field d (lit "projection") (some (lit "epsg:4326")) (toStrVal env) = some g.projection

theorem data_inv {v : RawVal} {g : DataConfig} (h : parseData env v = some g) : ∃ d, DataInv env v g d := by
  unfold parseData at h
  invert h
  obtain ⟨d, hd, hk, x0, h0, x1, h1, x2, h2, rfl⟩ := h
  exact ⟨d, hd, hk, h0, h1, h2⟩

structure ResultsInv (env : Env) (v : RawVal) (g : ResultsConfig) (d : Raw) : Prop where
  dict : toDict v = some d
  keys : onlyKeys [lit "path", lit "log_file"] d = true
  path : field d (lit "path") (some (fixPath env (lit "./results"))) (toDir env) = some g.path
  logFile : field d (lit "log_file") (some true) toBool = some g.logFile

theorem results_inv {v : RawVal} {g : ResultsConfig} (h : parseResults env v = some g) : ∃ d, ResultsInv env v g d := by
  unfold parseResults at h
  invert h
  obtain ⟨d, hd, hk, x0, h0, x1, h1, rfl⟩ := h
  exact ⟨d, hd, hk, h0, h1⟩

structure ConfigInv (env : Env) (raw : Raw) (g : SBayesConfig) (d : Raw) : Prop where
  ops : validateOperators raw = some d
  keys : onlyKeys [lit "data", lit "model", lit "mcmc", lit "results"] d = true
  data : field d (lit "data") none (parseData env) = some g.data
  model : field d (lit "model") none (parseModel env) = some g.model
  mcmc : field d (lit "mcmc") none (parseMcmc env) = some g.mcmc
  results : field d (lit "results") (some ⟨fixPath env (lit "./results"), true⟩) (parseResults env) = some g.results

theorem config_inv {raw : Raw} {g : SBayesConfig} (h : parseConfig env raw = some g) : ∃ d, ConfigInv env raw g d := by
  unfold parseConfig at h
  invert h
  obtain ⟨d, hd, hk, x0, h0, x1, h1, x2, h2, x3, h3, rfl⟩ := h
  exact ⟨d, hd, hk, h0, h1, h2, h3⟩

/-! ### Consequences for single fields -/

theorem field_cases {T : Type} {d : Raw} {k : Str} {dflt : Option T} {p : RawVal → Option T} {r : T}
    (h : field d k dflt p = some r) : (d.get k = none ∧ dflt = some r) ∨ ∃ v, d.get k = some v ∧ p v = some r := by
  unfold field at h
  cases hv : d.get k with
  | none => rw [hv] at h; exact .inl ⟨rfl, h⟩
  | some v => rw [hv] at h; exact .inr ⟨v, rfl, h⟩

theorem optional_cases {T : Type} {d : Raw} {k : Str} {p : RawVal → Option T} {r : Option T} (h : optional d k p = some r) :
    (d.get k = none ∧ r = none) ∨ (d.get k = some (.atom .null) ∧ r = none) ∨
      ∃ v x, d.get k = some v ∧ (v ≠ .atom .null) ∧ p v = some x ∧ r = some x := by
  unfold optional at h
  split at h
  · rename_i hv
    exact .inl ⟨hv, (Option.some.inj h).symm⟩
  · rename_i hv
    exact .inr (.inl ⟨hv, (Option.some.inj h).symm⟩)
  · rename_i v hne hv
    obtain ⟨x, hx, rfl⟩ := Option.map_eq_some_iff.mp h
    refine .inr (.inr ⟨v, x, hv, fun e => hne ?_, hx, rfl⟩)
    exact e

theorem field_pred {T : Type} {d : Raw} {k : Str} {dflt : Option T} {p : RawVal → Option T} {r : T} (P : T → Prop)
    (h : field d k dflt p = some r) (hd : ∀ x, dflt = some x → P x) (hp : ∀ v x, p v = some x → P x) : P r := by
  rcases field_cases h with ⟨-, h⟩ | ⟨v, -, h⟩
  · exact hd _ h
  · exact hp _ _ h

theorem optional_pred {T : Type} {d : Raw} {k : Str} {p : RawVal → Option T} {r : Option T} (P : T → Prop)
    (h : optional d k p = some r) (hp : ∀ v x, p v = some x → P x) : ∀ x, r = some x → P x := by
  rintro x rfl
  rcases optional_cases h with ⟨-, h⟩ | ⟨-, h⟩ | ⟨v, y, -, -, hy, h⟩
  · simp at h
  · simp at h
  · rw [Option.some.inj h]; exact hp _ _ hy

theorem posInt_pos {v : RawVal} {n : ℕ} (h : toPosInt env v = some n) : 0 < n := by
  unfold toPosInt at h
  split at h
  · split at h
    · have := Option.some.inj h; omega
    · simp at h
  · simp at h

theorem numIf_ok {ok : ℚ → Bool} {v : RawVal} {q : ℚ} (h : toNumIf env ok v = some q) : ok q = true := by
  unfold toNumIf at h
  split at h
  · split at h
    · rename_i hq; rw [← Option.some.inj h]; exact hq
    · simp at h
  · simp at h

theorem file_exists {v : RawVal} {p : Str} (h : toFile env v = some p) : env.isFile p = true := by
  unfold toFile at h
  split at h
  · split at h
    · rename_i hq; rw [← Option.some.inj h]; exact hq
    · simp at h
  · simp at h

theorem costs_exist {v : RawVal} {c : Costs} (h : toCosts env v = some c) : ∀ p, c = .file p → env.isFile p = true := by
  rintro p rfl
  unfold toCosts at h
  split at h
  · rename_i q hq
    have := Option.some.inj h
    cases this
    exact file_exists hq
  · unfold toEnum at h
    split at h
    · simp only [List.lookup_cons, List.lookup_nil] at h
      split at h <;> simp at h
    · simp at h

theorem enum_str {T : Type} {table : List (Str × T)} {v : RawVal} {t : T} (h : toEnum table v = some t) :
    ∃ s, v = .atom (.str s) ∧ table.lookup s = some t := by
  unfold toEnum at h
  split at h
  · exact ⟨_, rfl, h⟩
  · simp at h

theorem dirichlet_ok {v : RawVal} {c : DirichletConfig} (h : parseDirichlet env v = some c) : DirichletOk env c := by
  obtain ⟨d, hd⟩ := dirichlet_inv h
  refine ⟨fun ht => ?_, optional_pred (fun p => env.isFile p = true) hd.file fun v x hx => file_exists hx⟩
  have hty := hd.type
  rw [ht] at hty
  have hs : saysDirichlet d = true := by
    rcases field_cases hty with ⟨-, h⟩ | ⟨w, hw, h⟩
    · simp at h
    · obtain ⟨s, rfl, hs⟩ := enum_str h
      unfold saysDirichlet
      rw [hw]
      unfold dirTypes at hs
      simp only [List.lookup_cons, List.lookup_nil] at hs
      split at hs
      · simp at hs
      · split at hs
        · assumption
        · simp at hs
  by_contra hno
  push Not at hno
  refine hd.check ⟨hs, ?_, ?_⟩
  · unfold isNone
    rcases optional_cases hd.file with ⟨h, -⟩ | ⟨h, -⟩ | ⟨v, x, -, -, -, h⟩
    · rw [h]
    · rw [h]
    · exact absurd (by rw [h]; rfl) hno.1
  · unfold isNone
    rcases optional_cases hd.parameters with ⟨h, -⟩ | ⟨h, -⟩ | ⟨v, x, -, -, -, h⟩
    · rw [h]
    · rw [h]
    · exact absurd (by rw [h]; rfl) hno.2

theorem mapDict_mem {T : Type} {p : RawVal → Option T} : ∀ {d : Raw} {l : List (Str × T)}, mapDict p d = some l →
    ∀ x ∈ l, ∃ v, p v = some x.2
  | .nil, l, h, x, hx => by cases Option.some.inj h; simp at hx
  | .cons k v rest, l, h, x, hx => by
    simp only [mapDict] at h
    invert h
    obtain ⟨y, hy, ys, hys, rfl⟩ := h
    rcases List.mem_cons.mp hx with rfl | hx
    · exact ⟨v, hy⟩
    · exact mapDict_mem hys x hx

theorem mapDict_lookup {T : Type} {p : RawVal → Option T} (k : Str) : ∀ {d : Raw} {l : List (Str × T)}, mapDict p d = some l →
    l.lookup k = (d.get k).bind p
  | .nil, l, h => by cases Option.some.inj h; rfl
  | .cons k' v rest, l, h => by
    simp only [mapDict] at h
    invert h
    obtain ⟨y, hy, ys, hys, rfl⟩ := h
    rw [List.lookup_cons, Dict.get]
    by_cases hk : k = k'
    · subst hk; simp [hy]
    · have : (k == k') = false := by simpa using hk
      rw [this, if_neg hk]
      exact mapDict_lookup k hys

end SBayes.Validate
