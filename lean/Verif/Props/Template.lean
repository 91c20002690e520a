import Verif.Props.Validate
import Verif.Spec.Template
/-
C112: the template of a configuration.
-/
namespace SBayes.Validate
open SBayes.Config
open SBayes.Log (lit)

variable {env : Env}

/-! ### Placeholders that are left in place -/

theorem placeholder_not_file (he : NoPlaceholders env) {p : Str} (hp : p = lit "<REQUIRED>" ∨ p = lit "<OPTIONAL>") :
    toFile env (.atom (.str p)) = none := by
  have h : fixPath env p = env.base ++ ['/'] ++ p := if_neg (by rcases hp with rfl | rfl <;> decide)
  unfold toFile
  dsimp only
  rw [h, he.noFile p hp]
  rfl

theorem placeholder_not_dict {p : Str} (hp : p = lit "<REQUIRED>" ∨ p = lit "<OPTIONAL>") : toDict (.atom (.str p)) = none := by
  rcases hp with rfl | rfl <;> rfl

/-- Where a section of the prior stands. -/
theorem prior_at {raw : Raw} {c : SBayesConfig} (h : parseConfig env raw = some c) : ∃ pd v,
    PriorInv env v c.model.prior pd ∧
      ∀ k q, says_at raw (lit "model" :: lit "prior" :: k :: q) = (pd.get k).bind fun w => w.at q := by
  obtain ⟨d, hd⟩ := config_inv h
  obtain ⟨ov, hov, ho⟩ := required hd.model
  obtain ⟨od, hod⟩ := model_inv ho
  obtain ⟨pv, hpv, hp⟩ := required hod.prior
  obtain ⟨pd, hpd⟩ := prior_inv hp
  refine ⟨pd, pv, hpd, fun k q => ?_⟩
  rw [at_validated hd.ops (by simp [sourcePath, lit]) (by simp [sourcePath, lit]), at_dict_cons, hov, Option.bind_some,
    at_of_toDict hod.dict, hpv, Option.bind_some, at_of_toDict hpd.dict]

theorem dirichlet_placeholder (he : NoPlaceholders env) {pd : Raw} {k : Str} {x : DirichletConfig}
    (h : field pd k none (parseDirichlet env) = some x) {q p : Str} (hq : q = lit "file" ∨ q = lit "parameters")
    (hp : p = lit "<REQUIRED>" ∨ p = lit "<OPTIONAL>") :
    ((pd.get k).bind fun w => w.at [q]) ≠ some (.atom (.str p)) := by
  intro hs
  obtain ⟨v, hv, hx⟩ := required h
  obtain ⟨d, hd⟩ := dirichlet_inv hx
  rw [hv, Option.bind_some, at_of_toDict hd.dict, bind_at_nil] at hs
  rcases hq with rfl | rfl
  · have := hd.file
    unfold optional at this
    rw [hs] at this
    dsimp only at this
    rw [placeholder_not_file he hp] at this
    cases this
  · have := hd.parameters
    unfold optional at this
    rw [hs] at this
    dsimp only at this
    rw [placeholder_not_dict hp] at this
    cases this

/-- **C112.** A placeholder that is left in place is noticed: no configuration that says `<REQUIRED>` or `<OPTIONAL>` at one of
the places where the template does is accepted, whatever else it says. -/
theorem C112_placeholders_are_rejected (he : NoPlaceholders env) (raw : Raw)
    (h : (∃ p ∈ requiredPaths, says_at raw p = some requiredText) ∨ ∃ p ∈ optionalPaths, says_at raw p = some optionalText) :
    parseConfig env raw = none := by
  rcases hc : parseConfig env raw with _ | c
  · rfl
  exfalso
  have S := C86_settings_are_those_of_the_file hc
  have G := (C86_accepted_configurations_are_valid hc).data
  obtain ⟨pd, v, hpd, hat⟩ := prior_at hc
  rcases h with ⟨p, hp, hs⟩ | ⟨p, hp, hs⟩
  · simp only [requiredPaths, List.mem_cons, List.not_mem_nil, or_false] at hp
    rcases hp with rfl | rfl | rfl | rfl
    · obtain ⟨s, h1, h2⟩ := S.features
      rw [hs] at h1
      cases h1
      rw [h2, if_neg (by decide), he.noFile _ (.inl rfl)] at G
      exact absurd G.1 (by decide)
    · obtain ⟨s, h1, h2⟩ := S.featureStates
      rw [hs] at h1
      cases h1
      have G2 := G.2
      rw [h2, if_neg (by decide), he.noFile _ (.inl rfl)] at G2
      exact absurd G2 (by decide)
    · rw [hat, bind_at_nil] at hs
      have := hpd.conf
      unfold field at this
      rw [hs] at this
      cases this
    · have := S.sizeType.1 _ hs
      unfold requiredText at this
      have := Val.atom.inj this
      have := Atom.str.inj this
      cases ht : c.model.prior.size.type <;> rw [ht] at this <;> exact absurd this (by decide)
  · simp only [optionalPaths, List.mem_cons, List.not_mem_nil, or_false] at hp
    rcases hp with rfl | rfl | rfl | rfl | rfl | rfl
    · rw [hat] at hs; exact dirichlet_placeholder he hpd.clusterEffect (.inl rfl) (.inr rfl) hs
    · rw [hat] at hs; exact dirichlet_placeholder he hpd.clusterEffect (.inr rfl) (.inr rfl) hs
    · have h := S.rate.2.2.2.1 _ hs
      rw [he.number] at h
      rw [← h.2] at h
      exact absurd h.1 (by decide)
    · have h := S.inflection.2.2.2.1 _ hs
      rw [he.number] at h
      rw [← h.2] at h
      exact absurd h.1 (by decide)
    · rw [hat] at hs; exact dirichlet_placeholder he hpd.weights (.inl rfl) (.inr rfl) hs
    · rw [hat] at hs; exact dirichlet_placeholder he hpd.weights (.inr rfl) (.inr rfl) hs

/-- These are the placeholders of the template. -/
theorem C112_placeholders_of_the_template :
    (∀ p ∈ requiredPaths, says_at (template shipped) p = some requiredText) ∧
    (∀ p ∈ optionalPaths, says_at (template shipped) p = some optionalText) := by
  constructor
  · intro p hp
    simp only [requiredPaths, List.mem_cons, List.not_mem_nil, or_false] at hp
    rcases hp with rfl | rfl | rfl | rfl <;> rfl
  · intro p hp
    simp only [optionalPaths, List.mem_cons, List.not_mem_nil, or_false] at hp
    rcases hp with rfl | rfl | rfl | rfl | rfl | rfl <;> rfl

theorem get_optLine (k k' : Str) (v : Option RawVal) (rest : Raw) :
    (optLine k v rest).get k' = if k = k' then (match v with | none => rest.get k' | some v => some v) else rest.get k' := by
  unfold optLine
  cases v with
  | none => simp
  | some v => simp only [Dict.get, eq_comm]

theorem dirichlet_line (f q : Option RawVal) :
    (templateDirichlet f q).at [lit "file"] = f ∧ (templateDirichlet f q).at [lit "parameters"] = q := by
  unfold templateDirichlet
  constructor
  · rw [at_single, Dict.get, if_neg (by decide), get_optLine, if_pos rfl]
    cases f with
    | none => dsimp only; rw [get_optLine, if_neg (by decide)]; rfl
    | some v => rfl
  · rw [at_single, Dict.get, if_neg (by decide), get_optLine, if_neg (by decide), get_optLine, if_pos rfl]
    cases q <;> rfl

theorem geo_line (r i : Option RawVal) :
    (templateGeo r i).at [lit "rate"] = r ∧ (templateGeo r i).at [lit "inflection_point"] = i := by
  unfold templateGeo
  constructor
  · rw [at_single, Dict.get, if_neg (by decide), Dict.get, if_neg (by decide), Dict.get, if_neg (by decide), Dict.get,
      if_neg (by decide), get_optLine, if_pos rfl]
    cases r with
    | none => dsimp only; rw [get_optLine, if_neg (by decide)]; rfl
    | some v => rfl
  · rw [at_single, Dict.get, if_neg (by decide), Dict.get, if_neg (by decide), Dict.get, if_neg (by decide), Dict.get,
      if_neg (by decide), get_optLine, if_neg (by decide), get_optLine, if_pos rfl]
    cases i <;> rfl

/-- The line of the template at a path. -/
def linePath : Line → List Str
  | .effectFile => [lit "model", lit "prior", lit "cluster_effect", lit "file"]
  | .effectParameters => [lit "model", lit "prior", lit "cluster_effect", lit "parameters"]
  | .rate => [lit "model", lit "prior", lit "geo", lit "rate"]
  | .inflection => [lit "model", lit "prior", lit "geo", lit "inflection_point"]
  | .weightsFile => [lit "model", lit "prior", lit "weights", lit "file"]
  | .weightsParameters => [lit "model", lit "prior", lit "weights", lit "parameters"]

theorem template_line (e : Entries) (l : Line) : says_at (template e) (linePath l) = e.line l := by
  cases l with
  | effectFile =>
    show (templateDirichlet (e.line .effectFile) (e.line .effectParameters)).at [lit "file"] = _
    exact (dirichlet_line _ _).1
  | effectParameters =>
    show (templateDirichlet (e.line .effectFile) (e.line .effectParameters)).at [lit "parameters"] = _
    exact (dirichlet_line _ _).2
  | rate => show (templateGeo (e.line .rate) (e.line .inflection)).at [lit "rate"] = _; exact (geo_line _ _).1
  | inflection => show (templateGeo (e.line .rate) (e.line .inflection)).at [lit "inflection_point"] = _; exact (geo_line _ _).2
  | weightsFile =>
    show (templateDirichlet (e.line .weightsFile) (e.line .weightsParameters)).at [lit "file"] = _
    exact (dirichlet_line _ _).1
  | weightsParameters =>
    show (templateDirichlet (e.line .weightsFile) (e.line .weightsParameters)).at [lit "parameters"] = _
    exact (dirichlet_line _ _).2

/-- **C112**, finding: it is not enough to replace the text `<REQUIRED>` in the template: as long as one of the optional lines
still says `<OPTIONAL>`, the configuration is rejected, whatever the other entries are. -/
theorem C112_optional_lines_must_be_edited (he : NoPlaceholders env) (e : Entries) (l : Line) (h : e.line l = some optionalText) :
    parseConfig env (template e) = none := by
  refine C112_placeholders_are_rejected he _ (.inr ⟨linePath l, ?_, by rw [template_line, h]⟩)
  cases l <;> simp [linePath, optionalPaths]

/-! ### The completed template -/

theorem optional_deleted {T : Type} {d : Raw} {k : Str} {p : RawVal → Option T} (h : d.get k = none ∨ d.get k = some (.atom .null)) :
    optional d k p = some none := by
  unfold optional
  rcases h with h | h <;> rw [h]

theorem dirichlet_template {f q : Option RawVal} (hf : f = none ∨ f = some (.atom .null)) (hq : q = none ∨ q = some (.atom .null)) :
    parseDirichlet env (templateDirichlet f q) = some defaultDirichlet := by
  rcases hf with rfl | rfl <;> rcases hq with rfl | rfl <;> rfl

theorem geo_template (hno : env.isFile (env.base ++ ['/'] ++ lit "from_data") = false) {r i : Option RawVal}
    (hr : r = none ∨ r = some (.atom .null)) (hi : i = none ∨ i = some (.atom .null)) :
    parseGeo env (templateGeo r i) = some defaultGeo := by
  have hcost : toCosts env (.atom (.str (lit "from_data"))) = some .fromData := by
    have h : fixPath env (lit "from_data") = env.base ++ ['/'] ++ lit "from_data" := if_neg (by decide)
    unfold toCosts toFile
    dsimp only
    rw [h, hno]
    rfl
  rcases hr with rfl | rfl <;> rcases hi with rfl | rfl <;>
    exact geo_intro (d := _) ⟨rfl, rfl, rfl, hcost, rfl, rfl, rfl, rfl, rfl, by decide⟩

theorem geo_minimal : parseGeo env (.dict .nil) = some defaultGeo :=
  geo_intro (d := _) ⟨rfl, rfl, rfl, rfl, rfl, rfl, rfl, rfl, rfl, by decide⟩

theorem size_template (t : SizeType) : parseSize env (templateSize (.atom (.str (sizeName t)))) = some ⟨t, 2, 10000⟩ := by
  cases t <;> rfl

theorem mcmc_template : parseMcmc env templateMcmc = some defaultMcmc := by
  refine mcmc_intro (d := _) ⟨rfl, rfl, rfl, rfl, rfl, rfl, rfl, ?_, ?_, rfl, by decide⟩
  · rw [field_some (v := .atom (.num (4 / 5))) rfl]
    exact numIf_cast (by norm_num)
  · rw [field_some rfl]
    have num : ∀ q : ℚ, 0 ≤ q → toNumIf env (fun q => decide (0 ≤ q)) (.atom (.num q)) = some q := fun q hq =>
      numIf_cast (by simpa using hq)
    refine operators_intro (d := _) ⟨rfl, rfl, ?_, ?_, ?_, ?_, ?_⟩
    · rw [field_some (v := .atom (.num 45)) rfl]; exact num 45 (by norm_num)
    · rw [field_some (v := .atom (.num 15)) rfl]; exact num 15 (by norm_num)
    · rw [field_some (v := .atom (.num 5)) rfl]; exact num 5 (by norm_num)
    · rw [field_some (v := .atom (.num 15)) rfl]; exact num 15 (by norm_num)
    · rw [field_some (v := .atom (.num 10)) rfl]; exact num 10 (by norm_num)

theorem mcmc_minimal : parseMcmc env (.dict .nil) = some defaultMcmc := by
  exact mcmc_intro (d := _) ⟨rfl, rfl, rfl, rfl, rfl, rfl, rfl, rfl, rfl, rfl, by decide⟩

theorem toStrs_strs (l : List Str) : toStrs env (.atom (.list (l.map .str))) = some l := by
  unfold toStrs
  dsimp only
  induction l with
  | nil => rfl
  | cons g gs ih => rw [List.map_cons, List.mapM_cons, ih]; rfl

theorem mapDict_strs : ∀ conf : List (Str × List Str),
    mapDict (toStrs env) (mkDict (conf.map fun c => (c.1, .atom (.list (c.2.map .str))))) = some conf
  | [] => rfl
  | c :: conf => by
    rw [List.map_cons, mkDict, mapDict, toStrs_strs, mapDict_strs conf]
    rfl

/-- The check that all groups have priors passes. -/
theorem priors_complete {v : RawVal} {effects : List (Str × List (Str × DirichletConfig))}
    (hv : ((toDict v).bind (mapDict fun v => (toDict v).bind (mapDict (parseDirichlet env)))) = some effects) :
    ∀ conf : List (Str × List Str), (∀ c ∈ conf, (effects.lookup c.1).isSome) →
      (∀ c ∈ conf, ∀ g ∈ c.2, ((effects.lookup c.1).bind (·.lookup g)).isSome) →
      confoundersHavePriors v (mkDict (conf.map fun c => (c.1, .atom (.list (c.2.map .str))))) = true
  | [], _, _ => rfl
  | c :: conf, hn, hg => by
    obtain ⟨d, hd, hm⟩ := Option.bind_eq_some_iff.mp hv
    have hget := mapDict_lookup c.1 hm
    obtain ⟨P, hP⟩ := Option.isSome_iff_exists.mp (hn c List.mem_cons_self)
    rw [hP] at hget
    obtain ⟨w, hw, hwP⟩ := Option.bind_eq_some_iff.mp hget.symm
    have hvd : v = .dict d := by
      unfold toDict at hd
      split at hd
      · rw [Option.some.inj hd]
      · cases hd; cases hw
      · cases hd; cases hw
      · cases hd
    have hitem : item v c.1 = some w := by rw [hvd]; exact hw
    rw [List.map_cons, mkDict, confoundersHavePriors, hitem]
    dsimp only
    rw [priors_complete hv conf (fun c hc => hn c (List.mem_cons_of_mem _ hc)) (fun c hc => hg c (List.mem_cons_of_mem _ hc)),
      Bool.and_true]
    unfold groupsHavePriors
    dsimp only
    rw [List.all_eq_true]
    intro a ha
    obtain ⟨g, hgc, rfl⟩ := List.mem_map.mp ha
    have hsome := hg c List.mem_cons_self g hgc
    rw [hP, Option.bind_some] at hsome
    obtain ⟨gd, hgd, hgm⟩ := Option.bind_eq_some_iff.mp hwP
    rw [mapDict_lookup g hgm] at hsome
    obtain ⟨x, hx⟩ := Option.isSome_iff_exists.mp hsome
    obtain ⟨y, hy, -⟩ := Option.bind_eq_some_iff.mp hx
    have hwd : w = .dict gd := by
      unfold toDict at hgd
      split at hgd
      · rw [Option.some.inj hgd]
      · cases hgd; cases hy
      · cases hgd; cases hy
      · cases hgd
    rw [hwd]
    unfold contains
    dsimp only
    rw [hy]
    rfl

/-- **C112.** The template with existing files, a prior for every group of every confounder and a type of size prior filled in, and
the optional lines deleted or left empty, is accepted, and it means what a file with nothing but the required settings means:
everything else has its default. -/
theorem C112_completed_template (e : Entries) (f s : Str) (conf : List (Str × List Str))
    (effects : List (Str × List (Str × DirichletConfig))) (t : SizeType) (h : Complete env e f s conf effects t)
    (hno : env.isFile (env.base ++ ['/'] ++ lit "from_data") = false)
    (hdir : env.canMakeDir (env.base ++ ['/'] ++ lit "results") = true) :
    let model : ModelConfig := ⟨.one 1, conf, true, ⟨effects, defaultDirichlet, defaultGeo, ⟨t, 2, 10000⟩, defaultDirichlet⟩⟩
    let data : DataConfig := ⟨fixPath env f, fixPath env s, lit "epsg:4326"⟩
    parseConfig env (template e) = some ⟨data, model, defaultMcmc, ⟨env.base ++ ['/'] ++ lit "results", true⟩⟩ ∧
    parseConfig env (minimal e) = some ⟨data, model, defaultMcmc, ⟨env.base ++ ['/'] ++ lit "./results", true⟩⟩ := by
  intro model data
  have hres : fixPath env (lit "results") = env.base ++ ['/'] ++ lit "results" := if_neg (by decide)
  have hres' : fixPath env (lit "./results") = env.base ++ ['/'] ++ lit "./results" := if_neg (by decide)
  have hf : toFile env e.features = some (fixPath env f) := by
    rw [h.features]; unfold toFile; dsimp only; rw [h.featuresFile]; rfl
  have hs : toFile env e.featureStates = some (fixPath env s) := by
    rw [h.states]; unfold toFile; dsimp only; rw [h.statesFile]; rfl
  have hconf : ((toDict e.confounders).bind (mapDict (toStrs env))) = some conf := by
    rw [h.confounders]; exact mapDict_strs conf
  have hpri : guard (confoundersHavePriors e.confoundingEffects (mkDict (conf.map fun c => (c.1, .atom (.list (c.2.map .str)))))) =
      some () := by
    rw [priors_complete h.effectsValid conf h.named h.priors]; rfl
  have hsize : toEnum sizeTypes e.sizeType = some t := by rw [h.sizeType]; cases t <;> rfl
  constructor
  · refine config_intro (d := template e) ⟨rfl, rfl, ?_, ?_, ?_, ?_⟩
    · rw [field_some rfl]
      exact data_intro (d := _) ⟨rfl, rfl, hf, hs, rfl⟩
    · rw [field_some rfl]
      refine model_intro (d := _) ⟨rfl, ?_, rfl, rfl, hconf, rfl, ?_⟩
      · unfold validateConfounderPriors
        show (do
          let confounders ← some e.confounders
          match confounders with
          | .dict cs =>
            match some e.confoundingEffects with
            | some priors => guard (confoundersHavePriors priors cs)
            | none => match cs with
              | .nil => some ()
              | .cons _ _ _ => none
          | .atom _ => none) = some ()
        rw [h.confounders]
        exact hpri
      · rw [field_some rfl]
        refine prior_intro (d := _) ⟨rfl, rfl, h.effectsValid, ?_, ?_, ?_, ?_⟩
        · rw [field_some rfl]; exact dirichlet_template (h.line _) (h.line _)
        · rw [field_some rfl]; exact geo_template hno (h.line _) (h.line _)
        · rw [field_some rfl, h.sizeType]; exact size_template t
        · rw [field_some rfl]; exact dirichlet_template (h.line _) (h.line _)
    · rw [field_some rfl]; exact mcmc_template
    · rw [field_some rfl]
      refine results_intro (d := _) ⟨rfl, rfl, ?_, rfl⟩
      rw [field_some (v := .atom (.str (lit "results"))) rfl]
      unfold toDir
      dsimp only
      rw [hres, hdir]
      rfl
  · refine config_intro (d := minimal e) ⟨rfl, rfl, ?_, ?_, ?_, ?_⟩
    · rw [field_some rfl]
      exact data_intro (d := _) ⟨rfl, rfl, hf, hs, rfl⟩
    · rw [field_some rfl]
      refine model_intro (d := _) ⟨rfl, ?_, rfl, rfl, hconf, rfl, ?_⟩
      · unfold validateConfounderPriors
        show (do
          let confounders ← some e.confounders
          match confounders with
          | .dict cs =>
            match some e.confoundingEffects with
            | some priors => guard (confoundersHavePriors priors cs)
            | none => match cs with
              | .nil => some ()
              | .cons _ _ _ => none
          | .atom _ => none) = some ()
        rw [h.confounders]
        exact hpri
      · rw [field_some rfl]
        refine prior_intro (d := _) ⟨rfl, rfl, h.effectsValid, rfl, ?_, ?_, rfl⟩
        · rw [field_some rfl]; exact geo_minimal
        · rw [field_some rfl]; exact size_intro (d := _) ⟨rfl, rfl, hsize, rfl, rfl⟩
    · rw [field_some rfl]; exact mcmc_minimal
    · show some (⟨fixPath env (lit "./results"), true⟩ : ResultsConfig) = _
      rw [hres']

/-! ### Example -/

/-- A completed template: one confounder with two groups; some optional lines deleted, others left empty. -/
def exampleEntries : Entries where
  features := .atom (.str (lit "features.csv"))
  featureStates := .atom (.str (lit "/data/states.csv"))
  confoundingEffects := .dict (mkDict [(lit "family", .dict (mkDict [(lit "A", .dict .nil),
    (lit "B", .dict (mkDict [(lit "type", .atom (.str (lit "uniform")))]))]))])
  sizeType := .atom (.str (lit "uniform_size"))
  confounders := .dict (mkDict [(lit "family", .atom (.list [.str (lit "A"), .str (lit "B")]))])
  line := fun l => if l = .rate then some (.atom .null) else none

/-- The hypotheses of C112 are met. -/
example : Complete exampleEnv exampleEntries (lit "features.csv") (lit "/data/states.csv") [(lit "family", [lit "A", lit "B"])]
      [(lit "family", [(lit "A", defaultDirichlet), (lit "B", defaultDirichlet)])] .uniformSize ∧
    exampleEnv.isFile (exampleEnv.base ++ ['/'] ++ lit "from_data") = false ∧
    exampleEnv.canMakeDir (exampleEnv.base ++ ['/'] ++ lit "results") = true ∧ NoPlaceholders exampleEnv := by
  refine ⟨⟨rfl, by decide, rfl, by decide, rfl, rfl, rfl, ?_, ?_, ?_⟩, by decide, rfl, ⟨?_, rfl⟩⟩
  · intro c hc g hg
    rw [List.mem_singleton.mp hc] at hg ⊢
    simp only [List.mem_cons, List.not_mem_nil, or_false] at hg
    rcases hg with rfl | rfl <;> rfl
  · intro c hc
    rw [List.mem_singleton.mp hc]
    rfl
  · intro l
    cases l <;> simp [exampleEntries]
  · rintro p (rfl | rfl) <;> decide

end SBayes.Validate
