import Verif.Lemmas.Build
import Verif.Props.Validate
import Verif.Props.Start
/- C87: from a configuration and the files it names to a run. -/
namespace SBayes.Build
open SBayes.Data SBayes.Validate SBayes.Kernel SBayes.MCMC MeasureTheory Filter Topology
open SBayes.Log (lit)
open scoped ENNReal

variable {W : World} {c : SBayesConfig} {b : Built} {env : Env}

/-- **C87.** The run that is set up is the one that the configuration and the files describe: objects, features, observed and
applicable states, groups, priors, neighbours, limits on cluster sizes and frequencies of operators (if the state table has no
gaps, see `C39_applicable_states_partial`). -/
theorem C87_run_is_what_the_inputs_say (hg : ∀ f, NoGaps (stateTable W c) f) (h : build W c = some b) : Reflects W c b :=
  build_reflects hg h

/-- **C87.** An accepted configuration leads to a run if and only if the files fit to it and no unsupported prior is chosen. -/
theorem C87_runs_iff {raw : Raw} (hc : parseConfig env raw = some c) : (build W c).isSome ↔ Runnable W c :=
  build_runnable (C86_accepted_configurations_are_valid hc)

/-- **C87.** An accepted configuration with sensible files leads to a well-posed run: the hypothesis of C80 to C85. -/
theorem C87_run_is_well_posed {raw : Raw} (hc : parseConfig env raw = some c) (hS : Sensible W c) (h : build W c = some b) :
    WellPosed b.setup :=
  reflects_wellPosed (C86_accepted_configurations_are_valid hc) hS (build_reflects hS.noGaps h)

theorem configured_operators {raw : Raw} (hc : parseConfig env raw = some c) (hS : Sensible W c) (h : build W c = some b)
    (hs : c.model.sampleSource = true)
    (hops : 0 < c.mcmc.operators.clusters ∧ 0 < c.mcmc.operators.weights ∧ 0 < c.mcmc.operators.clusterEffect ∧
      0 < c.mcmc.operators.confoundingEffects ∧ 0 < c.mcmc.operators.source) :
    ∃ ops, getOperators c.model.sampleSource b.M b.ops = .ok ops ∧ ∀ o ∈ ops, 0 < o.2 := by
  have hR := build_reflects hS.noGaps h
  have hm := C87_run_is_well_posed hc hS h
  have hM : b.M ≠ 0 := hm.hasConfounder.ne'
  obtain ⟨o1, o2, o3, o4, o5⟩ := hR.operators
  obtain ⟨p1, p2, p3, p4, p5⟩ := hops
  have e : getOperators c.model.sampleSource b.M b.ops = getOperators true b.M b.ops := by rw [hs]
  obtain ⟨ops, hop⟩ : ∃ ops, getOperators true b.M b.ops = .ok ops := by
    unfold getOperators
    rw [if_neg hM]
    exact ⟨_, rfl⟩
  refine ⟨ops, e.trans hop, ?_⟩
  unfold getOperators at hop
  rw [if_neg hM] at hop
  simp only [if_true, Except.ok.injEq] at hop
  subst hop
  have q1 : 0 < b.ops.clusters := by rw [o1]; exact_mod_cast p1
  have q2 : 0 < b.ops.weights := by rw [o2]; exact_mod_cast p2
  have q3 : 0 < b.ops.clusterEffect := by rw [o3]; exact_mod_cast p3
  have q4 : 0 < b.ops.confoundingEffects := by rw [o4]; exact_mod_cast p4
  have q5 : 0 < b.ops.source := by rw [o5]; exact_mod_cast p5
  have qM : (0 : ℝ) < b.M := by exact_mod_cast hm.hasConfounder
  intro o ho
  simp only [List.cons_append, List.nil_append, List.mem_cons, List.mem_map] at ho
  rcases ho with rfl | rfl | rfl | rfl | rfl | ⟨i, -, rfl⟩ <;> dsimp only <;> positivity

/-- **C87.** From the configuration file to the samples: if sources are sampled, all operators are used, and not all objects are
needed to fill the clusters, then frequencies over the samples of a long run approach posterior probabilities. -/
theorem C87_samples_approach_the_posterior {raw : Raw} (hc : parseConfig env raw = some c) (hS : Sensible W c) (h : build W c = some b)
    (hs : c.model.sampleSource = true) (hroom : ∀ k, c.model.clusters = .one k → k * c.model.prior.size.min < (dataTable W c).nRows)
    (hops : 0 < c.mcmc.operators.clusters ∧ 0 < c.mcmc.operators.weights ∧ 0 < c.mcmc.operators.clusterEffect ∧
      0 < c.mcmc.operators.confoundingEffects ∧ 0 < c.mcmc.operators.source) :
    ∃ ops, getOperators c.model.sampleSource b.M b.ops = .ok ops ∧
      ∀ (P : Measure (Disc b.K b.N b.F b.M × Cont b.K b.F b.S b.M b.nG)), IsProbabilityMeasure P → P ≪ target b.setup Prod.fst (post b.setup) →
      ∀ s, 0 < s → ∀ Q : Disc b.K b.N b.F b.M × Cont b.K b.F b.S b.M b.nG → Bool, MeasurableSet {x | Q x = true} → ∀ ε : ℝ, 0 < ε →
      Tendsto (fun q : ℕ => ∫⁻ x, (sampleLoop (chainStep (post b.setup) (propose b.setup) (normalizeOperatorWeights ops)) s (s * q + 1) 0 x).prob
        {l | |(l.countP Q : ℝ) / (l.length : ℝ) -
          (target b.setup Prod.fst (post b.setup) {x | Q x = true}).toReal / (target b.setup Prod.fst (post b.setup) Set.univ).toReal| < ε} ∂P)
        atTop (𝓝 1) := by
  have hR := build_reflects hS.noGaps h
  have hm := C87_run_is_well_posed hc hS h
  obtain ⟨ops, hop, hpos⟩ := configured_operators hc hS h hs hops
  refine ⟨ops, hop, fun P hP hac s hs0 Q hQ ε hε => ?_⟩
  rw [hs] at hop
  refine C85_frequencies_converge hm (by rw [hR.source]; exact hs) ?_ b.ops ops hop hpos P hP hac s hs0 Q hQ ε hε
  have := hroom _ hR.clusters
  rw [hR.sizeLimits.1, hR.objects]
  exact_mod_cast this

/-- **C87.** From the configuration file to the log, including warm-up: with the settings of the configuration for the initial cluster
size and the warm-up, and whatever the random numbers for the initial clusters are (as long as they can be generated), the fraction
of the logged samples with any given feature converges to its posterior probability. -/
theorem C87_configured_runs_converge {raw : Raw} (hc : parseConfig env raw = some c) (hS : Sensible W c) (h : build W c = some b)
    (hs : c.model.sampleSource = true) (hroom : ∀ k, c.model.clusters = .one k → k * c.model.prior.size.min < (dataTable W c).nRows)
    (hops : 0 < c.mcmc.operators.clusters ∧ 0 < c.mcmc.operators.weights ∧ 0 < c.mcmc.operators.clusterEffect ∧
      0 < c.mcmc.operators.confoundingEffects ∧ 0 < c.mcmc.operators.source)
    (hnet : ∀ o net, W.network o = some net → ∀ i j, net.2 i j = net.2 j i)
    (hinit : c.model.prior.size.min ≤ c.mcmc.initObjectsPerCluster ∧ c.mcmc.initObjectsPerCluster ≤ c.model.prior.size.max) :
    ∃ ops, getOperators c.model.sampleSource b.M b.ops = .ok ops ∧
      ∀ (garbage : Fin b.N × Fin b.F → Fin (b.M + 1)) (rnd : Fin c.mcmc.warmup.chains → ℕ → ℕ) (rnd' : ℕ → ℕ)
        (blank : Fin c.mcmc.warmup.chains → State b.K b.N b.F b.S b.M b.nG),
      (∀ i, (Init.initialClusters (m := 0) b.setup.cl.adj (rnd i) c.mcmc.initObjectsPerCluster (fun k => k.elim0) :
        Option (Clusters.Clus b.K b.N)).isSome) →
      ∀ s, 0 < s → ∀ Q : Disc b.K b.N b.F b.M × Cont b.K b.F b.S b.M b.nG → Bool, MeasurableSet {x | Q x = true} → ∀ ε : ℝ, 0 < ε →
      Tendsto (fun n : ℕ => (wholeRun b.setup (normalizeOperatorWeights ops) c.mcmc.initObjectsPerCluster c.mcmc.warmup.chains
          c.mcmc.warmup.steps garbage rnd rnd' blank s n).prob
        {l | |(l.countP Q : ℝ) / (l.length : ℝ) -
          (target b.setup Prod.fst (post b.setup) {x | Q x = true}).toReal / (target b.setup Prod.fst (post b.setup) Set.univ).toReal| < ε})
        atTop (𝓝 1) := by
  have hR := build_reflects hS.noGaps h
  have hm := C87_run_is_well_posed hc hS h
  have hv := C86_accepted_configurations_are_valid hc
  obtain ⟨ops, hop, hpos⟩ := configured_operators hc hS h hs hops
  refine ⟨ops, hop, fun garbage rnd rnd' blank hrnd s hs0 Q hQ ε hε => ?_⟩
  rw [hs] at hop
  refine C88_whole_run_frequencies hm (by rw [hR.source]; exact hs) ?_ ?_ b.ops ops hop hpos _ _ _ hv.initSize ?_ ?_ hv.warmup.2
    garbage rnd rnd' blank hrnd s hs0 Q hQ ε hε
  · have := hroom _ hR.clusters
    rw [hR.sizeLimits.1, hR.objects]
    exact_mod_cast this
  · obtain ⟨o, net, -, hn, ha⟩ := hR.neighbours
    intro i j
    rw [ha, ha, hnet o net hn]
  · rw [hR.sizeLimits.1]
    exact hinit.1
  · rw [hR.sizeLimits.2]
    exact hinit.2

/-! ### Accepted configurations that cannot run -/

def uniformDict : List (Str × RawVal) := [(lit "type", .atom (.str (lit "uniform")))]

/-- Priors for the confounding effects of the example: one of them has counts. -/
def confPriors : List (Str × RawVal) :=
  [(lit "universal", .dict (mkDict [(lit "<ALL>", .dict (mkDict uniformDict))])),
   (lit "family", .dict (mkDict [(lit "A", .dict (mkDict uniformDict)),
     (lit "B", .dict (mkDict [(lit "type", .atom (.str (lit "dirichlet"))),
       (lit "parameters", .dict (mkDict [(lit "f", .dict (mkDict [(lit "a", .atom (.int 1)), (lit "b", .atom (.int 0))]))]))]))]))]

/-- A configuration file with the given priors. -/
def rawWith (geo weights conf : List (Str × RawVal)) : Raw :=
  mkDict [
    (lit "data", .dict (mkDict [(lit "features", .atom (.str (lit "/f.csv"))), (lit "feature_states", .atom (.str (lit "/s.csv")))])),
    (lit "model", .dict (mkDict [
      (lit "clusters", .atom (.int 1)), (lit "sample_source", .atom (.bool true)),
      (lit "confounders", .dict (mkDict [(lit "universal", .atom (.list [.str (lit "<ALL>")])),
        (lit "family", .atom (.list [.str (lit "A"), .str (lit "B")]))])),
      (lit "prior", .dict (mkDict [
        (lit "objects_per_cluster", .dict (mkDict [(lit "type", .atom (.str (lit "uniform_size")))])),
        (lit "geo", .dict (mkDict geo)),
        (lit "weights", .dict (mkDict weights)), (lit "cluster_effect", .dict (mkDict uniformDict)),
        (lit "confounding_effects", .dict (mkDict (conf ++ confPriors)))]))])),
    (lit "mcmc", .dict (mkDict [(lit "steps", .atom (.int 1000)), (lit "samples", .atom (.int 10)),
      (lit "init_objects_per_cluster", .atom (.int 2))]))]

def envWith : Env where
  base := lit "/"
  isFile := fun _ => true
  canMakeDir := fun _ => true
  intOfStr := fun _ => none
  numOfStr := fun _ => none
  showInt := fun _ => []
  showNum := fun _ => []

/-- **C87**, limit: that a configuration is accepted does not mean that it can run. A diameter based geo-prior, a sigmoid without
inflection point, a Dirichlet prior on the weights, and a prior for a confounder that is not in the model are accepted, and fail
for all data. -/
theorem C87_accepted_configurations_may_not_run :
    ∀ r ∈ [rawWith [(lit "type", .atom (.str (lit "diameter_based"))), (lit "rate", .atom (.int 1))] uniformDict [],
        rawWith [(lit "type", .atom (.str (lit "cost_based"))), (lit "rate", .atom (.int 1)),
          (lit "probability_function", .atom (.str (lit "sigmoid")))] uniformDict [],
        rawWith uniformDict [(lit "type", .atom (.str (lit "dirichlet"))), (lit "parameters", .dict (mkDict uniformDict))] [],
        rawWith uniformDict uniformDict [(lit "language", .dict (mkDict [(lit "A", .dict (mkDict uniformDict))]))]],
      ∃ c, parseConfig envWith r = some c ∧ ∀ W, build W c = none := by
  have key : ∀ {c W}, Guarantees envWith c → ¬ Runnable W c → build W c = none := by
    intro c W hG hn
    by_contra hne
    exact hn ((build_runnable hG).mp (Option.isSome_iff_ne_none.mpr hne))
  intro r hr
  simp only [List.mem_cons, List.not_mem_nil, or_false] at hr
  rcases hr with rfl | rfl | rfl | rfl
  · have h : ((parseConfig envWith (rawWith [(lit "type", .atom (.str (lit "diameter_based"))), (lit "rate", .atom (.int 1))] uniformDict [])).map
        fun c => c.model.prior.geo.type) = some .diameterBased := by rfl
    obtain ⟨c, hc, e⟩ := Option.map_eq_some_iff.mp h
    exact ⟨c, hc, fun W => key (C86_accepted_configurations_are_valid hc) fun hR => hR.geo e⟩
  · have h : ((parseConfig envWith (rawWith [(lit "type", .atom (.str (lit "cost_based"))), (lit "rate", .atom (.int 1)),
          (lit "probability_function", .atom (.str (lit "sigmoid")))] uniformDict [])).map
        fun c => (c.model.prior.geo.type, c.model.prior.geo.probabilityFunction, c.model.prior.geo.inflectionPoint)) =
          some (.costBased, .sigmoid, none) := by rfl
    obtain ⟨c, hc, e⟩ := Option.map_eq_some_iff.mp h
    simp only [Prod.mk.injEq] at e
    refine ⟨c, hc, fun W => key (C86_accepted_configurations_are_valid hc) fun hR => ?_⟩
    have := hR.sigmoid e.1 e.2.1
    rw [e.2.2] at this
    simp at this
  · have h : ((parseConfig envWith (rawWith uniformDict [(lit "type", .atom (.str (lit "dirichlet"))),
        (lit "parameters", .dict (mkDict uniformDict))] [])).map
        fun c => c.model.prior.weights.type) = some .dirichlet := by rfl
    obtain ⟨c, hc, e⟩ := Option.map_eq_some_iff.mp h
    refine ⟨c, hc, fun W => key (C86_accepted_configurations_are_valid hc) fun hR => ?_⟩
    rw [hR.weights] at e
    cases e
  · have h : ((parseConfig envWith (rawWith uniformDict uniformDict
        [(lit "language", .dict (mkDict [(lit "A", .dict (mkDict uniformDict))]))])).map
        fun c => (c.model.prior.confoundingEffects.map Prod.fst, c.model.confounders.map Prod.fst)) =
          some ([lit "language", lit "universal", lit "family"], [lit "universal", lit "family"]) := by rfl
    obtain ⟨c, hc, e⟩ := Option.map_eq_some_iff.mp h
    simp only [Prod.mk.injEq] at e
    refine ⟨c, hc, fun W => key (C86_accepted_configurations_are_valid hc) fun hR => ?_⟩
    have hm : lit "language" ∈ c.model.prior.confoundingEffects.map Prod.fst := by rw [e.1]; exact List.mem_cons_self
    obtain ⟨x, hx, ex⟩ := List.mem_map.mp hm
    obtain ⟨y, hy, ey⟩ := (hR.priors x hx).1
    have : lit "language" ∈ c.model.confounders.map Prod.fst := List.mem_map.mpr ⟨y, hy, by rw [ey, ex]⟩
    rw [e.2] at this
    revert this
    decide

/-! ### A run -/

/-- Three objects, one feature with two states, two families. -/
noncomputable def exampleWorld : World where
  ws := fun x => x == ' '
  isNA := fun s => s == []
  float := fun _ => some 0
  csv := fun p => if p = lit "/f.csv" then
      { nRows := 4, header := [lit "id", lit "x", lit "y", lit "family", lit "f"],
        cell := fun i j => ([[lit "1", lit "0", lit "0", lit "A", lit "a"], [lit "2", lit "1", lit "0", lit "B", lit "b"],
          [lit "3", lit "0", lit "2", [], []], [lit "4", lit "3", lit "2", [], lit "b"]].getD i []).getD j [] }
    else { nRows := 2, header := [lit "f"], cell := fun i _ => [lit "a", lit "b"].getD i [] }
  json := fun _ => none
  costs := fun _ => ⟨[], [], fun _ _ => 0⟩
  network := fun _ => some (fun _ _ => 1, fun _ _ => true)
  mst := fun _ _ => ⊥
  order := List.finRange
  empty := fun _ _ _ => 0

def exampleRaw : Raw := rawWith uniformDict uniformDict []

def exampleCounts : Raw := mkDict [(lit "f", .dict (mkDict [(lit "a", .atom (.int 1)), (lit "b", .atom (.int 0))]))]

def exampleConfig : SBayesConfig where
  data := ⟨lit "/f.csv", lit "/s.csv", lit "epsg:4326"⟩
  model := ⟨.one 1, [(lit "universal", [lit "<ALL>"]), (lit "family", [lit "A", lit "B"])], true,
    ⟨[(lit "universal", [(lit "<ALL>", ⟨.uniform, none, none⟩)]),
      (lit "family", [(lit "A", ⟨.uniform, none, none⟩), (lit "B", ⟨.dirichlet, none, some exampleCounts⟩)])],
      ⟨.uniform, none, none⟩, ⟨.uniform, .fromData, .mean, .exponential, none, none, .mst⟩, ⟨.uniformSize, 2, 10000⟩, ⟨.uniform, none, none⟩⟩⟩
  mcmc := ⟨1000, 10, 1, false, 2, 4 / 5, ⟨45, 15, 5, 15, 10⟩, ⟨50000, 10⟩⟩
  results := ⟨lit "//./results", true⟩

theorem example_accepted : parseConfig envWith exampleRaw = some exampleConfig := by rfl

theorem example_states : stateTable exampleWorld exampleConfig =
    { nRows := 2, cols := [(lit "f", fun i => if exampleWorld.isNA ([lit "a", lit "b"].getD i []) then none else
        some (strip exampleWorld.ws ([lit "a", lit "b"].getD i [])))] } := by rfl

theorem example_family : (dataTable exampleWorld exampleConfig).col (lit "family") = some fun i =>
    if exampleWorld.isNA ([lit "A", lit "B"].getD i []) then none else some (strip exampleWorld.ws ([lit "A", lit "B"].getD i [])) := by
  have : (dataTable exampleWorld exampleConfig).col (lit "family") = some fun i =>
    if exampleWorld.isNA (((exampleWorld.csv (lit "/f.csv")).cell i 3)) then none else some (strip exampleWorld.ws ((exampleWorld.csv (lit "/f.csv")).cell i 3)) := by rfl
  rw [this]
  congr 1
  funext i
  have : (exampleWorld.csv (lit "/f.csv")).cell i 3 = [lit "A", lit "B"].getD i [] := by
    rcases i with _ | _ | _ | _ | i <;> rfl
  rw [this]

theorem example_runnable : Runnable exampleWorld exampleConfig where
  features := by
    intro f p hp
    rw [example_states] at hp
    match f, hp with
    | 0, hp =>
      cases hp
      refine ⟨_, rfl, fun i hi v hv => ?_⟩
      have hi : i < 4 := hi
      refine ⟨_, rfl, ?_⟩
      interval_cases i
      · exact ⟨0, by decide, hv⟩
      · exact ⟨1, by decide, hv⟩
      · cases hv
      · exact ⟨1, by decide, hv⟩
  columns := by
    intro name hn
    simp only [List.mem_cons, List.not_mem_nil, or_false] at hn
    rcases hn with rfl | rfl | rfl <;> rfl
  confounders := by
    intro x hx
    have hx : x ∈ [(lit "universal", [lit "<ALL>"]), (lit "family", [lit "A", lit "B"])] := hx
    simp only [List.mem_cons, List.not_mem_nil, or_false] at hx
    rcases hx with rfl | rfl
    · refine ⟨fun col hcol => ?_, fun _ => rfl⟩
      have : (dataTable exampleWorld exampleConfig).col (lit "universal") = none := by rfl
      rw [show (dataTable exampleWorld exampleConfig).col _ = none from this] at hcol
      cases hcol
    · refine ⟨fun col hcol => ?_, fun hcol => ?_⟩
      · rw [show (dataTable exampleWorld exampleConfig).col _ = _ from example_family] at hcol
        cases hcol
        intro v
        constructor
        · intro hv
          simp only [List.mem_cons, List.not_mem_nil, or_false] at hv
          rcases hv with rfl | rfl
          · exact ⟨0, by decide, rfl⟩
          · exact ⟨1, by decide, rfl⟩
        · rintro ⟨i, hi, hv⟩
          have hi : i < 4 := hi
          interval_cases i
          · cases hv; exact List.mem_cons_self
          · cases hv; exact List.mem_cons_of_mem _ List.mem_cons_self
          · cases hv
          · cases hv
      · rw [show (dataTable exampleWorld exampleConfig).col _ = _ from example_family] at hcol
        cases hcol
  network := fun o _ => rfl
  costs := fun p hp => by cases hp
  clusters := ⟨1, by decide, rfl⟩
  weights := rfl
  clusterEffect := rfl
  priors := by
    intro x hx
    have hx : x ∈ [(lit "universal", [(lit "<ALL>", (⟨.uniform, none, none⟩ : DirichletConfig))]),
      (lit "family", [(lit "A", ⟨.uniform, none, none⟩), (lit "B", ⟨.dirichlet, none, some exampleCounts⟩)])] := hx
    simp only [List.mem_cons, List.not_mem_nil, or_false] at hx
    rcases hx with rfl | rfl
    · refine ⟨⟨_, List.mem_cons_self, rfl⟩, fun g hg ht => ?_⟩
      simp only [List.mem_cons, List.not_mem_nil, or_false] at hg
      subst hg
      cases ht
    · refine ⟨⟨_, List.mem_cons_of_mem _ List.mem_cons_self, rfl⟩, fun g hg ht => ?_⟩
      simp only [List.mem_cons, List.not_mem_nil, or_false] at hg
      rcases hg with rfl | rfl
      · cases ht
      · refine ⟨.dict exampleCounts, Or.inr ⟨rfl, _, rfl, (fun h => by cases h), rfl⟩, ?_⟩
        rintro f i name s ⟨col, hf, hi, hs⟩
        rw [example_states] at hf
        match f, hf with
        | 0, hf =>
          cases hf
          have hi : i < 2 := hi
          interval_cases i
          · cases hs
            exact ⟨_, _, _, rfl, rfl, .int _⟩
          · cases hs
            exact ⟨_, _, _, rfl, rfl, .int _⟩
  geo := fun h => by cases h
  sigmoid := fun h => by cases h

theorem example_sensible : Sensible exampleWorld exampleConfig where
  noGaps := by
    intro f p hp s s' h1 h2 h3
    rw [example_states] at hp h2
    match f, hp with
    | 0, hp =>
      cases hp
      have h2 : s' < 2 := h2
      have : s = 0 := by omega
      subst this
      rfl
  hasState := by
    intro p hp
    rw [example_states] at hp
    simp only [List.mem_cons, List.not_mem_nil, or_false] at hp
    subst hp
    exact ⟨0, by decide, rfl⟩
  confounders := fun h => by cases h
  groups := by
    intro x hx
    have hx : x ∈ [(lit "universal", [lit "<ALL>"]), (lit "family", [lit "A", lit "B"])] := hx
    simp only [List.mem_cons, List.not_mem_nil, or_false] at hx
    rcases hx with rfl | rfl <;> exact ⟨by decide, by decide⟩
  covered := by
    intro i hi
    refine ⟨_, List.mem_cons_self, fun col hcol => ?_⟩
    have : (dataTable exampleWorld exampleConfig).col (lit "universal") = none := by rfl
    rw [show (dataTable exampleWorld exampleConfig).col _ = none from this] at hcol
    cases hcol
  clusters := ⟨1, by decide, rfl⟩
  counts := by
    intro conf group x d hx ht hd f s a hc
    have key : x = ⟨.dirichlet, none, some exampleCounts⟩ := by
      obtain ⟨l, hl, hx⟩ := hx
      have hl : List.lookup conf [(lit "universal", [(lit "<ALL>", (⟨.uniform, none, none⟩ : DirichletConfig))]),
        (lit "family", [(lit "A", ⟨.uniform, none, none⟩), (lit "B", ⟨.dirichlet, none, some exampleCounts⟩)])] = some l := hl
      rw [List.lookup_cons] at hl
      split at hl
      · cases hl
        rw [List.lookup_cons] at hx
        split at hx
        · cases hx; cases ht
        · cases hx
      · rw [List.lookup_cons] at hl
        split at hl
        · cases hl
          rw [List.lookup_cons] at hx
          split at hx
          · cases hx; cases ht
          · rw [List.lookup_cons] at hx
            split at hx
            · cases hx; rfl
            · cases hx
        · cases hl
    subst key
    rcases hd with ⟨p, hp, -⟩ | ⟨-, r, hr, -, rfl⟩
    · cases hp
    · cases hr
      obtain ⟨e, v, h1, h2, h3⟩ := hc
      have h1 : Config.Dict.get (.cons (lit "f") (.dict (mkDict [(lit "a", .atom (.int 1)), (lit "b", .atom (.int 0))])) .nil) f = some e := h1
      rw [Config.Dict.get] at h1
      split at h1
      · cases h1
        have h2 : Config.Dict.get (.cons (lit "a") (.atom (.int 1)) (.cons (lit "b") (.atom (.int 0)) .nil)) s = some v := h2
        rw [Config.Dict.get] at h2
        split at h2
        · cases h2
          cases h3
          norm_num
        · rw [Config.Dict.get] at h2
          split at h2
          · cases h2
            cases h3
            norm_num
          · cases h2
      · cases h1
  spread := fun h => by cases h
  order := fun n g => List.mem_finRange g

/-- The example is accepted and leads to a run. -/
theorem example_runs : (build exampleWorld exampleConfig).isSome = true :=
  (C87_runs_iff example_accepted).mpr example_runnable

/-- The hypotheses of `C87_samples_approach_the_posterior`. -/
example : ∃ b, build exampleWorld exampleConfig = some b ∧ Sensible exampleWorld exampleConfig ∧ WellPosed b.setup ∧
    exampleConfig.model.sampleSource = true ∧
    (∀ k, exampleConfig.model.clusters = .one k → k * exampleConfig.model.prior.size.min < (dataTable exampleWorld exampleConfig).nRows) := by
  obtain ⟨b, hb⟩ := Option.isSome_iff_exists.mp example_runs
  exact ⟨b, hb, example_sensible, C87_run_is_well_posed example_accepted example_sensible hb, rfl,
    fun k hk => by cases hk; decide⟩

/-- The further hypotheses of `C87_configured_runs_converge`: in the example the initial clusters can be generated with all random numbers. -/
example : ∃ b, build exampleWorld exampleConfig = some b ∧
    (∀ o net, exampleWorld.network o = some net → ∀ i j, net.2 i j = net.2 j i) ∧
    (exampleConfig.model.prior.size.min ≤ exampleConfig.mcmc.initObjectsPerCluster ∧
      exampleConfig.mcmc.initObjectsPerCluster ≤ exampleConfig.model.prior.size.max) ∧
    (0 < exampleConfig.mcmc.operators.clusters ∧ 0 < exampleConfig.mcmc.operators.weights ∧ 0 < exampleConfig.mcmc.operators.clusterEffect ∧
      0 < exampleConfig.mcmc.operators.confoundingEffects ∧ 0 < exampleConfig.mcmc.operators.source) ∧
    ∀ rnd, (Init.initialClusters (m := 0) b.setup.cl.adj rnd exampleConfig.mcmc.initObjectsPerCluster (fun k => k.elim0) :
        Option (Clusters.Clus b.K b.N)).isSome := by
  obtain ⟨b, hb⟩ := Option.isSome_iff_exists.mp example_runs
  have hR := build_reflects example_sensible.noGaps hb
  refine ⟨b, hb, fun o net h i j => by cases h; rfl, by decide, by simp [exampleConfig], fun rnd => ?_⟩
  refine Init.C30_succeeds_among_neighbours _ (fun i j => ?_) rnd _ (by decide) ?_
  · obtain ⟨o, net, -, hn, ha⟩ := hR.neighbours
    rw [ha]
    cases hn
    rfl
  · have hK : b.K = 1 := by
      have : NumClusters.one 1 = .one b.K := hR.clusters
      injection this with this
      exact_mod_cast this.symm
    have hN : b.N = 4 := hR.objects
    rw [hK, hN]
    decide

end SBayes.Build
