import Verif.Model.SetupLog
import Verif.Lemmas.LogRead
import Verif.Lemmas.LogNames
import Verif.Spec.Validate
/-
C110: the set-up in experiment.log.
-/
namespace SBayes.SetupLog
open SBayes.Validate
open SBayes.Log (lit fileText)

/-! ### Specification -/

/-- Different numbers are shown differently, in one line; integers without spaces (as Python shows them). -/
structure Format.Good (fmt : Format) : Prop where
  int_inj : Function.Injective fmt.int
  int_plain : ∀ n, ' ' ∉ fmt.int n ∧ '\n' ∉ fmt.int n
  clusters_inj : ∀ a b, fmt.clusters a = fmt.clusters b → a = b
  clusters_line : ∀ a, '\n' ∉ fmt.clusters a
  opt_inj : Function.Injective fmt.opt
  opt_line : ∀ q, '\n' ∉ fmt.opt q
  prob_inj : Function.Injective fmt.prob
  prob_line : ∀ p, '\n' ∉ fmt.prob p
  agg_inj : Function.Injective fmt.agg
  agg_line : ∀ a, '\n' ∉ fmt.agg a

/-- Names and the path of the cost file are single lines. -/
structure SingleLines (c : SBayesConfig) : Prop where
  confs : ∀ k ∈ c.model.prior.confoundingEffects, '\n' ∉ k.1 ∧ ∀ g ∈ k.2, '\n' ∉ g.1
  path : ∀ p, c.model.prior.geo.costs = .file p → '\n' ∉ p

/-- The settings of two cost-based geo-priors agree. -/
structure SameCosts (g g' : GeoPriorConfig) : Prop where
  prob : g.probabilityFunction = g'.probabilityFunction
  agg : g.aggregation = g'.aggregation
  rate : g.rate = g'.rate
  inflection : g.probabilityFunction = .sigmoid → g.inflectionPoint = g'.inflectionPoint
  costs : g.costs = g'.costs

/-- The types of the priors on the confounding effects, in order, with the names of confounders and groups. -/
def confTypes (p : PriorConfig) : List (Str × List (Str × DirType)) :=
  p.confoundingEffects.map fun k => (k.1, k.2.map fun g => (g.1, g.2.type))

/-- Two configurations agree in what the log is meant to document. -/
structure SameSetup (c c' : SBayesConfig) : Prop where
  clusters : c.model.clusters = c'.model.clusters
  min : c.model.prior.size.min = c'.model.prior.size.min
  max : c.model.prior.size.max = c'.model.prior.size.max
  size : c.model.prior.size.type = c'.model.prior.size.type
  geo : c.model.prior.geo.type = c'.model.prior.geo.type
  costs : c.model.prior.geo.type = .costBased → SameCosts c.model.prior.geo c'.model.prior.geo
  weights : c.model.prior.weights.type = c'.model.prior.weights.type
  effect : c.model.prior.clusterEffect.type = c'.model.prior.clusterEffect.type
  confounding : confTypes c.model.prior = confTypes c'.model.prior
  source : c.model.sampleSource = c'.model.sampleSource
  steps : c.mcmc.steps = c'.mcmc.steps
  samples : c.mcmc.samples = c'.mcmc.samples
  warmup : c.mcmc.warmup = c'.mcmc.warmup
  opClusters : c.mcmc.operators.clusters = c'.mcmc.operators.clusters
  opWeights : c.mcmc.operators.weights = c'.mcmc.operators.weights
  opEffect : c.mcmc.operators.clusterEffect = c'.mcmc.operators.clusterEffect
  opConf : c.mcmc.operators.confoundingEffects = c'.mcmc.operators.confoundingEffects
  opSource : c.model.sampleSource = true → c.mcmc.operators.source = c'.mcmc.operators.source

/-! ### Lines -/

variable {fmt : Format}

theorem fileText_append (a b : List Str) : fileText a ++ fileText b = fileText (a ++ b) := by
  simp [fileText]

theorem fileText_flatMap {α : Type} (l : List α) (f : α → List Str) : l.flatMap (fun x => fileText (f x)) = fileText (l.flatMap f) := by
  induction l with
  | nil => rfl
  | cons a l ih => rw [List.flatMap_cons, List.flatMap_cons, ih, fileText_append]

theorem lines_inj {ls ls' : List Str} (h : ∀ l ∈ ls, '\n' ∉ l) (h' : ∀ l ∈ ls', '\n' ∉ l) (he : fileText ls = fileText ls') : ls = ls' := by
  have := congrArg (List.splitOn '\n') he
  rw [SBayes.Log.split_fileText ls h, SBayes.Log.split_fileText ls' h'] at this
  exact List.append_cancel_right this

/-- The lines on the geo-prior. -/
def geoLines (fmt : Format) (g : GeoPriorConfig) : List Str :=
  (lit "Geo-prior: " ++ geoValue g.type) ::
  (if g.type = .costBased then
    [lit "\tProbability function: " ++ fmt.prob g.probabilityFunction, lit "\tAggregation policy: " ++ fmt.agg g.aggregation,
      lit "\tScale: " ++ fmt.opt g.rate] ++
    (if g.probabilityFunction = .sigmoid then [lit "\tInflection point: " ++ fmt.opt g.inflectionPoint] else []) ++
    (match g.costs with
      | .fromData => [lit "\tCost-matrix inferred from geo-locations."]
      | .file p => [lit "\tCost-matrix file: " ++ p])
  else [])

/-- The lines on a confounder. -/
def confLines (c : Str × List (Str × DirichletConfig)) : List Str :=
  (lit "Prior on confounding effect " ++ c.1 ++ lit ":") :: c.2.map (groupLine c.1)

/-- The lines on the sampler. -/
def mcmcLines (fmt : Format) (m : MCMCConfig) : List Str :=
  [[], lit "MCMC SETUP", lit "##########################################",
    lit "MCMC with " ++ fmt.int m.steps ++ lit " steps and " ++ fmt.int m.samples ++ lit " samples",
    lit "Warm-up: " ++ fmt.int m.warmup.chains ++ lit " chains exploring the parameter space in " ++ fmt.int m.warmup.steps ++ lit " steps",
    lit "Ratio of cluster steps (growing, shrinking, swapping clusters): " ++ fmt.num m.operators.clusters,
    lit "Ratio of weight steps (changing weights): " ++ fmt.num m.operators.weights,
    lit "Ratio of cluster_effect steps (changing probabilities in clusters): " ++ fmt.num m.operators.clusterEffect,
    lit "Ratio of confounding_effects steps (changing probabilities in confounders): " ++ fmt.num m.operators.confoundingEffects]

/-- The last lines. -/
def sourceLines (fmt : Format) (c : SBayesConfig) : List Str :=
  (if c.model.sampleSource then
    [lit "Ratio of source steps (changing source component assignment): " ++ fmt.num c.mcmc.operators.source] else []) ++ [[], []]

/-- All lines. -/
def allLines (fmt : Format) (c : SBayesConfig) : List Str :=
  [[], lit "Model", lit "##########################################",
    lit "Number of clusters: " ++ fmt.clusters c.model.clusters,
    lit "Clusters have a minimum size of " ++ fmt.int c.model.prior.size.min ++ lit " and a maximum size of " ++ fmt.int c.model.prior.size.max] ++
  (geoLines fmt c.model.prior.geo ++
  ([lit "Prior on cluster size: " ++ sizeValue c.model.prior.size.type,
    lit "Prior on weights: " ++ dirValue c.model.prior.weights.type,
    lit "Prior on cluster effect: " ++ dirValue c.model.prior.clusterEffect.type] ++
  (c.model.prior.confoundingEffects.flatMap confLines ++ ([] :: (mcmcLines fmt c.mcmc ++ sourceLines fmt c)))))

theorem geoMessage_lines (g : GeoPriorConfig) : geoMessage fmt g = fileText (geoLines fmt g) := by
  unfold geoMessage geoLines
  by_cases h : g.type = .costBased
  · rw [if_pos h, if_pos h]
    by_cases h2 : g.probabilityFunction = .sigmoid
    · rw [if_pos h2, if_pos h2]
      cases g.costs <;> simp only [fileText_append] <;> rfl
    · rw [if_neg h2, if_neg h2]
      cases g.costs <;> simp only [fileText_append, List.append_nil] <;> rfl
  · rw [if_neg h, if_neg h, List.append_nil]

theorem setupText_lines (c : SBayesConfig) : setupText fmt c = fileText (allLines fmt c) := by
  have h1 : (['\n'] : Str) = fileText [[]] := rfl
  have h2 : (if c.model.sampleSource then
      fileText [lit "Ratio of source steps (changing source component assignment): " ++ fmt.num c.mcmc.operators.source] else []) ++
      fileText [[], []] = fileText (sourceLines fmt c) := by
    unfold sourceLines
    by_cases h : c.model.sampleSource = true
    · rw [if_pos h, if_pos h, fileText_append]
    · rw [if_neg h, if_neg h]; rfl
  have h3 : c.model.prior.confoundingEffects.flatMap confMessage = fileText (c.model.prior.confoundingEffects.flatMap confLines) := by
    rw [← fileText_flatMap]
    congr 1
    funext k
    unfold confMessage confLines
    rw [fileText_append]; rfl
  unfold setupText modelMessage priorMessage
  rw [geoMessage_lines, h3, List.append_assoc, h2, h1]
  unfold mcmcRecord
  simp only [fileText_append]
  congr 1
  unfold allLines mcmcLines
  simp only [List.append_assoc, List.cons_append, List.nil_append]

/-! ### Single lines are determined -/

theorem sep_inj {c : Char} {a a' x x' : Str} (ha : c ∉ a) (ha' : c ∉ a') (h : a ++ c :: x = a' ++ c :: x') : a = a' ∧ x = x' := by
  induction a generalizing a' with
  | nil =>
    cases a' with
    | nil => simpa using h
    | cons b a' =>
      simp only [List.nil_append, List.cons_append, List.cons.injEq] at h
      exact absurd (by simp [h.1]) ha'
  | cons b a ih =>
    cases a' with
    | nil =>
      simp only [List.nil_append, List.cons_append, List.cons.injEq] at h
      exact absurd (by simp [h.1]) ha
    | cons b' a' =>
      simp only [List.cons_append, List.cons.injEq] at h
      obtain ⟨rfl, h⟩ := h
      obtain ⟨rfl, rfl⟩ := ih (fun hc => ha (List.mem_cons_of_mem _ hc)) (fun hc => ha' (List.mem_cons_of_mem _ hc)) h
      exact ⟨rfl, rfl⟩

/-- Two integers in a text that starts with a space after the first. -/
theorem two_ints (hf : fmt.Good) {pre mid post : Str} {a b a' b' : ℤ}
    (h : pre ++ fmt.int a ++ (' ' :: mid) ++ fmt.int b ++ post = pre ++ fmt.int a' ++ (' ' :: mid) ++ fmt.int b' ++ post) : a = a' ∧ b = b' := by
  have h1 := List.append_cancel_right h
  simp only [List.append_assoc] at h1
  have h2 := List.append_cancel_left h1
  simp only [List.cons_append] at h2
  obtain ⟨e1, e2⟩ := sep_inj (hf.int_plain a).1 (hf.int_plain a').1 h2
  exact ⟨hf.int_inj e1, hf.int_inj (List.append_cancel_left e2)⟩

theorem geoValue_inj : Function.Injective geoValue := by intro a b; cases a <;> cases b <;> decide
theorem sizeValue_inj : Function.Injective sizeValue := by intro a b; cases a <;> cases b <;> decide
theorem dirValue_inj : Function.Injective dirValue := by intro a b; cases a <;> cases b <;> decide

theorem groupLine_head (c : Str) (g : Str × DirichletConfig) : (groupLine c g).head? = some '\t' := by
  unfold groupLine
  split <;> rfl

theorem groupLine_inj {c : Str} {g g' : Str × DirichletConfig} (h : groupLine c g = groupLine c g') : g.1 = g'.1 ∧ g.2.type = g'.2.type := by
  have hne : ∀ x y : Str, lit "\tUniform prior for confounder " ++ x ≠ lit "\tDirichlet prior for confounder " ++ y := by
    intro x y hxy
    have := congrArg (fun l => l[1]?) hxy
    simp [lit] at this
  obtain ⟨g, t, f, p⟩ := g
  obtain ⟨g', t', f', p'⟩ := g'
  unfold groupLine at h
  dsimp only at h ⊢
  cases t <;> cases t' <;> dsimp only at h
  · refine ⟨?_, rfl⟩
    exact List.append_cancel_left (List.append_cancel_right h)
  · simp only [List.append_assoc] at h
    exact absurd h (hne _ _)
  · simp only [List.append_assoc] at h
    exact absurd h.symm (hne _ _)
  · refine ⟨?_, rfl⟩
    exact List.append_cancel_left (List.append_cancel_right h)

/-- Lines of groups are followed by a line that does not start with a tabulator. -/
theorem groups_inj {c : Str} : ∀ {gs gs' : List (Str × DirichletConfig)} {x x' : List Str}, (∀ l, x.head? = some l → l.head? ≠ some '\t') →
    (∀ l, x'.head? = some l → l.head? ≠ some '\t') → gs.map (groupLine c) ++ x = gs'.map (groupLine c) ++ x' →
    gs.map (fun g => (g.1, g.2.type)) = gs'.map (fun g => (g.1, g.2.type)) ∧ x = x'
  | [], [], x, x', _, _, h => ⟨rfl, by simpa using h⟩
  | [], g' :: gs', x, x', hx, _, h => by
    simp only [List.map_nil, List.nil_append, List.map_cons, List.cons_append] at h
    exact absurd (groupLine_head c g') (hx _ (by rw [h]; rfl))
  | g :: gs, [], x, x', _, hx', h => by
    simp only [List.map_nil, List.nil_append, List.map_cons, List.cons_append] at h
    exact absurd (groupLine_head c g) (hx' _ (by rw [← h]; rfl))
  | g :: gs, g' :: gs', x, x', hx, hx', h => by
    simp only [List.map_cons, List.cons_append, List.cons.injEq] at h
    obtain ⟨h1, h2⟩ := groupLine_inj h.1
    obtain ⟨h3, h4⟩ := groups_inj hx hx' h.2
    refine ⟨?_, h4⟩
    simp only [List.map_cons, h1, h2, h3]

theorem confs_head (cs : List (Str × List (Str × DirichletConfig))) (x : List Str) :
    ∀ l, (cs.flatMap confLines ++ [] :: x).head? = some l → l.head? ≠ some '\t' := by
  intro l hl
  cases cs with
  | nil => simp at hl; subst hl; simp
  | cons c cs =>
    simp only [List.flatMap_cons, confLines, List.cons_append, List.head?_cons, Option.some.injEq] at hl
    subst hl
    simp [lit]

theorem confs_inj : ∀ {cs cs' : List (Str × List (Str × DirichletConfig))} {x x' : List Str},
    cs.flatMap confLines ++ [] :: x = cs'.flatMap confLines ++ [] :: x' →
    (cs.map fun k => (k.1, k.2.map fun g => (g.1, g.2.type))) = (cs'.map fun k => (k.1, k.2.map fun g => (g.1, g.2.type))) ∧ x = x'
  | [], [], x, x', h => ⟨rfl, by simpa using h⟩
  | [], c' :: cs', x, x', h => by
    simp [confLines, lit] at h
  | c :: cs, [], x, x', h => by
    simp [confLines, lit] at h
  | c :: cs, c' :: cs', x, x', h => by
    simp only [List.flatMap_cons, confLines, List.cons_append, List.cons.injEq, List.append_assoc] at h
    obtain ⟨h1, h2⟩ := h
    have hc : c.1 = c'.1 := List.append_cancel_right (List.append_cancel_left h1)
    rw [hc] at h2
    obtain ⟨h3, h4⟩ := groups_inj (confs_head cs x) (confs_head cs' x') h2
    obtain ⟨h5, h6⟩ := confs_inj h4
    refine ⟨?_, h6⟩
    simp only [List.map_cons, hc, h3, h5]

theorem costs_inj {c c' : Costs} {x x' : List Str}
    (h : (match c with
      | .fromData => [lit "\tCost-matrix inferred from geo-locations."]
      | .file p => [lit "\tCost-matrix file: " ++ p]) ++ x = (match c' with
      | .fromData => [lit "\tCost-matrix inferred from geo-locations."]
      | .file p => [lit "\tCost-matrix file: " ++ p]) ++ x') : c = c' ∧ x = x' := by
  cases c <;> cases c' <;> simp only [List.cons_append, List.nil_append, List.cons.injEq] at h
  · exact ⟨rfl, h.2⟩
  · have := congrArg (fun l => l[13]?) h.1
    simp [lit] at this
  · have := congrArg (fun l => l[13]?) h.1
    simp [lit] at this
  · exact ⟨by rw [List.append_cancel_left h.1], h.2⟩

theorem geo_inj (hf : fmt.Good) {g g' : GeoPriorConfig} {x x' : List Str} (h : geoLines fmt g ++ x = geoLines fmt g' ++ x') :
    g.type = g'.type ∧ (g.type = .costBased → SameCosts g g') ∧ x = x' := by
  unfold geoLines at h
  simp only [List.cons_append, List.cons.injEq] at h
  obtain ⟨h1, h⟩ := h
  have ht := geoValue_inj (List.append_cancel_left h1)
  by_cases hc : g.type = .costBased
  · have hc' : g'.type = .costBased := ht ▸ hc
    simp only [if_pos hc, if_pos hc', List.cons_append, List.nil_append, List.cons.injEq, List.append_assoc] at h
    obtain ⟨h2, h3, h4, h5⟩ := h
    have hp := hf.prob_inj (List.append_cancel_left h2)
    have ha := hf.agg_inj (List.append_cancel_left h3)
    have hr := hf.opt_inj (List.append_cancel_left h4)
    by_cases hs : g.probabilityFunction = .sigmoid
    · have hs' : g'.probabilityFunction = .sigmoid := hp ▸ hs
      simp only [if_pos hs, if_pos hs', List.cons_append, List.nil_append, List.cons.injEq] at h5
      obtain ⟨hk, hx⟩ := costs_inj h5.2
      exact ⟨ht, fun _ => ⟨hp, ha, hr, fun _ => hf.opt_inj (List.append_cancel_left h5.1), hk⟩, hx⟩
    · have hs' : ¬ g'.probabilityFunction = .sigmoid := hp ▸ hs
      simp only [if_neg hs, if_neg hs', List.nil_append] at h5
      obtain ⟨hk, hx⟩ := costs_inj h5
      exact ⟨ht, fun _ => ⟨hp, ha, hr, fun h => absurd h hs, hk⟩, hx⟩
  · have hc' : ¬ g'.type = .costBased := ht ▸ hc
    rw [if_neg hc, if_neg hc'] at h
    exact ⟨ht, fun h => absurd h hc, by simpa using h⟩

theorem allLines_inj (hf : fmt.Good) {c c' : SBayesConfig} (h : allLines fmt c = allLines fmt c') : SameSetup c c' := by
  have hnum : Function.Injective fmt.num := fun a b hab => Option.some.inj (hf.opt_inj (a₁ := some a) (a₂ := some b) hab)
  unfold allLines at h
  simp only [List.cons_append, List.nil_append, List.cons.injEq, true_and] at h
  obtain ⟨hK, hm, h⟩ := h
  have hm' := two_ints hf (pre := lit "Clusters have a minimum size of ") (mid := lit "and a maximum size of ") (post := [])
    (a := c.model.prior.size.min) (b := c.model.prior.size.max) (a' := c'.model.prior.size.min) (b' := c'.model.prior.size.max)
    (by rw [List.append_nil, List.append_nil]; exact hm)
  obtain ⟨g1, g2, h⟩ := geo_inj hf h
  simp only [List.cons.injEq] at h
  obtain ⟨hsz, hw, he, h⟩ := h
  obtain ⟨hcf, h⟩ := confs_inj h
  unfold mcmcLines at h
  simp only [List.cons_append, List.nil_append, List.cons.injEq, true_and] at h
  obtain ⟨k1, k2, k3, k4, k5, k6, h⟩ := h
  have k1' := two_ints hf (pre := lit "MCMC with ") (mid := lit "steps and ") (post := lit " samples")
    (a := c.mcmc.steps) (b := c.mcmc.samples) (a' := c'.mcmc.steps) (b' := c'.mcmc.samples) k1
  have k2' := two_ints hf (pre := lit "Warm-up: ") (mid := lit "chains exploring the parameter space in ") (post := lit " steps")
    (a := c.mcmc.warmup.chains) (b := c.mcmc.warmup.steps) (a' := c'.mcmc.warmup.chains) (b' := c'.mcmc.warmup.steps) k2
  have hsrc : c.model.sampleSource = c'.model.sampleSource ∧ (c.model.sampleSource = true → c.mcmc.operators.source = c'.mcmc.operators.source) := by
    unfold sourceLines at h
    by_cases s : c.model.sampleSource = true <;> by_cases s' : c'.model.sampleSource = true
    · rw [if_pos s, if_pos s'] at h
      simp only [List.cons_append, List.nil_append, List.cons.injEq] at h
      exact ⟨by rw [s, s'], fun _ => hnum (List.append_cancel_left h.1)⟩
    · rw [if_pos s, if_neg s'] at h; simp [lit] at h
    · rw [if_neg s, if_pos s'] at h; simp [lit] at h
    · exact ⟨by rw [Bool.not_eq_true] at s s'; rw [s, s'], fun h => absurd h s⟩
  constructor
  · exact hf.clusters_inj _ _ (List.append_cancel_left hK)
  · exact Int.ofNat.inj hm'.1
  · exact Int.ofNat.inj hm'.2
  · exact sizeValue_inj (List.append_cancel_left hsz)
  · exact g1
  · exact g2
  · exact dirValue_inj (List.append_cancel_left hw)
  · exact dirValue_inj (List.append_cancel_left he)
  · exact hcf
  · exact hsrc.1
  · exact Int.ofNat.inj k1'.1
  · exact Int.ofNat.inj k1'.2
  · have e1 := Int.ofNat.inj k2'.1
    have e2 := Int.ofNat.inj k2'.2
    cases hw : c.mcmc.warmup; cases hw' : c'.mcmc.warmup
    rw [hw, hw'] at e1 e2
    simp only at e1 e2
    rw [e1, e2]
  · exact hnum (List.append_cancel_left k3)
  · exact hnum (List.append_cancel_left k4)
  · exact hnum (List.append_cancel_left k5)
  · exact hnum (List.append_cancel_left k6)
  · exact hsrc.2

/-! ### No line break inside a line -/

theorem not_mem_append {c : Char} {a b : Str} (ha : c ∉ a) (hb : c ∉ b) : c ∉ a ++ b := by
  rw [List.mem_append]; rintro (h | h)
  · exact ha h
  · exact hb h

theorem geoLines_single (hf : fmt.Good) {g : GeoPriorConfig} (hp : ∀ p, g.costs = .file p → '\n' ∉ p) : ∀ l ∈ geoLines fmt g, '\n' ∉ l := by
  intro l hl
  unfold geoLines at hl
  rcases List.mem_cons.1 hl with rfl | hl
  · refine not_mem_append (by decide) ?_
    cases g.type <;> decide
  · by_cases hc : g.type = .costBased
    · rw [if_pos hc] at hl
      rcases List.mem_append.1 hl with hl | hl
      · rcases List.mem_append.1 hl with hl | hl
        · simp only [List.mem_cons, List.not_mem_nil, or_false] at hl
          rcases hl with rfl | rfl | rfl
          · exact not_mem_append (by decide) (hf.prob_line _)
          · exact not_mem_append (by decide) (hf.agg_line _)
          · exact not_mem_append (by decide) (hf.opt_line _)
        · by_cases hs : g.probabilityFunction = .sigmoid
          · rw [if_pos hs, List.mem_singleton] at hl
            subst hl
            exact not_mem_append (by decide) (hf.opt_line _)
          · rw [if_neg hs] at hl; simp at hl
      · cases hk : g.costs with
        | fromData => rw [hk] at hl; simp only [List.mem_singleton] at hl; subst hl; decide
        | file p =>
          rw [hk] at hl
          simp only [List.mem_singleton] at hl
          subst hl
          exact not_mem_append (by decide) (hp p hk)
    · rw [if_neg hc] at hl; simp at hl

theorem allLines_single (hf : fmt.Good) {c : SBayesConfig} (hc : SingleLines c) : ∀ l ∈ allLines fmt c, '\n' ∉ l := by
  have hnum : ∀ q, '\n' ∉ fmt.num q := fun q => hf.opt_line (some q)
  intro l hl
  unfold allLines at hl
  rcases List.mem_append.1 hl with hl | hl
  · simp only [List.mem_cons, List.not_mem_nil, or_false] at hl
    rcases hl with rfl | rfl | rfl | rfl | rfl
    · decide
    · decide
    · decide
    · exact not_mem_append (by decide) (hf.clusters_line _)
    · exact not_mem_append (not_mem_append (not_mem_append (by decide) (hf.int_plain _).2) (by decide)) (hf.int_plain _).2
  · rcases List.mem_append.1 hl with hl | hl
    · exact geoLines_single hf hc.path l hl
    · rcases List.mem_append.1 hl with hl | hl
      · simp only [List.mem_cons, List.not_mem_nil, or_false] at hl
        rcases hl with rfl | rfl | rfl
        · exact not_mem_append (by decide) (by cases c.model.prior.size.type <;> decide)
        · exact not_mem_append (by decide) (by cases c.model.prior.weights.type <;> decide)
        · exact not_mem_append (by decide) (by cases c.model.prior.clusterEffect.type <;> decide)
      · rcases List.mem_append.1 hl with hl | hl
        · obtain ⟨k, hk, hl⟩ := List.mem_flatMap.1 hl
          obtain ⟨hk1, hk2⟩ := hc.confs k hk
          rcases List.mem_cons.1 hl with rfl | hl
          · exact not_mem_append (not_mem_append (by decide) hk1) (by decide)
          · obtain ⟨g, hg, rfl⟩ := List.mem_map.1 hl
            unfold groupLine
            split
            · exact not_mem_append (not_mem_append (not_mem_append (not_mem_append (by decide) hk1) (by decide)) (hk2 g hg)) (by decide)
            · exact not_mem_append (not_mem_append (not_mem_append (not_mem_append (by decide) hk1) (by decide)) (hk2 g hg)) (by decide)
        · rcases List.mem_cons.1 hl with rfl | hl
          · decide
          · rcases List.mem_append.1 hl with hl | hl
            · unfold mcmcLines at hl
              simp only [List.mem_cons, List.not_mem_nil, or_false] at hl
              rcases hl with rfl | rfl | rfl | rfl | rfl | rfl | rfl | rfl | rfl
              · decide
              · decide
              · decide
              · exact not_mem_append (not_mem_append (not_mem_append (not_mem_append (by decide) (hf.int_plain _).2) (by decide))
                  (hf.int_plain _).2) (by decide)
              · exact not_mem_append (not_mem_append (not_mem_append (not_mem_append (by decide) (hf.int_plain _).2) (by decide))
                  (hf.int_plain _).2) (by decide)
              · exact not_mem_append (by decide) (hnum _)
              · exact not_mem_append (by decide) (hnum _)
              · exact not_mem_append (by decide) (hnum _)
              · exact not_mem_append (by decide) (hnum _)
            · unfold sourceLines at hl
              rcases List.mem_append.1 hl with hl | hl
              · by_cases s : c.model.sampleSource = true
                · rw [if_pos s, List.mem_singleton] at hl
                  subst hl
                  exact not_mem_append (by decide) (hnum _)
                · rw [if_neg s] at hl; simp at hl
              · simp only [List.mem_cons, List.not_mem_nil, or_false, or_self] at hl
                subst hl; decide

/-! ### C110 -/

/-- **C110** Two runs whose logs describe the same set-up have the same settings: number and sizes of clusters, type of every prior, the
parameters of a cost-based geo-prior, names of confounders and groups, numbers of steps and samples, warm-up, and the ratios of the operators
(that of the source only if sources are sampled). -/
theorem C110_log_determines_setup_partial (hf : fmt.Good) (c c' : SBayesConfig) (hc : SingleLines c) (hc' : SingleLines c')
    (h : setupText fmt c = setupText fmt c') : SameSetup c c' := by
  rw [setupText_lines, setupText_lines] at h
  exact allLines_inj hf (lines_inj (allLines_single hf hc) (allLines_single hf hc') h)

/-- **C110** What the log says is right: its lines show the settings of the run. -/
theorem C110_log_shows_settings (hf : fmt.Good) (c : SBayesConfig) (hc : SingleLines c) :
    let lines := (setupText fmt c).splitOn '\n'
    lit "Number of clusters: " ++ fmt.clusters c.model.clusters ∈ lines ∧
    lit "Clusters have a minimum size of " ++ fmt.int c.model.prior.size.min ++ lit " and a maximum size of " ++ fmt.int c.model.prior.size.max ∈ lines ∧
    lit "Geo-prior: " ++ geoName c.model.prior.geo.type ∈ lines ∧
    (c.model.prior.geo.type = .costBased →
      lit "\tProbability function: " ++ fmt.prob c.model.prior.geo.probabilityFunction ∈ lines ∧
      lit "\tAggregation policy: " ++ fmt.agg c.model.prior.geo.aggregation ∈ lines ∧
      lit "\tScale: " ++ fmt.opt c.model.prior.geo.rate ∈ lines ∧
      (c.model.prior.geo.probabilityFunction = .sigmoid → lit "\tInflection point: " ++ fmt.opt c.model.prior.geo.inflectionPoint ∈ lines) ∧
      (c.model.prior.geo.costs = .fromData → lit "\tCost-matrix inferred from geo-locations." ∈ lines) ∧
      (∀ p, c.model.prior.geo.costs = .file p → lit "\tCost-matrix file: " ++ p ∈ lines)) ∧
    lit "Prior on cluster size: " ++ SBayes.Validate.sizeName c.model.prior.size.type ∈ lines ∧
    lit "Prior on weights: " ++ dirName c.model.prior.weights.type ∈ lines ∧
    lit "Prior on cluster effect: " ++ dirName c.model.prior.clusterEffect.type ∈ lines ∧
    (∀ k ∈ c.model.prior.confoundingEffects, ∀ g ∈ k.2,
      (g.2.type = .uniform → lit "\tUniform prior for confounder " ++ k.1 ++ lit " = " ++ g.1 ++ lit "." ∈ lines) ∧
      (g.2.type = .dirichlet → lit "\tDirichlet prior for confounder " ++ k.1 ++ lit " = " ++ g.1 ++ lit "." ∈ lines)) ∧
    lit "MCMC with " ++ fmt.int c.mcmc.steps ++ lit " steps and " ++ fmt.int c.mcmc.samples ++ lit " samples" ∈ lines ∧
    lit "Warm-up: " ++ fmt.int c.mcmc.warmup.chains ++ lit " chains exploring the parameter space in " ++ fmt.int c.mcmc.warmup.steps ++
      lit " steps" ∈ lines ∧
    lit "Ratio of cluster steps (growing, shrinking, swapping clusters): " ++ fmt.num c.mcmc.operators.clusters ∈ lines ∧
    lit "Ratio of weight steps (changing weights): " ++ fmt.num c.mcmc.operators.weights ∈ lines ∧
    lit "Ratio of cluster_effect steps (changing probabilities in clusters): " ++ fmt.num c.mcmc.operators.clusterEffect ∈ lines ∧
    lit "Ratio of confounding_effects steps (changing probabilities in confounders): " ++ fmt.num c.mcmc.operators.confoundingEffects ∈ lines ∧
    (c.model.sampleSource = true →
      lit "Ratio of source steps (changing source component assignment): " ++ fmt.num c.mcmc.operators.source ∈ lines) := by
  intro lines
  have hl : ∀ l ∈ allLines fmt c, l ∈ lines := by
    intro l h
    show l ∈ (setupText fmt c).splitOn '\n'
    rw [setupText_lines, SBayes.Log.split_fileText _ (allLines_single hf hc)]
    exact List.mem_append_left _ h
  have hgeo : ∀ l ∈ geoLines fmt c.model.prior.geo, l ∈ lines := fun l h =>
    hl l (List.mem_append_right _ (List.mem_append_left _ h))
  have hmc : ∀ l ∈ mcmcLines fmt c.mcmc, l ∈ lines := fun l h =>
    hl l (List.mem_append_right _ (List.mem_append_right _ (List.mem_append_right _ (List.mem_append_right _
      (List.mem_cons_of_mem _ (List.mem_append_left _ h))))))
  have hpr : ∀ l ∈ [lit "Prior on cluster size: " ++ sizeValue c.model.prior.size.type,
      lit "Prior on weights: " ++ dirValue c.model.prior.weights.type,
      lit "Prior on cluster effect: " ++ dirValue c.model.prior.clusterEffect.type], l ∈ lines := fun l h =>
    hl l (List.mem_append_right _ (List.mem_append_right _ (List.mem_append_left _ h)))
  have e1 : geoValue = geoName := by funext t; cases t <;> rfl
  have e2 : sizeValue = SBayes.Validate.sizeName := by funext t; cases t <;> rfl
  have e3 : dirValue = dirName := by funext t; cases t <;> rfl
  rw [e2, e3] at hpr
  refine ⟨hl _ (by simp [allLines]), hl _ (by simp [allLines]), hgeo _ (by rw [← e1]; simp [geoLines]), ?_, hpr _ (by simp),
    hpr _ (by simp), hpr _ (by simp), ?_, hmc _ (by simp [mcmcLines]), hmc _ (by simp [mcmcLines]), hmc _ (by simp [mcmcLines]),
    hmc _ (by simp [mcmcLines]), hmc _ (by simp [mcmcLines]), hmc _ (by simp [mcmcLines]), ?_⟩
  · intro hcb
    refine ⟨hgeo _ ?_, hgeo _ ?_, hgeo _ ?_, fun hs => hgeo _ ?_, fun hk => hgeo _ ?_, fun p hk => hgeo _ ?_⟩
    · simp [geoLines, hcb]
    · simp [geoLines, hcb]
    · simp [geoLines, hcb]
    · simp [geoLines, hcb, hs]
    · simp [geoLines, hcb, hk]
    · simp [geoLines, hcb, hk]
  · intro k hk g hg
    have hmem : groupLine k.1 g ∈ lines := by
      refine hl _ (List.mem_append_right _ (List.mem_append_right _ (List.mem_append_right _ (List.mem_append_left _ ?_))))
      exact List.mem_flatMap.2 ⟨k, hk, List.mem_cons_of_mem _ (List.mem_map_of_mem hg)⟩
    constructor
    · intro ht
      unfold groupLine at hmem
      rw [ht] at hmem
      exact hmem
    · intro ht
      unfold groupLine at hmem
      rw [ht] at hmem
      exact hmem
  · intro hs
    refine hl _ (List.mem_append_right _ (List.mem_append_right _ (List.mem_append_right _ (List.mem_append_right _
      (List.mem_cons_of_mem _ (List.mem_append_right _ ?_))))))
    simp [sourceLines, hs]

/-! ### What is missing in the log -/

/-- A configuration file with a Dirichlet prior, the count `n` in it, and the switch `prior` for sampling from the prior. -/
def demoRaw (n : ℤ) (prior : Bool) : Raw :=
  mkDict [
    (lit "data", .dict (mkDict [(lit "features", .atom (.str (lit "/f.csv"))), (lit "feature_states", .atom (.str (lit "/s.csv")))])),
    (lit "model", .dict (mkDict [
      (lit "clusters", .atom (.int 1)), (lit "sample_source", .atom (.bool true)),
      (lit "confounders", .dict (mkDict [(lit "family", .atom (.list [.str (lit "A")]))])),
      (lit "prior", .dict (mkDict [
        (lit "objects_per_cluster", .dict (mkDict [(lit "type", .atom (.str (lit "uniform_size")))])),
        (lit "geo", .dict (mkDict [(lit "type", .atom (.str (lit "uniform")))])),
        (lit "weights", .dict (mkDict [(lit "type", .atom (.str (lit "uniform")))])),
        (lit "cluster_effect", .dict (mkDict [(lit "type", .atom (.str (lit "uniform")))])),
        (lit "confounding_effects", .dict (mkDict [(lit "family", .dict (mkDict [(lit "A", .dict (mkDict [
          (lit "type", .atom (.str (lit "dirichlet"))),
          (lit "parameters", .dict (mkDict [(lit "f", .dict (mkDict [(lit "a", .atom (.int n))]))]))]))]))]))]))])),
    (lit "mcmc", .dict (mkDict [(lit "steps", .atom (.int 1000)), (lit "samples", .atom (.int 10)),
      (lit "sample_from_prior", .atom (.bool prior)), (lit "init_objects_per_cluster", .atom (.int 2))]))]

/-- All files exist. -/
def demoEnv : Env where
  base := lit "/"
  isFile := fun _ => true
  canMakeDir := fun _ => true
  intOfStr := fun _ => none
  numOfStr := fun _ => none
  showInt := fun _ => []
  showNum := fun _ => []

/-- The configuration read from that file. -/
def demoConfig (n : ℤ) (prior : Bool) : SBayesConfig where
  data := ⟨lit "/f.csv", lit "/s.csv", lit "epsg:4326"⟩
  model := ⟨.one 1, [(lit "family", [lit "A"])], true,
    ⟨[(lit "family", [(lit "A", ⟨.dirichlet, none, some (mkDict [(lit "f", .dict (mkDict [(lit "a", .atom (.int n))]))])⟩)])],
      ⟨.uniform, none, none⟩, ⟨.uniform, .fromData, .mean, .exponential, none, none, .mst⟩, ⟨.uniformSize, 2, 10000⟩, ⟨.uniform, none, none⟩⟩⟩
  mcmc := ⟨1000, 10, 1, prior, 2, 4 / 5, ⟨45, 15, 5, 15, 10⟩, ⟨50000, 10⟩⟩
  results := ⟨lit "//./results", true⟩

theorem demo_accepted (n : ℤ) (prior : Bool) : parseConfig demoEnv (demoRaw n prior) = some (demoConfig n prior) := by
  cases prior <;> rfl

/-- **C110** Finding: the log does not show the parameters of a Dirichlet prior (nor its file), nor whether the run samples from the
prior instead of the posterior: runs that differ in them have the same set-up in their logs. -/
theorem C110_log_determines_priors_false : ∃ (env : Env) (raw raw' raw'' : Raw) (c c' c'' : SBayesConfig),
    parseConfig env raw = some c ∧ parseConfig env raw' = some c' ∧ parseConfig env raw'' = some c'' ∧
    (∀ fmt, setupText fmt c = setupText fmt c' ∧ setupText fmt c = setupText fmt c'') ∧
    c.model.prior.confoundingEffects ≠ c'.model.prior.confoundingEffects ∧ c.mcmc.sampleFromPrior ≠ c''.mcmc.sampleFromPrior := by
  refine ⟨demoEnv, demoRaw 1 false, demoRaw 50 false, demoRaw 1 true, _, _, _, demo_accepted _ _, demo_accepted _ _, demo_accepted _ _,
    fun fmt => ⟨rfl, rfl⟩, ?_, by simp [demoConfig]⟩
  simp [demoConfig, mkDict]

/-! ### The hypotheses are met -/

/-- Integers in decimal notation, lists in brackets, fractions for floating-point numbers. -/
def demoFormat : Format where
  int := fun n => if 0 ≤ n then SBayes.Log.num n.toNat else '-' :: SBayes.Log.num (-n).toNat
  ints := fun l => '[' :: l.flatMap fun n => (if 0 ≤ n then SBayes.Log.num n.toNat else '-' :: SBayes.Log.num (-n).toNat) ++ [',']
  num := fun q => (if 0 ≤ q.num then SBayes.Log.num q.num.toNat else '-' :: SBayes.Log.num (-q.num).toNat) ++ '/' :: SBayes.Log.num q.den
  prob := probName
  agg := aggName

theorem num_digits {n : ℕ} {ch : Char} (h : ch ∈ SBayes.Log.num n) : ch.isDigit = true :=
  Nat.isDigit_of_mem_toDigits (by omega) (by omega) h

theorem num_ne_nil (n : ℕ) : SBayes.Log.num n ≠ [] := Nat.toDigits_ne_nil

theorem int_mem {n : ℤ} {ch : Char} (h : ch ∈ demoFormat.int n) : ch.isDigit = true ∨ ch = '-' := by
  unfold demoFormat at h
  dsimp only at h
  split_ifs at h
  · exact Or.inl (num_digits h)
  · rcases List.mem_cons.1 h with rfl | h
    · exact Or.inr rfl
    · exact Or.inl (num_digits h)

theorem int_without {n : ℤ} {ch : Char} (h1 : ch.isDigit = false) (h2 : ch ≠ '-') : ch ∉ demoFormat.int n := by
  intro h
  rcases int_mem h with h | h
  · rw [h1] at h; cases h
  · exact h2 h

theorem demo_int_inj : Function.Injective demoFormat.int := by
  have hdash : ∀ n : ℕ, ∀ x, SBayes.Log.num n ≠ '-' :: x := by
    intro n x h
    have : ('-' : Char).isDigit = true := num_digits (n := n) (by rw [h]; simp)
    revert this; decide
  intro a b h
  unfold demoFormat at h
  dsimp only at h
  split_ifs at h with ha hb hb
  · have := SBayes.Log.num_inj h; omega
  · exact absurd h (hdash _ _)
  · exact absurd h.symm (hdash _ _)
  · have := SBayes.Log.num_inj (List.cons.inj h).2; omega

theorem demo_ints_inj : ∀ l l' : List ℤ, (l.flatMap fun n => demoFormat.int n ++ [',']) = (l'.flatMap fun n => demoFormat.int n ++ [',']) → l = l'
  | [], [], _ => rfl
  | [], b :: l', h => by simp at h
  | a :: l, [], h => by simp at h
  | a :: l, b :: l', h => by
    simp only [List.flatMap_cons, List.append_assoc, List.singleton_append] at h
    obtain ⟨h1, h2⟩ := sep_inj (int_without (by decide) (by decide)) (int_without (by decide) (by decide)) h
    rw [demo_int_inj h1, demo_ints_inj l l' h2]

theorem demo_num (q : ℚ) : demoFormat.num q = demoFormat.int q.num ++ '/' :: SBayes.Log.num q.den := rfl

theorem demoFormat_good : demoFormat.Good := by
  constructor
  · exact demo_int_inj
  · exact fun n => ⟨int_without (by decide) (by decide), int_without (by decide) (by decide)⟩
  · have hbr : ∀ n x, demoFormat.int n ≠ '[' :: x := fun n x h => int_without (n := n) (ch := '[') (by decide) (by decide) (by rw [h]; simp)
    intro a b h
    cases a with
    | one n =>
      cases b with
      | one n' => exact congrArg _ (demo_int_inj h)
      | many l => exact absurd h (hbr _ _)
    | many l =>
      cases b with
      | one n' => exact absurd h.symm (hbr _ _)
      | many l' => exact congrArg _ (demo_ints_inj _ _ (List.cons.inj h).2)
  · intro a
    cases a with
    | one n => exact int_without (by decide) (by decide)
    | many l =>
      intro h
      rcases List.mem_cons.1 h with h | h
      · revert h; decide
      · obtain ⟨n, _, h⟩ := List.mem_flatMap.1 h
        rcases List.mem_append.1 h with h | h
        · exact int_without (n := n) (ch := '\n') (by decide) (by decide) h
        · revert h; decide
  · have hnone : ∀ q, demoFormat.num q ≠ lit "None" := by
      intro q h
      have : ('N' : Char) ∈ demoFormat.num q := by rw [h]; decide
      rw [demo_num] at this
      rcases List.mem_append.1 this with h | h
      · exact int_without (n := q.num) (ch := 'N') (by decide) (by decide) h
      · rcases List.mem_cons.1 h with h | h
        · revert h; decide
        · have := num_digits h; revert this; decide
    intro a b h
    cases a with
    | none =>
      cases b with
      | none => rfl
      | some q => exact absurd h.symm (hnone q)
    | some q =>
      cases b with
      | none => exact absurd h (hnone q)
      | some q' =>
        have h' : demoFormat.int q.num ++ '/' :: SBayes.Log.num q.den = demoFormat.int q'.num ++ '/' :: SBayes.Log.num q'.den := h
        obtain ⟨h1, h2⟩ := sep_inj (int_without (by decide) (by decide)) (int_without (by decide) (by decide)) h'
        exact congrArg some (Rat.ext (demo_int_inj h1) (SBayes.Log.num_inj h2))
  · intro q
    cases q with
    | none => decide
    | some q =>
      intro h
      have h : '\n' ∈ demoFormat.num q := h
      rw [demo_num] at h
      rcases List.mem_append.1 h with h | h
      · exact int_without (n := q.num) (ch := '\n') (by decide) (by decide) h
      · rcases List.mem_cons.1 h with h | h
        · revert h; decide
        · have := num_digits h; revert this; decide
  · intro a b; cases a <;> cases b <;> decide
  · intro a; cases a <;> decide
  · intro a b; cases a <;> cases b <;> decide
  · intro a; cases a <;> decide

example : SingleLines (demoConfig 1 false) := by
  constructor
  · intro k hk
    simp only [demoConfig, List.mem_singleton] at hk
    subst hk
    refine ⟨by decide, ?_⟩
    intro g hg
    simp only [List.mem_singleton] at hg
    subst hg
    decide
  · intro p hp
    cases hp

end SBayes.SetupLog
