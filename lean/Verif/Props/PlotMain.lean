import Verif.Model.PlotMain
import Verif.Lemmas.Config
/-
C97: which plots are made. C98: which files are combined, and the DIC plot.
-/
namespace SBayes.PlotMain
open SBayes.Config (Dict Val setDefaults get_setDefaults)
open SBayes.Log (lit)

section
variable {α : Type}

theorem default_keys_values (t : PlotType) : t.value ∈ defaultKeys ↔ t ≠ .weights := by
  cases t <;> decide

/-- The defaults have the keys of the file config/default_config_plot.json. -/
def IsDefault (d : Dict Str α) : Prop := d.Distinct ∧ ∀ k, (d.get k).isSome ↔ k ∈ defaultKeys

theorem should_iff {d : Dict Str α} (hd : IsDefault d) (user : Dict Str α) (types : List Request) (t : PlotType) :
    shouldBePlotted (setDefaults user d) types t = true ↔
      .member t ∈ types ∧ (t = .weights → (user.get (lit "weights_plot")).isSome) := by
  unfold shouldBePlotted
  rw [Bool.and_eq_true, List.contains_iff_mem, get_setDefaults d hd.1]
  have h1 := (hd.2 t.value).trans (default_keys_values t)
  by_cases ht : t = .weights
  · subst ht
    have h2 : d.get PlotType.weights.value = none := by
      cases h : d.get PlotType.weights.value with
      | none => rfl
      | some v => exact absurd rfl (h1.1 (by rw [h]; rfl))
    rw [h2]
    show _ ↔ _ ∧ (_ → (user.get PlotType.weights.value).isSome = true)
    cases user.get PlotType.weights.value <;> simp
  · have h2 := h1.2 ht
    cases hg : d.get t.value with
    | none => rw [hg] at h2; simp at h2
    | some v => cases user.get t.value <;> simp [ht]

theorem plotModel_spec (cfg : Dict Str α) (types : List Request) (a : Option Str) (m : Str) :
    (plotModel cfg types (some a) m).2 = true ∧ ∀ p, p ∈ (plotModel cfg types (some a) m).1 ↔
      p.2 = some m ∧ p.1 ≠ .dic ∧ shouldBePlotted cfg types p.1 = true ∧ (p.1 = .feature → a.isSome) := by
  unfold plotModel
  constructor
  · split
    · cases a <;> rfl
    · rfl
  · rintro ⟨t, x⟩
    dsimp only
    by_cases hf : shouldBePlotted cfg types .feature = true
    · rw [if_pos hf]
      cases a <;> cases t <;> cases x <;> simp [hf, and_comm, eq_comm (b := m)]
    · rw [if_neg hf]
      cases t <;> cases x <;> simp [hf, and_comm, eq_comm (b := m)]

theorem plotModels_spec (cfg : Dict Str α) (types : List Request) (a : Option Str) : ∀ ms : List Str,
    (plotModels cfg types (some a) ms).2 = true ∧ ∀ p, p ∈ (plotModels cfg types (some a) ms).1 ↔
      (∃ m ∈ ms, p.2 = some m) ∧ p.1 ≠ .dic ∧ shouldBePlotted cfg types p.1 = true ∧ (p.1 = .feature → a.isSome)
  | [] => by simp [plotModels]
  | m :: ms => by
    have h1 := plotModel_spec cfg types a m
    have h2 := plotModels_spec cfg types a ms
    unfold plotModels
    dsimp only
    rw [if_pos h1.1]
    refine ⟨h2.1, fun p => ?_⟩
    rw [List.mem_append, h1.2, h2.2]
    constructor
    · rintro (⟨h, r⟩ | ⟨⟨m', hm', h⟩, r⟩)
      · exact ⟨⟨m, by simp, h⟩, r⟩
      · exact ⟨⟨m', by simp [hm'], h⟩, r⟩
    · rintro ⟨⟨m', hm', h⟩, r⟩
      rcases List.mem_cons.1 hm' with rfl | hm'
      · exact Or.inl ⟨h, r⟩
      · exact Or.inr ⟨⟨m', hm', h⟩, r⟩

theorem plotModel_nodup (cfg : Dict Str α) (types : List Request) (a : Option (Option Str)) (m : Str) :
    (plotModel cfg types a m).1.Nodup := by
  have h0 : (([PlotType.map, .weights, .preference, .pie].filter (shouldBePlotted cfg types)).map
      fun t => ((t, some m) : Plotted)).Nodup := by
    refine List.Nodup.map (fun x y h => (Prod.mk.injEq _ _ _ _ ▸ h).1) ?_
    exact List.Nodup.filter _ (by decide)
  unfold plotModel
  dsimp only
  split
  · rcases a with _ | _ | x
    · exact h0
    · exact h0
    · refine List.nodup_append.2 ⟨h0, by simp, ?_⟩
      intro p hp q hq
      simp only [List.mem_singleton] at hq
      subst hq
      simp only [List.mem_map, List.mem_filter] at hp
      obtain ⟨t, ht, rfl⟩ := hp
      intro he
      have := congrArg Prod.fst he
      dsimp only at this
      subst this
      simp at ht
  · exact h0

theorem plotModels_nodup (cfg : Dict Str α) (types : List Request) (a : Option Str) : ∀ ms : List Str, ms.Nodup →
    (plotModels cfg types (some a) ms).1.Nodup
  | [], _ => List.nodup_nil
  | m :: ms, h => by
    have h1 := plotModel_spec cfg types a m
    have h2 := plotModels_spec cfg types a ms
    have h3 := List.nodup_cons.1 h
    unfold plotModels
    dsimp only
    rw [if_pos h1.1]
    refine List.nodup_append.2 ⟨plotModel_nodup cfg types _ m, plotModels_nodup cfg types a ms h3.2, ?_⟩
    rintro p hp q hq rfl
    have hp' := ((h1.2 p).1 hp).1
    obtain ⟨⟨m', hm', hp2⟩, _⟩ := (h2.2 p).1 hq
    rw [hp'] at hp2
    cases hp2
    exact h3.1 hm'

/-- **C97** From the command line (`args` present) `main` makes exactly the following plots, without exception and each once: those
requested, for each model -- weights only if the configuration file has a part `weights_plot`, features only if a feature is
named -- and the DIC plot if requested. -/
theorem C97_plots_made {d : Dict Str α} (hd : IsDefault d) (user : Dict Str α) (types : List Request) (feature : Option Str)
    (models : List Str) :
    (main user d (some types) (some feature) models).2 = true ∧
    (∀ t m, (t, some m) ∈ (main user d (some types) (some feature) models).1 ↔
      m ∈ models ∧ .member t ∈ types ∧ t ≠ .dic ∧ (t = .weights → (user.get (lit "weights_plot")).isSome) ∧
        (t = .feature → feature.isSome)) ∧
    (∀ t, (t, none) ∈ (main user d (some types) (some feature) models).1 ↔ t = .dic ∧ .member .dic ∈ types) ∧
    (models.Nodup → (main user d (some types) (some feature) models).1.Nodup) := by
  have h := plotModels_spec (setDefaults user d) types feature models
  have hm : main user d (some types) (some feature) models =
      ((plotModels (setDefaults user d) types (some feature) models).1 ++
        (if shouldBePlotted (setDefaults user d) types .dic then [(.dic, none)] else []), true) := by
    unfold main
    dsimp only
    rw [Option.getD_some, if_pos h.1]
  rw [hm]
  have hdic := should_iff hd user types .dic
  refine ⟨rfl, fun t m => ?_, fun t => ?_, fun hn => ?_⟩
  · dsimp only
    rw [List.mem_append, h.2, should_iff hd]
    constructor
    · rintro (⟨⟨m', hm', he⟩, h1, h2, h3⟩ | h)
      · cases he
        exact ⟨hm', h2.1, h1, h2.2, h3⟩
      · split at h <;> simp at h
    · rintro ⟨h1, h2, h3, h4, h5⟩
      exact Or.inl ⟨⟨m, h1, rfl⟩, h3, ⟨h2, h4⟩, h5⟩
  · dsimp only
    rw [List.mem_append, h.2]
    constructor
    · rintro (⟨⟨m', hm', he⟩, _⟩ | h)
      · cases he
      · split at h
        · next hs => simp only [List.mem_singleton, Prod.mk.injEq, and_true] at h; exact ⟨h, (hdic.1 hs).1⟩
        · simp at h
    · rintro ⟨rfl, h2⟩
      refine Or.inr ?_
      rw [if_pos (hdic.2 ⟨h2, fun h => by cases h⟩)]
      simp
  · dsimp only
    refine List.nodup_append.2 ⟨plotModels_nodup _ _ _ _ hn, ?_, ?_⟩
    · split <;> simp
    · rintro p hp q hq rfl
      have := ((h.2 p).1 hp).2.1
      split at hq
      · simp only [List.mem_singleton] at hq; subst hq; exact this rfl
      · simp at hq

/-- **C97** The settings of every plot but the weights are looked up in the part of the configuration by which it is requested. -/
theorem C97_settings (user d : Dict Str α) (t : PlotType) (ht : t ≠ .weights) :
    settings user d t = (setDefaults user d).get t.value := by
  cases t <;> first | rfl | exact absurd rfl ht

/-- **C97** Finding: the settings in the part `weights_plot`, without which the weights are not plotted, are never used: plots are
made in the same way whatever is written there. -/
theorem C97_weight_settings_used_false {d : Dict Str α} (hd : IsDefault d) (user : Dict Str α) (v v' : Val Str α) :
    settings (.cons (lit "weights_plot") v user) d .weights = settings (.cons (lit "weights_plot") v' user) d .weights := by
  unfold settings
  rw [get_setDefaults d hd.1, get_setDefaults d hd.1]
  have h : settingsKey .weights ≠ lit "weights_plot" := by decide
  simp only [Dict.get, if_neg h]

/-- **C97** Finding: plots that the configuration file does not mention are made all the same (contrary to `should_be_plotted`, "is
specified in the config file"): e.g. the pie charts of a model. -/
theorem C97_only_if_in_the_file_false {d : Dict Str α} (hd : IsDefault d) (m : Str) :
    (PlotType.pie, some m) ∈ (main .nil d none (some none) [m]).1 ∧ ((Dict.nil : Dict Str α).get PlotType.pie.value).isSome = false := by
  refine ⟨?_, rfl⟩
  refine ((C97_plots_made hd .nil (PlotType.all.map .member) none [m]).2.1 .pie m).2 ?_
  refine ⟨by simp, by simp [PlotType.all], by simp, (fun h => by cases h), (fun h => by cases h)⟩

/-- **C97** Finding: types of plots given as texts (as in test/test_plot.py) are ignored without a warning. -/
theorem C97_types_as_texts_false {d : Dict Str α} (hd : IsDefault d) (user : Dict Str α) (texts : List Str) (feature : Option Str)
    (models : List Str) : (main user d (some (texts.map .text)) (some feature) models).1 = [] := by
  have h := C97_plots_made hd user (texts.map .text) feature models
  refine List.eq_nil_iff_forall_not_mem.2 ?_
  rintro ⟨t, _ | m⟩ hp
  · have := ((h.2.2.1 t).1 hp).2
    simp at this
  · have := ((h.2.1 t m).1 hp).2.1
    simp at this

/-- **C97** Finding: `main(config)`, without `args`, ends with an exception after the first model. -/
theorem C97_without_arguments_false {d : Dict Str α} (hd : IsDefault d) (user : Dict Str α) (m : Str) (ms : List Str) :
    (main user d none none (m :: ms)).2 = false ∧ ∀ p ∈ (main user d none none (m :: ms)).1, p.2 = some m := by
  have hs : shouldBePlotted (setDefaults user d) (PlotType.all.map .member) .feature = true :=
    (should_iff hd user _ _).2 ⟨by simp [PlotType.all], fun h => by cases h⟩
  have h : main user d none none (m :: ms) = ((([PlotType.map, .weights, .preference, .pie].filter
      (shouldBePlotted (setDefaults user d) (PlotType.all.map .member))).map fun t => ((t, some m) : Plotted)), false) := by
    simp only [main, plotModels, plotModel, Option.getD_none, if_pos hs]
    simp
  rw [h]
  refine ⟨rfl, fun p hp => ?_⟩
  simp only [List.mem_map] at hp
  obtain ⟨t, _, rfl⟩ := hp
  rfl

/-- The defaults of the file exist. -/
def exampleDefaults (v : Val Str α) : Dict Str α := defaultKeys.foldr (fun k d => .cons k v d) .nil

theorem exampleDefaults_isDefault (a : α) : IsDefault (exampleDefaults (.atom a)) := by
  have hget : ∀ (l : List Str) (k : Str), ((l.foldr (fun k d => .cons k (.atom a) d) .nil : Dict Str α).get k).isSome ↔ k ∈ l := by
    intro l k
    induction l with
    | nil => simp [Dict.get]
    | cons x l ih =>
      simp only [List.foldr_cons, Dict.get, List.mem_cons]
      by_cases h : k = x
      · simp [h]
      · rw [if_neg h, ih]; simp [h]
  refine ⟨?_, hget defaultKeys⟩
  have hdis : ∀ l : List Str, l.Nodup → (l.foldr (fun k d => .cons k (.atom a) d) .nil : Dict Str α).Distinct := by
    intro l hl
    induction l with
    | nil => simp [Dict.Distinct]
    | cons x l ih =>
      rw [List.nodup_cons] at hl
      simp only [List.foldr_cons, Dict.Distinct]
      refine ⟨?_, by simp [Val.Distinct], ih hl.2⟩
      have := (hget l x).not.2 hl.1
      simpa using this
  exact hdis _ (by decide)

/-- The hypotheses are met: two models, a file with a part `weights_plot`. -/
example : (main (.cons (lit "weights_plot") (.atom ()) .nil) (exampleDefaults (.atom ())) (some [.member .weights, .member .dic])
    (some none) [lit "K1_0", lit "K2_0"]).1 = [(.weights, some (lit "K1_0")), (.weights, some (lit "K2_0")), (.dic, none)] := by
  decide

example : (main (.nil) (exampleDefaults (.atom ())) (some [.member .weights, .member .dic])
    (some none) [lit "K1_0", lit "K2_0"]).1 = [(.dic, none)] := by
  decide
end

/-- **C97** One map is drawn for one threshold. -/
theorem C97_map_for_a_threshold (x : ℝ) : plotMap (lit "consensus_map") (.num x) = some [some (.num x)] := rfl

/-- **C97** Finding: for several thresholds, not one map each is drawn, but a single one with the whole list as threshold. -/
theorem C97_map_for_each_threshold_false (xs : List ℝ) :
    plotMap (lit "consensus_map") (.many xs) = some [some (.many xs)] ∧
      plotMap (lit "consensus_map") (.many xs) ≠ some (xs.map fun x => some (.num x)) := by
  refine ⟨rfl, fun h => ?_⟩
  have h' : some [some (Threshold.many xs)] = some (xs.map fun x => some (.num x)) := h
  rw [Option.some.injEq] at h'
  cases xs with
  | nil => simp at h'
  | cons x r => simp at h'

/-! ### C98 -/

theorem lt_dirs (p s s' : Str) : ∀ dir dir' : Path, dir.length = dir'.length →
    (dir ++ [p ++ s] < dir' ++ [p ++ s'] ↔ dir < dir' ∨ dir = dir' ∧ s < s')
  | [], [], _ => by
    have h : ∀ p : Str, p ++ s < p ++ s' ↔ s < s' := by
      intro p
      induction p with
      | nil => exact Iff.rfl
      | cons c p ih => rw [List.cons_append, List.cons_append, List.cons_lt_cons_iff, ih]; simp
    rw [List.nil_append, List.nil_append, List.cons_lt_cons_iff, h]
    simp
  | a :: dir, b :: dir', hl => by
    have ih := lt_dirs p s s' dir dir' (by simpa using hl)
    rw [List.cons_append, List.cons_append, List.cons_lt_cons_iff, List.cons_lt_cons_iff, ih]
    constructor
    · rintro (h | ⟨rfl, h | ⟨rfl, h⟩⟩)
      · exact Or.inl (Or.inl h)
      · exact Or.inl (Or.inr ⟨rfl, h⟩)
      · exact Or.inr ⟨rfl, h⟩
    · rintro ((h | ⟨rfl, h⟩) | ⟨h1, h2⟩)
      · exact Or.inl h
      · exact Or.inr ⟨rfl, Or.inl h⟩
      · cases h1
        exact Or.inr ⟨rfl, Or.inr ⟨rfl, h2⟩⟩
  | [], _ :: _, h => by simp at h
  | _ :: _, [], h => by simp at h

/-- The files of a run: a directory and the common part of the names. -/
structure RunFiles where
  dir : Path
  name : Str

/-- The clusters file of a run, as `get_sample_loggers` names it. -/
def RunFiles.clusters (r : RunFiles) : Path := r.dir ++ [lit "clusters_" ++ r.name ++ lit ".txt"]
/-- The statistics file of a run. -/
def RunFiles.stats (r : RunFiles) : Path := r.dir ++ [lit "stats_" ++ r.name ++ lit ".txt"]

theorem le_iff (r r' : RunFiles) (h : r.dir.length = r'.dir.length) : r.clusters ≤ r'.clusters ↔ r.stats ≤ r'.stats := by
  unfold RunFiles.clusters RunFiles.stats
  rw [List.append_assoc, List.append_assoc, List.append_assoc, List.append_assoc]
  exact not_congr ((lt_dirs _ _ _ _ _ h.symm).trans (lt_dirs _ _ _ _ _ h.symm).symm)

theorem sortPaths_perm {a b : List Path} (h : a.Perm b) : sortPaths a = sortPaths b := by
  unfold sortPaths
  exact List.Perm.eq_of_pairwise' (List.pairwise_insertionSort _ _) (List.pairwise_insertionSort _ _)
    ((List.perm_insertionSort _ a).trans (h.trans (List.perm_insertionSort _ b).symm))

/-- **C98** If the two lists of files, in whatever order, are those of the same runs, and all directories have the same depth (as in
the results of one experiment), the clusters of each run are combined with the statistics of the same run, and no run is
missing or repeated. -/
theorem C98_files_of_the_same_run (runs : List RunFiles) (hdepth : ∀ r ∈ runs, ∀ r' ∈ runs, r.dir.length = r'.dir.length)
    (clusters stats : List Path) (hc : clusters.Perm (runs.map RunFiles.clusters)) (hs : stats.Perm (runs.map RunFiles.stats)) :
    ∃ sorted : List RunFiles, sorted.Perm runs ∧ filePairs clusters stats = sorted.map fun r => (r.clusters, r.stats) := by
  classical
  let rel : RunFiles → RunFiles → Prop := fun r r' => r.clusters ≤ r'.clusters
  refine ⟨runs.insertionSort rel, List.perm_insertionSort _ _, ?_⟩
  unfold filePairs
  rw [sortPaths_perm hc, sortPaths_perm hs]
  have h1 : sortPaths (runs.map RunFiles.clusters) = (runs.insertionSort rel).map RunFiles.clusters := by
    unfold sortPaths
    exact (List.map_insertionSort rel (· ≤ ·) RunFiles.clusters runs fun a _ b _ => Iff.rfl).symm
  have h2 : sortPaths (runs.map RunFiles.stats) = (runs.insertionSort rel).map RunFiles.stats := by
    unfold sortPaths
    exact (List.map_insertionSort rel (· ≤ ·) RunFiles.stats runs fun a ha b hb => le_iff a b (hdepth a ha b hb)).symm
  rw [h1, h2, List.zip_map']

/-- **C98** The name of the model is what the file names of a run have in common. -/
theorem C98_model_name (r : RunFiles) : modelName r.clusters = r.name := by
  have hstem : stem r.clusters = lit "clusters_" ++ r.name := by
    unfold stem RunFiles.clusters
    have h1 : (r.dir ++ [lit "clusters_" ++ r.name ++ lit ".txt"]).getLastD [] = lit "clusters_" ++ r.name ++ lit ".txt" := by
      simp
    have h2 : (lit "clusters_" ++ r.name ++ lit ".txt").reverse =
        't' :: 'x' :: 't' :: '.' :: (lit "clusters_" ++ r.name).reverse := by
      rw [List.reverse_append]; rfl
    have h3 : (lit "clusters_" ++ r.name).reverse ≠ [] := by
      simp [lit]
    have h4 : (lit "clusters_" ++ r.name ++ lit ".txt").getLast? = some 't' := by
      rw [List.getLast?_append]; rfl
    simp only [h1, h2, h4]
    have h5 : ('t' :: 'x' :: 't' :: '.' :: (lit "clusters_" ++ r.name).reverse).span (fun c => decide (c ≠ '.')) =
        (['t', 'x', 't'], '.' :: (lit "clusters_" ++ r.name).reverse) := by
      rw [List.span_eq_takeWhile_dropWhile]
      simp [List.takeWhile, List.dropWhile]
    rw [h5]
    dsimp only
    rw [if_neg]
    · simp
    · rintro (h | h)
      · exact h3 h
      · simp at h
  unfold modelName
  rw [hstem]
  have : lit "clusters_" ++ r.name = 'c' :: 'l' :: 'u' :: 's' :: 't' :: 'e' :: 'r' :: 's' :: '_' :: r.name := rfl
  rw [this]
  simp [List.dropWhile]

theorem foldl_insert {ρ : Type} : ∀ (models done : List (Str × ρ)), ((done ++ models).map Prod.fst).Nodup →
    models.foldl (fun d x => insertResult d x.1 x.2) done = done ++ models
  | [], done, _ => by simp
  | x :: r, done, h => by
    have hx : x.1 ∉ done.map Prod.fst := by
      rw [List.map_append, List.map_cons, List.nodup_append] at h
      intro hm
      exact h.2.2 _ hm _ (by simp) rfl
    have hins : insertResult done x.1 x.2 = done ++ [x] := by
      unfold insertResult
      rw [if_neg]
      simp only [List.any_eq_true, beq_iff_eq, not_exists, not_and]
      intro e he hxe
      exact hx (List.mem_map.2 ⟨e, he, hxe⟩)
    rw [List.foldl_cons, hins, foldl_insert r (done ++ [x])]
    · simp
    · simpa using h

/-- **C98** All runs of one experiment (with different names): each is plotted once, with its own clusters and statistics and under
its own name, and the results kept for the DIC plot are those of all runs. -/
theorem C98_models {ρ : Type} (load : Path → Path → ρ) (runs : List RunFiles)
    (hdepth : ∀ r ∈ runs, ∀ r' ∈ runs, r.dir.length = r'.dir.length) (hnames : (runs.map RunFiles.name).Nodup)
    (clusters stats : List Path) (hc : clusters.Perm (runs.map RunFiles.clusters)) (hs : stats.Perm (runs.map RunFiles.stats)) :
    ∃ sorted : List RunFiles, sorted.Perm runs ∧
      iterateOverModels load clusters stats =
        (sorted.map fun r => (r.name, load r.clusters r.stats), sorted.map fun r => (r.name, load r.clusters r.stats)) := by
  obtain ⟨sorted, hp, hf⟩ := C98_files_of_the_same_run runs hdepth clusters stats hc hs
  refine ⟨sorted, hp, ?_⟩
  have hm : (filePairs clusters stats).map (fun x => (modelName x.1, load x.1 x.2)) =
      sorted.map fun r => (r.name, load r.clusters r.stats) := by
    rw [hf, List.map_map]
    refine List.map_congr_left fun r _ => ?_
    simp [C98_model_name]
  unfold iterateOverModels
  simp only [hm]
  rw [foldl_insert _ []]
  · simp
  · have : (sorted.map RunFiles.name).Nodup := (hp.map RunFiles.name).nodup_iff.2 hnames
    simpa [List.map_map, Function.comp_def] using this

/-- Two runs of one experiment. -/
def exampleRuns : List RunFiles := [⟨[lit "results", lit "K2"], lit "K2_0"⟩, ⟨[lit "results", lit "K1"], lit "K1_0"⟩]

/-- The hypotheses are met. -/
example : (∀ r ∈ exampleRuns, ∀ r' ∈ exampleRuns, r.dir.length = r'.dir.length) ∧ (exampleRuns.map RunFiles.name).Nodup := by
  constructor
  · intro r hr r' hr'
    simp only [exampleRuns, List.mem_cons, List.not_mem_nil, or_false] at hr hr'
    rcases hr with rfl | rfl <;> rcases hr' with rfl | rfl <;> rfl
  · decide

/-- **C98** Finding: if a file is missing in one of the lists, clusters of one run are combined with the statistics of another one
without a warning. -/
theorem C98_missing_file_noticed_false : ∃ (r r' : RunFiles), r.name ≠ r'.name ∧
    filePairs [r.clusters, r'.clusters] [r'.stats] = [(r.clusters, r'.stats)] := by
  refine ⟨⟨[lit "K1"], lit "K1_0"⟩, ⟨[lit "K2"], lit "K2_0"⟩, by decide, ?_⟩
  decide

/-- **C98** Finding: the same happens with complete lists if the directories have different depths. -/
theorem C98_different_depths_false : ∃ (r r' : RunFiles), r.name ≠ r'.name ∧
    filePairs [r.clusters, r'.clusters] [r.stats, r'.stats] = [(r.clusters, r'.stats), (r'.clusters, r.stats)] := by
  refine ⟨⟨[lit "out"], lit "K1_0"⟩, ⟨[lit "out", lit "more"], lit "K2_0"⟩, by decide, ?_⟩
  decide

/-- **C98** Finding: runs with the same number and number of clusters of two experiments have the same name; the results of
only one of them are kept (and the plots of the other one are overwritten). -/
theorem C98_same_names_false {ρ : Type} (load : Path → Path → ρ) : ∃ (r r' : RunFiles), r.dir ≠ r'.dir ∧ r.name = r'.name ∧
    (iterateOverModels load [r.clusters, r'.clusters] [r.stats, r'.stats]).2 = [(r'.name, load r'.clusters r'.stats)] := by
  refine ⟨⟨[lit "exp1"], lit "K1_0"⟩, ⟨[lit "exp2"], lit "K1_0"⟩, by decide, rfl, ?_⟩
  have h : filePairs [(⟨[lit "exp1"], lit "K1_0"⟩ : RunFiles).clusters, (⟨[lit "exp2"], lit "K1_0"⟩ : RunFiles).clusters]
      [(⟨[lit "exp1"], lit "K1_0"⟩ : RunFiles).stats, (⟨[lit "exp2"], lit "K1_0"⟩ : RunFiles).stats] =
      [((⟨[lit "exp1"], lit "K1_0"⟩ : RunFiles).clusters, (⟨[lit "exp1"], lit "K1_0"⟩ : RunFiles).stats),
        ((⟨[lit "exp2"], lit "K1_0"⟩ : RunFiles).clusters, (⟨[lit "exp2"], lit "K1_0"⟩ : RunFiles).stats)] := by decide
  simp only [iterateOverModels, h, List.map_cons, List.map_nil, C98_model_name, List.foldl_cons, List.foldl_nil]
  simp [insertResult]

/-- **C98** The DIC plot shows, above the name of each model, the DIC of its own log-likelihoods: of all models, or of those with
the numbers chosen (from 1). -/
theorem C98_dic_plot (results : List (Str × List ℝ)) (hnames : (results.map Prod.fst).Nodup) (burnIn : ℝ) (dic : List ℝ → ℝ)
    (hdic : ∀ e ∈ results, SBayes.Post.computeDic e.2 burnIn = some (dic e.2)) :
    plotDic results [] burnIn = some (results.map fun e => (e.1, dic e.2)) ∧
    ∀ chosen : List (Fin results.length), chosen ≠ [] →
      plotDic results (chosen.map fun i => (i.val : ℤ) + 1) burnIn =
        some (chosen.map fun i => ((results[i]).1, dic (results[i]).2)) := by
  have hfind : ∀ e ∈ results, (results.find? fun e' => e'.1 == e.1) = some e := by
    intro e he
    cases hf : results.find? fun e' => e'.1 == e.1 with
    | none => exact absurd (List.find?_eq_none.1 hf e he) (by simp)
    | some e' =>
      have h1 := List.find?_some hf
      have h2 := List.mem_of_find?_eq_some hf
      have := List.inj_on_of_nodup_map hnames h2 he (by simpa using h1)
      rw [this]
  have hall : ∀ l : List (Str × List ℝ), (∀ e ∈ l, e ∈ results) →
      (l.map Prod.fst).mapM (fun m => (do
        let lh ← (results.find? fun e => e.1 == m).map Prod.snd
        let y ← SBayes.Post.computeDic lh burnIn
        pure (m, y) : Option (Str × ℝ))) = some (l.map fun e => (e.1, dic e.2)) := by
    intro l hl
    induction l with
    | nil => rfl
    | cons e l ih =>
      rw [List.map_cons, List.mapM_cons, ih fun e' he' => hl e' (List.mem_cons_of_mem _ he'), hfind e (hl e (by simp))]
      simp [hdic e (hl e (by simp))]
  constructor
  · unfold plotDic
    rw [if_pos rfl]
    exact hall results fun _ h => h
  · intro chosen hne
    unfold plotDic
    rw [if_neg (by simpa using hne)]
    have hidx : (chosen.map fun i => (i.val : ℤ) + 1).mapM (fun i => pyIndex (results.map Prod.fst) (i - 1)) =
        some ((chosen.map fun i => results[i]).map Prod.fst) := by
      clear hne
      induction chosen with
      | nil => rfl
      | cons i r ih =>
        rw [List.map_cons, List.mapM_cons, ih]
        have : pyIndex (results.map Prod.fst) ((i.val : ℤ) + 1 - 1) = some (results[i]).1 := by
          unfold pyIndex
          rw [if_pos (by omega)]
          simp
        rw [this]
        rfl
    rw [hidx]
    have := hall (chosen.map fun i => results[i]) (by
      intro e he
      obtain ⟨i, _, rfl⟩ := List.mem_map.1 he
      exact List.getElem_mem _)
    refine this.trans ?_
    rw [List.map_map]
    rfl

/-- **C98** Finding: model number 0 is not rejected; it is the last model. -/
theorem C98_number_zero_false (a b : Str) (h : a ≠ b) (x : ℝ) : ∃ y, plotDic [(a, [x]), (b, [x])] [0] 0 = some [(b, y)] := by
  have h1 : SBayes.Post.computeDic [x] 0 = some (-4 * SBayes.Post.mean [x] + -2 * x) := by
    simp [SBayes.Post.computeDic, SBayes.Post.dropCeil]
  refine ⟨-4 * SBayes.Post.mean [x] + -2 * x, ?_⟩
  have h2 : pyIndex [a, b] (-1) = some b := rfl
  have h3 : (List.find? (fun e => e.1 == b) [(a, [x]), (b, [x])]) = some (b, [x]) := by
    simp [h]
  simp [plotDic, h2, h3, h1]

end SBayes.PlotMain
