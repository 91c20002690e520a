import Verif.Model.Simulation
import Verif.Props.Likelihood
import Verif.Props.Source
import Verif.Props.Tools
import Verif.Lemmas.LogNames
import Mathlib.MeasureTheory.Constructions.Pi
/- C62-C64: simulated data. -/
namespace SBayes.Sim
open SBayes.Lik SBayes.Source SBayes.Data
open scoped BigOperators

variable {K N F S M : ℕ} {nG : Fin M → ℕ}

/-! ## C62: simulated data follow the likelihood -/

/-- What `simulate_features` is given: clusters without overlap, groups of a confounder without overlap, positive
weights, state probabilities that sum to one in every cluster and group, and no site without any effect. -/
structure Valid (conf : (c : Fin M) → Fin (nG c) → Fin N → Bool) (p : Params ℝ K N F S M nG) : Prop where
  clusters : DisjointGroups p.clusters
  groups : ∀ c, DisjointGroups (conf c)
  weights : ∀ f c, 0 < p.weights f c
  clNonneg : ∀ k f s, 0 ≤ p.clusterEffect k f s
  clSum : ∀ k f, ∑ s, p.clusterEffect k f s = 1
  confNonneg : ∀ c g f s, 0 ≤ p.confEffect c g f s
  confSum : ∀ c g f, ∑ s, p.confEffect c g f s = 1
  covered : ∀ n, (∃ k, p.clusters k n = true) ∨ ∃ c g, conf c g n = true
  noSource : p.source = none

/-- The data set with state `x n f` for feature `f` of object `n`. -/
def observedData (conf : (c : Fin M) → Fin (nG c) → Fin N → Bool) (x : Fin N → Fin F → Fin S) : ModelData N F S M nG where
  features := fun n f s => decide (s = x n f)
  confGroups := conf

theorem observedData_observed (conf : (c : Fin M) → Fin (nG c) → Fin N → Bool) (x : Fin N → Fin F → Fin S) (n : Fin N)
    (f : Fin F) : Observed (observedData conf x).features n f (x n f) := by
  intro s
  simp [observedData]

theorem anyGroup_iff {G : ℕ} (groups : Fin G → Fin N → Bool) (n : Fin N) : anyGroup groups n = true ↔ ∃ g, groups g n = true := by
  unfold anyGroup
  simp

theorem groupDot_member {G : ℕ} {groups : Fin G → Fin N → Bool} (hd : DisjointGroups groups)
    (probs : Fin G → Fin F → Fin S → ℝ) {n : Fin N} {g : Fin G} (hg : groups g n = true) (f : Fin F) (s : Fin S) :
    groupDot groups probs n f s = probs g f s := by
  unfold groupDot
  rw [Finset.sum_eq_single g]
  · simp [b2n, hg]
  · intro g' _ hne
    have : groups g' n = false := by
      rw [Bool.eq_false_iff]
      intro h; exact hne (hd _ _ _ h hg)
    simp [b2n, this]
  · simp

theorem groupDot_outside {G : ℕ} {groups : Fin G → Fin N → Bool} (probs : Fin G → Fin F → Fin S → ℝ) {n : Fin N}
    (hg : ∀ g, groups g n = false) (f : Fin F) (s : Fin S) : groupDot groups probs n f s = 0 := by
  unfold groupDot
  apply Finset.sum_eq_zero
  intro g _
  simp [b2n, hg g]

/-- The component likelihood of an observed state is the dot product of the simulation. -/
theorem component_eq_groupDot {G : ℕ} {groups : Fin G → Fin N → Bool} (hd : DisjointGroups groups)
    (probs : Fin G → Fin F → Fin S → ℝ) (x : Features N F S) (order : List (Fin G)) (ho : VisitsAll order)
    (buf : Fin N → Fin F → ℝ) {n : Fin N} {f : Fin F} {s : Fin S} (hx : Observed x n f s) :
    overwriteNA x (computeComponentLikelihood x probs groups order buf) n f = groupDot groups probs n f s := by
  have h := C09_component_likelihood_is_specified x probs groups hd order ho buf
  by_cases hg : ∃ g, groups g n = true
  · obtain ⟨g, hg⟩ := hg
    rw [h.member n f s g hx hg, groupDot_member hd probs hg]
  · have hg' : ∀ g, groups g n = false := by
      intro g
      rw [Bool.eq_false_iff]
      exact fun h => hg ⟨g, h⟩
    rw [h.outside n f s hx hg', groupDot_outside probs hg']

theorem lhFeature_law {conf : (c : Fin M) → Fin (nG c) → Fin N → Bool} {p : Params ℝ K N F S M nG} (hv : Valid conf p)
    (n : Fin N) (f : Fin F) : (∀ s, 0 ≤ lhFeature conf p n f s) ∧ ∑ s, lhFeature conf p n f s = 1 := by
  have hpos : ∃ c, assignment p.clusters conf n c = true ∧ 0 < p.weights f c := by
    rcases hv.covered n with ⟨k, hk⟩ | ⟨c, g, hg⟩
    · exact ⟨0, (anyGroup_iff _ _).mpr ⟨k, hk⟩, hv.weights f 0⟩
    · exact ⟨c.succ, (anyGroup_iff _ _).mpr ⟨g, hg⟩, hv.weights f c.succ⟩
  obtain ⟨w0, w1, w2, _⟩ := C08_normalized_weights_are_distribution p.weights (assignment p.clusters conf)
    (fun f c => (hv.weights f c).le) n f hpos
  have hnn : ∀ {G : ℕ} (groups : Fin G → Fin N → Bool) (probs : Fin G → Fin F → Fin S → ℝ),
      (∀ g f s, 0 ≤ probs g f s) → ∀ s, 0 ≤ groupDot groups probs n f s := by
    intro G groups probs h s
    unfold groupDot
    apply Finset.sum_nonneg
    intro g _
    apply mul_nonneg _ (h g f s)
    unfold b2n; split <;> norm_num
  -- the total over the states of one effect, times its weight, is the weight
  have htot : ∀ {G : ℕ} (groups : Fin G → Fin N → Bool) (probs : Fin G → Fin F → Fin S → ℝ) (c : Fin (M + 1)),
      DisjointGroups groups → (∀ g f, ∑ s, probs g f s = 1) → (assignment p.clusters conf n c = anyGroup groups n) →
      ∑ s, normalizeWeights p.weights (assignment p.clusters conf) n f c * groupDot groups probs n f s =
        normalizeWeights p.weights (assignment p.clusters conf) n f c := by
    intro G groups probs c hd hs hc
    rw [← Finset.mul_sum]
    by_cases hg : ∃ g, groups g n = true
    · obtain ⟨g, hg⟩ := hg
      rw [Finset.sum_congr rfl (fun s _ => groupDot_member hd probs hg f s), hs, mul_one]
    · have : assignment p.clusters conf n c = false := by
        rw [hc, Bool.eq_false_iff]
        intro h; exact hg ((anyGroup_iff _ _).mp h)
      rw [w2 c this, zero_mul]
  constructor
  · intro s
    unfold lhFeature
    apply add_nonneg
    · exact mul_nonneg (w0 0) (hnn _ _ hv.clNonneg s)
    · exact Finset.sum_nonneg fun c _ => mul_nonneg (w0 _) (hnn _ _ (hv.confNonneg c) s)
  · unfold lhFeature
    rw [Finset.sum_add_distrib, htot p.clusters p.clusterEffect 0 hv.clusters hv.clSum rfl, Finset.sum_comm,
      Finset.sum_congr rfl (fun c _ => htot (conf c) (p.confEffect c) c.succ (hv.groups c) (hv.confSum c) rfl),
      ← w1, Fin.sum_univ_succ]

/-- The likelihood the model computes for a data set without missing values is the product of the simulation's state
probabilities. -/
theorem likelihood_eq_prod {conf : (c : Fin M) → Fin (nG c) → Fin N → Bool} {p : Params ℝ K N F S M nG} (hv : Valid conf p)
    (x : Fin N → Fin F → Fin S) (clOrder : List (Fin K)) (hcl : VisitsAll clOrder)
    (confOrder : (c : Fin M) → List (Fin (nG c))) (hco : ∀ c, VisitsAll (confOrder c))
    (empty : Fin N → Fin F → Fin (M + 1) → ℝ) :
    likelihood (freshObservationLhs (observedData conf x) p clOrder confOrder empty) =
      ∏ n, ∏ f, lhFeature conf p n f (x n f) := by
  unfold freshObservationLhs
  rw [hv.noSource, likelihood_none]
  refine Finset.prod_congr rfl fun n _ => Finset.prod_congr rfl fun f _ => ?_
  rw [Fin.sum_univ_succ]
  unfold lhFeature
  have hx := observedData_observed conf x n f
  congr 1
  · congr 1
    exact component_eq_groupDot hv.clusters p.clusterEffect _ clOrder hcl _ hx
  · refine Finset.sum_congr rfl fun c _ => ?_
    congr 1
    exact component_eq_groupDot (hv.groups c) (p.confEffect c) _ (confOrder c) (hco c) _ hx

/-- The probability (over the uniform draws) that `simulate_features` returns the data set `x` is the likelihood the
model computes for `x` under the same clusters, weights and probabilities. -/
theorem C62_simulated_data_follow_likelihood (conf : (c : Fin M) → Fin (nG c) → Fin N → Bool)
    (p : Params ℝ K N F (S + 1) M nG) (hv : Valid conf p) (x : Fin N → Fin F → Fin (S + 1))
    (clOrder : List (Fin K)) (hcl : VisitsAll clOrder)
    (confOrder : (c : Fin M) → List (Fin (nG c))) (hco : ∀ c, VisitsAll (confOrder c))
    (empty : Fin N → Fin F → Fin (M + 1) → ℝ) :
    MeasureTheory.volume {z : Fin N → Fin F → ℝ | (∀ n f, 0 ≤ z n f ∧ z n f < 1) ∧
        ∀ n f, simulateFeatures conf p z n f = x n f} =
      ENNReal.ofReal (likelihood (freshObservationLhs (observedData conf x) p clOrder confOrder empty)) := by
  rw [likelihood_eq_prod hv x clOrder hcl confOrder hco empty]
  have hset : {z : Fin N → Fin F → ℝ | (∀ n f, 0 ≤ z n f ∧ z n f < 1) ∧ ∀ n f, simulateFeatures conf p z n f = x n f} =
      Set.pi Set.univ (fun n => Set.pi Set.univ (fun f =>
        {z : ℝ | 0 ≤ z ∧ z < 1 ∧ sampleCategorical (lhFeature conf p n f) z = x n f})) := by
    ext z
    simp only [Set.mem_pi, Set.mem_univ, forall_true_left, Set.mem_ofPred_eq, simulateFeatures]
    constructor
    · rintro ⟨h1, h2⟩ n f; exact ⟨(h1 n f).1, (h1 n f).2, h2 n f⟩
    · intro h; exact ⟨fun n f => ⟨(h n f).1, (h n f).2.1⟩, fun n f => (h n f).2.2⟩
  rw [hset, MeasureTheory.volume_pi_pi]
  have hlaw := lhFeature_law hv
  rw [ENNReal.ofReal_prod_of_nonneg (fun n _ => Finset.prod_nonneg fun f _ => (hlaw n f).1 _)]
  refine Finset.prod_congr rfl fun n _ => ?_
  rw [MeasureTheory.volume_pi_pi, ENNReal.ofReal_prod_of_nonneg (fun f _ => (hlaw n f).1 _)]
  refine Finset.prod_congr rfl fun f _ => ?_
  exact C22_probability _ (hlaw n f).1 (hlaw n f).2 _

/-- The likelihood is a probability distribution over the data sets without missing values: it is not negative and sums
to one. -/
theorem C62_likelihood_is_normalised (conf : (c : Fin M) → Fin (nG c) → Fin N → Bool)
    (p : Params ℝ K N F S M nG) (hv : Valid conf p)
    (clOrder : List (Fin K)) (hcl : VisitsAll clOrder)
    (confOrder : (c : Fin M) → List (Fin (nG c))) (hco : ∀ c, VisitsAll (confOrder c))
    (empty : Fin N → Fin F → Fin (M + 1) → ℝ) :
    (∀ x : Fin N → Fin F → Fin S, 0 ≤ likelihood (freshObservationLhs (observedData conf x) p clOrder confOrder empty)) ∧
    ∑ x : Fin N → Fin F → Fin S, likelihood (freshObservationLhs (observedData conf x) p clOrder confOrder empty) = 1 := by
  have hlaw := lhFeature_law hv
  constructor
  · intro x
    rw [likelihood_eq_prod hv x clOrder hcl confOrder hco empty]
    exact Finset.prod_nonneg fun n _ => Finset.prod_nonneg fun f _ => (hlaw n f).1 _
  · rw [Finset.sum_congr rfl (fun x _ => likelihood_eq_prod hv x clOrder hcl confOrder hco empty)]
    have h1 : ∀ n : Fin N, ∑ y : Fin F → Fin S, ∏ f, lhFeature conf p n f (y f) = 1 := by
      intro n
      have := Finset.prod_univ_sum (fun _ : Fin F => (Finset.univ : Finset (Fin S))) (fun f s => lhFeature conf p n f s)
      rw [Fintype.piFinset_univ] at this
      rw [← this, Finset.prod_congr rfl (fun f _ => (hlaw n f).2), Finset.prod_const_one]
    have := Finset.prod_univ_sum (fun _ : Fin N => (Finset.univ : Finset (Fin F → Fin S)))
      (fun n y => ∏ f, lhFeature conf p n f (y f))
    rw [Fintype.piFinset_univ] at this
    rw [← this, Finset.prod_congr rfl (fun n _ => h1 n), Finset.prod_const_one]

/-- A valid case: two sites, one of them in the cluster, one confounder with one group for both. -/
example : Valid (nG := fun _ : Fin 1 => 1) (fun _ _ _ => true)
    ({ clusters := fun _ n => n == 0, weights := fun _ _ => 1 / 2, clusterEffect := fun _ _ _ => 1 / 2,
       confEffect := fun _ _ _ _ => 1 / 2, source := none } : Params ℝ 1 2 1 2 1 (fun _ => 1)) where
  clusters := by intro i j n _ _; exact Subsingleton.elim i j
  groups := by intro c i j n _ _; exact Subsingleton.elim (α := Fin 1) i j
  weights := by intro f c; norm_num
  clNonneg := by intro k f s; norm_num
  clSum := by intro k f; rw [Fin.sum_univ_two]; norm_num
  confNonneg := by intro c g f s; norm_num
  confSum := by intro c g f; rw [Fin.sum_univ_two]; norm_num
  covered := by intro n; exact Or.inr ⟨0, 0, rfl⟩
  noSource := rfl

/-! ## C63: simulated parameters -/

/-- The numbers of states: every feature gets one of the configured numbers, each number at least for its share of the
features; there is one for every feature, and none too many if the shares do not exceed the number of features. It fails
only if all shares are zero. -/
theorem C63_states_per_feature (nFeatures : ℕ) (share : List (ℕ × ℕ)) (draws : ℕ → ℕ) :
    (nStatesPerFeature nFeatures share draws = none ↔ 0 < nFeatures ∧ ∀ kv ∈ share, kv.2 = 0) ∧
    ∀ l, nStatesPerFeature nFeatures share draws = some l →
      nFeatures ≤ l.length ∧ ((share.map (fun kv => kv.2)).sum ≤ nFeatures → l.length = nFeatures) ∧
      (∀ k ∈ l, ∃ kv ∈ share, kv.1 = k ∧ 0 < kv.2) ∧ (∀ kv ∈ share, kv.2 ≤ l.count kv.1) := by
  set base := share.flatMap (fun kv => List.replicate kv.2 kv.1) with hbase
  have hlen : base.length = (share.map (fun kv => kv.2)).sum := by
    rw [hbase, List.length_flatMap]; simp
  have hmem : ∀ k ∈ base, ∃ kv ∈ share, kv.1 = k ∧ 0 < kv.2 := by
    intro k hk
    rw [hbase, List.mem_flatMap] at hk
    obtain ⟨kv, h1, h2⟩ := hk
    rw [List.mem_replicate] at h2
    exact ⟨kv, h1, h2.2.symm, by omega⟩
  have hcount : ∀ kv ∈ share, kv.2 ≤ base.count kv.1 := by
    intro kv hkv
    rw [hbase, List.count_flatMap]
    have := List.single_le_sum (l := share.map (List.count kv.1 ∘ fun kv => List.replicate kv.2 kv.1))
      (fun _ _ => Nat.zero_le _) (List.count kv.1 (List.replicate kv.2 kv.1)) (List.mem_map.mpr ⟨kv, hkv, rfl⟩)
    rw [List.count_replicate_self] at this
    exact this
  have hempty : base = [] ↔ ∀ kv ∈ share, kv.2 = 0 := by
    rw [hbase, List.flatMap_eq_nil_iff]
    simp
  unfold nStatesPerFeature
  dsimp only
  rw [← hbase]
  by_cases h1 : base.length < nFeatures
  · rw [if_pos h1]
    by_cases h2 : base = []
    · rw [if_pos h2]
      refine ⟨⟨fun _ => ⟨by omega, hempty.mp h2⟩, fun _ => rfl⟩, ?_⟩
      intro l hl
      simp at hl
    · rw [if_neg h2]
      refine ⟨⟨fun h => by simp at h, fun h => absurd (hempty.mpr h.2) h2⟩, ?_⟩
      intro l hl
      rw [Option.some.injEq] at hl
      subst hl
      have hl : (base ++ (List.range (nFeatures - base.length)).map (fun i => base.getD (draws i % base.length) 0)).length =
          nFeatures := by simp; omega
      refine ⟨hl.ge, fun _ => hl, ?_, ?_⟩
      · intro k hk
        rcases List.mem_append.mp hk with hk | hk
        · exact hmem k hk
        · obtain ⟨i, _, rfl⟩ := List.mem_map.mp hk
          apply hmem
          have hlt : draws i % base.length < base.length := Nat.mod_lt _ (List.length_pos_iff.mpr h2)
          rw [List.getD_eq_getElem?_getD, List.getElem?_eq_getElem hlt, Option.getD_some]
          exact List.getElem_mem hlt
      · intro kv hkv
        rw [List.count_append]
        exact (hcount kv hkv).trans (Nat.le_add_right _ _)
  · rw [if_neg h1]
    refine ⟨⟨fun h => by simp at h, fun h => ?_⟩, ?_⟩
    · have := hempty.mpr h.2
      rw [this] at h1
      simp at h1
      omega
    · intro l hl
      rw [Option.some.injEq] at hl
      subst hl
      exact ⟨by omega, fun h => by omega, hmem, hcount⟩

/-- The simulated probabilities of a group: a distribution on the states of the feature, zero on all other states. -/
theorem C63_effect_row (statesF maxStates : ℕ) (h : statesF ≤ maxStates) (draw : ℕ → ℝ)
    (h0 : ∀ s < statesF, 0 ≤ draw s) (h1 : ∑ s ∈ Finset.range statesF, draw s = 1) :
    (∀ s, 0 ≤ effectRow statesF draw s) ∧ (∑ s ∈ Finset.range maxStates, effectRow statesF draw s = 1) ∧
    ∀ s, statesF ≤ s → effectRow statesF draw s = 0 := by
  unfold effectRow
  refine ⟨?_, ?_, ?_⟩
  · intro s
    split_ifs with hs
    · exact h0 s hs
    · exact le_rfl
  · rw [← h1, ← Finset.sum_filter]
    apply Finset.sum_congr _ (fun _ _ => rfl)
    ext s
    simp only [Finset.mem_filter, Finset.mem_range]
    omega
  · intro s hs
    rw [if_neg (by omega)]

example : nStatesPerFeature 5 [(2, 1), (3, 2)] (fun i => i) = some [2, 3, 3, 2, 3] := by decide

/-! ## C64: written files can be loaded -/

theorem featureName_inj {i j : ℕ} (h : featureName i = featureName j) : i = j := by
  unfold featureName at h
  have := SBayes.Log.num_inj (List.append_cancel_left h)
  omega

theorem strip_num (ws : Char → Bool) (hws : ∀ ch, ws ch = true → ch.isDigit = false) (v : ℕ) :
    strip ws (SBayes.Log.num v) = SBayes.Log.num v := by
  have hd : ∀ ch ∈ SBayes.Log.num v, ws ch = false := by
    intro ch hch
    have := Nat.isDigit_of_mem_toDigits (b := 10) (by norm_num) (by norm_num) hch
    rw [Bool.eq_false_iff]
    intro h
    rw [hws ch h] at this
    simp at this
  have key : ∀ l : Str, (∀ ch ∈ l, ws ch = false) → l.dropWhile ws = l := by
    intro l hl
    cases l with
    | nil => rfl
    | cons a r => rw [List.dropWhile_cons_of_neg]; simp [hl a List.mem_cons_self]
  unfold strip
  rw [key _ hd, key _ (by intro ch hch; exact hd ch (List.mem_reverse.mp hch)), List.reverse_reverse]

theorem statesCsv_eq (nF : ℕ) (hF : 0 < nF) (order : ℕ → List ℕ) :
    statesFile ((List.range nF).map (fun f => (featureName f, (order f).map SBayes.Log.num))) = some (statesCsv nF order) := by
  unfold statesFile
  rw [if_neg (by simp; omega)]
  unfold statesCsv
  congr 1
  rw [CsvFile.mk.injEq]
  refine ⟨?_, ?_, ?_⟩
  · congr 1
    simp [List.map_map, Function.comp_def]
  · simp [List.map_map, Function.comp_def]
  · funext i j
    rw [List.map_map]
    by_cases hj : j < nF
    · rw [if_pos hj]
      congr 1
      rw [List.getD_eq_getElem?_getD, List.getElem?_map, List.getElem?_range hj]
      rfl
    · rw [if_neg hj]
      have h : (List.map ((fun p => p.2) ∘ fun f => (featureName f, List.map SBayes.Log.num (order f)))
          (List.range nF)).getD j [] = [] := by
        rw [List.getD_eq_getElem?_getD, List.getElem?_eq_none (by simp; omega)]
        rfl
      rw [h]; rfl

/-- The two files written by a simulation can be loaded together (whatever order Python's sets have): no value is
missing, every feature has exactly the simulated values as states, and the loaded value of a site is the simulated one.
Hypotheses: `order` lists the set of values of each feature, the columns of the file have different names, an empty cell
is read as missing, a number is not, and white space contains no digits. -/
theorem C64_written_files_load (ws : Char → Bool) (isNA : Str → Bool) (n nF : ℕ) (hF : 0 < nF)
    (fixed : List (Str × (ℕ → Str))) (values : ℕ → ℕ → ℕ) (order : ℕ → List ℕ)
    (horder : ∀ f < nF, (order f).Nodup ∧ ∀ v, v ∈ order f ↔ ∃ i < n, values i f = v)
    (hnames : (featuresFile n nF fixed values).header.Nodup)
    (hNA : isNA [] = true) (hnum : ∀ v, isNA (SBayes.Log.num v) = false)
    (hws : ∀ ch, ws ch = true → ch.isDigit = false) :
    ∃ e, encodeStates (readDataCsv ws isNA (featuresFile n nF fixed values)) (readDataCsv ws isNA (statesCsv nF order)) =
        some e ∧ e.naNumber = 0 ∧
      ∀ f < nF, ∃ names, e.stateNames[f]? = some names ∧ names = (order f).map SBayes.Log.num ∧
        ∀ i < n, ∃ k, names[k]? = some (SBayes.Log.num (values i f)) ∧ ∀ s, e.values i f s = true ↔ s = k := by
  have hstrip := strip_num ws hws
  obtain ⟨hcols, hlen⟩ := statesFile_cols (ws := ws) (isNA := isNA) (statesCsv_eq nF hF order) hNA (by
    intro p hp v hv
    obtain ⟨f, _, rfl⟩ := List.mem_map.mp hp
    obtain ⟨x, _, rfl⟩ := List.mem_map.mp hv
    exact ⟨hnum x, hstrip x⟩)
  set data := readDataCsv ws isNA (featuresFile n nF fixed values) with hdata
  set fs := readDataCsv ws isNA (statesCsv nF order) with hfs
  have hcol : ∀ f < nF, fs.cols[f]? = some (featureName f, fun i => ((order f).map SBayes.Log.num)[i]?) := by
    intro f hf
    rw [hcols, List.getElem?_map, List.getElem?_map, List.getElem?_range hf]
    rfl
  have hclen : fs.cols.length = nF := by rw [hcols]; simp
  have hrows : data.nRows = n := rfl
  -- the columns of the data
  have hdcol : ∀ f < nF, data.col (featureName f) = some (fun i => some (SBayes.Log.num (values i f))) := by
    intro f hf
    have hmem : (featureName f, fun i => some (SBayes.Log.num (values i f))) ∈ data.cols := by
      rw [hdata]
      unfold readDataCsv
      rw [List.mem_map]
      refine ⟨(featureName f, fixed.length + f), ?_, ?_⟩
      · rw [List.mem_zipIdx_iff_getElem?]
        show (fixed.map (fun p => p.1) ++ (List.range nF).map featureName)[fixed.length + f]? = _
        rw [List.getElem?_append_right (by simp), List.length_map, Nat.add_sub_cancel_left, List.getElem?_map,
          List.getElem?_range hf]
        rfl
      · have hcell : ∀ i, (featuresFile n nF fixed values).cell i (fixed.length + f) = SBayes.Log.num (values i f) := by
          intro i
          unfold featuresFile
          dsimp only
          rw [dif_neg (by omega), Nat.add_sub_cancel_left]
        simp only [hcell, hnum, hstrip]
        rfl
    have hnd : (data.cols.map (fun p => p.1)).Nodup := by
      rw [hdata, read_cols_fst]; exact hnames
    exact lookup_of_nodup hnd hmem
  have hentry : ∀ f < nF, ∀ i, entryOf data (featureName f) i = some (SBayes.Log.num (values i f)) := by
    intro f hf i
    unfold entryOf
    rw [hdcol f hf]; rfl
  have hidx : ∀ f p, fs.cols[f]? = some p → f < nF := by
    intro f p hp
    by_contra h
    rw [List.getElem?_eq_none (by omega)] at hp
    simp at hp
  obtain ⟨e, he⟩ := (C39_loading_succeeds_iff data fs).mpr (by
    intro f p hp
    have hf := hidx f p hp
    have hp' := hcol f hf
    rw [hp, Option.some.injEq] at hp'
    rw [hp']
    refine ⟨_, hdcol f hf, ?_⟩
    intro i hi v hv
    rw [Option.some.injEq] at hv
    have hmem : values i f ∈ order f := ((horder f hf).2 _).mpr ⟨i, hi, rfl⟩
    obtain ⟨s, hs, hs'⟩ := List.getElem_of_mem hmem
    refine ⟨_, hcol f hf, s, ?_, ?_⟩
    · have := hlen (featureName f, (order f).map SBayes.Log.num) (List.mem_map.mpr ⟨f, List.mem_range.mpr hf, rfl⟩)
      rw [List.length_map] at this
      omega
    · dsimp only
      rw [List.getElem?_map, List.getElem?_eq_getElem hs, hs', ← hv]; rfl)
  refine ⟨e, he, ?_, ?_⟩
  · rw [C39_na_number data fs e he, Finset.card_eq_zero, Finset.filter_eq_empty_iff]
    rintro ⟨i, f⟩ _ ⟨p, hp, hp2⟩
    have hf := hidx f p hp
    have hp' := hcol f hf
    rw [hp, Option.some.injEq] at hp'
    rw [hp'] at hp2
    dsimp only at hp2
    rw [hentry f hf] at hp2
    simp at hp2
  · intro f hf
    have hnames' : e.stateNames[f]? = some ((order f).map SBayes.Log.num) := by
      obtain ⟨_, h2, _⟩ := encodeLoop_some _ _ _ _ _ _ he
      rw [h2]
      rw [List.nil_append, List.getElem?_map, hcol f hf, Option.map_some]
      congr 1
      apply dropna_list
      exact hlen (featureName f, (order f).map SBayes.Log.num) (List.mem_map.mpr ⟨f, List.mem_range.mpr hf, rfl⟩)
    refine ⟨_, hnames', rfl, ?_⟩
    intro i hi
    obtain ⟨k, _, ⟨nm, hn1, hn2⟩, hk⟩ := C39_encoded_value data fs e he f _ (hcol f hf) i hi _ (hentry f hf i)
    rw [hnames', Option.some.injEq] at hn1
    exact ⟨k, by rw [hn1]; exact hn2, hk⟩

/-- The hypotheses are met: two sites, one feature with values 0 and 2. -/
example : (∀ f < 1, ((fun _ => [2, 0]) f : List ℕ).Nodup ∧ ∀ v, v ∈ ((fun _ => [2, 0]) f : List ℕ) ↔
      ∃ i < 2, (fun i _ => 2 * i) i f = v) ∧
    (featuresFile 2 1 [(SBayes.Log.lit "id", fun _ => [])] (fun i _ => 2 * i)).header.Nodup := by
  refine ⟨?_, by decide⟩
  intro f _
  refine ⟨by simp, ?_⟩
  intro v
  constructor
  · intro h
    simp only [List.mem_cons, List.not_mem_nil, or_false] at h
    rcases h with rfl | rfl
    · exact ⟨1, by omega, rfl⟩
    · exact ⟨0, by omega, rfl⟩
  · rintro ⟨i, hi, rfl⟩
    rcases (by omega : i = 0 ∨ i = 1) with rfl | rfl <;> simp

end SBayes.Sim
