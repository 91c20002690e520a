import Verif.Lemmas.Cache
import Mathlib.Tactic.NormNum
import Mathlib.Tactic.FinCases
import Mathlib.Algebra.Order.Field.Rat
/- Theorems C04-C07: cached values are the recomputed values. -/
namespace SBayes.Cache
open SBayes.Lik
open scoped BigOperators
set_option linter.unusedSectionVars false
variable {𝕜 : Type} [Field 𝕜] {K N F S M : ℕ} {nG : Fin M → ℕ}

/-! ### Example world: two objects, one feature with two states, one cluster, one confounder -/

/-- Example data: object `n` shows state `n`; one universal confounder group. -/
def exD : ModelData 2 1 2 1 (fun _ => 1) := ⟨fun n _ s => n.val == s.val, fun _ _ _ => true⟩
/-- Example parameters: cluster `{0}`. -/
def exP : Params ℚ 1 2 1 2 1 (fun _ => 1) :=
  ⟨fun _ n => n.val == 0, fun _ _ => 1/2, fun _ _ s => if s.val = 0 then 3/4 else 1/4,
    fun _ _ _ _ => 1/2, none⟩
/-- Example priors. -/
def exF : PriorFns ℚ 1 2 1 2 1 (fun _ => 1) :=
  ⟨fun cl => if cl 0 1 then 1/3 else 1/2, fun cl => if cl 0 1 then -5 else 0, fun _ _ e => e 0 0, id⟩
/-- Example history: create, evaluate, copy, add object 1 to the cluster of the copy, change a
confounding effect, evaluate the copy, evaluate the original, change the original's weights. -/
def exOps : List (WOp ℚ 1 2 1 2 1 (fun _ => 1)) :=
  [.new exP (fun _ _ _ => 7), .on 0 (.evalLh true [0] (fun _ => [0])),
   .on 0 (.evalGeo true), .on 0 (.evalConf 0 true [0]),
   .copy 0, .on 1 (.clusterEdit 0 (fun c n => c n || n.val == 1)),
   .on 1 (.confEdit 0 0 (fun e f s => if s.val = 0 then 1/8 else e f s)),
   .on 1 (.evalLh true [0] (fun _ => [0])), .on 0 (.evalLh false [0] (fun _ => [0])),
   .on 0 (.weightsEdit (fun w f c => if c.val = 0 then 1/4 else w f c))]

example : HistoryOk exD exF [] exOps ∧ (∀ c, DisjointGroups (exD.confGroups c)) ∧
    ∀ s ∈ runW exD exF [] exOps, DisjointGroups s.clusters.value := by
  have hv : VisitsAll ([0] : List (Fin 1)) := by unfold VisitsAll; decide
  have hdis : ∀ g : Fin 1 → Fin 2 → Bool, DisjointGroups g := by
    intro g i j n _ _; exact Subsingleton.elim i j
  refine ⟨?_, ?_, fun s _ => hdis _⟩
  · simp only [exOps, HistoryOk, OpOk]
    refine ⟨fun s _ => ⟨hdis _, hv, fun _ => hv⟩, fun _ _ => trivial, fun _ _ => hv, fun _ _ => trivial,
      fun _ _ => trivial, fun s _ => ⟨hdis _, hv, fun _ => hv⟩, fun s _ => ⟨hdis _, hv, fun _ => hv⟩,
      fun _ _ => trivial, trivial⟩
  · intro c; exact hdis _

/-! ### C04 -/

/-- **C04.** For every history in which grouped parameters change group by group and the likelihood
is only evaluated for disjoint clusters: evaluating any sample the program holds (with or without
caching, traversing sets of groups in any order) gives the same observation likelihoods as building
a new sample from the current parameter values and evaluating that without caching. -/
theorem C04_cached_likelihood_equals_recomputed (d : ModelData N F S M nG)
    (P : PriorFns 𝕜 K N F S M nG) (hc : ∀ c, DisjointGroups (d.confGroups c))
    (ops : List (WOp 𝕜 K N F S M nG)) (ho : HistoryOk d P [] ops)
    (s : Sample 𝕜 K N F S M nG) (hs : s ∈ runW d P [] ops) (hd : DisjointGroups s.clusters.value)
    (caching : Bool) (clO clO' : List (Fin K)) (cfO cfO' : (c : Fin M) → List (Fin (nG c)))
    (h1 : VisitsAll clO) (h2 : ∀ c, VisitsAll (cfO c)) (h3 : VisitsAll clO')
    (h4 : ∀ c, VisitsAll (cfO' c)) (garbage : Fin N → Fin F → Fin (M + 1) → 𝕜) :
    (evalLh d s caching clO cfO).2 =
      (evalLh d (Sample.new d s.params garbage) false clO' cfO').2 := by
  have hI := runW_forall (I := fun s => CompInv d s ∧ NodeInv d P s)
    (fun p g => ⟨compInv_new p g, nodeInv_new p g⟩)
    (fun s h => ⟨compInv_copy h.1, nodeInv_copy h.2⟩)
    (fun s op hop h => ⟨stepS_compInv hc h.1 hop, stepS_nodeInv h.2 op⟩) ops [] (by simp) ho s hs
  rw [evalLh_value hc hI.1 hI.2 hd caching h1 h2,
    evalLh_value (P := P) hc (compInv_new s.params garbage) (nodeInv_new _ _) hd false h3 h4]
  congr 1
  simp only [Sample.params, Sample.new]
  by_cases hu : s.useSource = true <;> simp [hu]

/-- **C04**, in terms of the independently specified component likelihood (C09): the cached
computation returns what `get_observation_lhs` returns for fully recomputed inputs. -/
theorem C04_cached_likelihood_is_the_specified_one (d : ModelData N F S M nG)
    (P : PriorFns 𝕜 K N F S M nG) (hc : ∀ c, DisjointGroups (d.confGroups c))
    (ops : List (WOp 𝕜 K N F S M nG)) (ho : HistoryOk d P [] ops)
    (s : Sample 𝕜 K N F S M nG) (hs : s ∈ runW d P [] ops) (hd : DisjointGroups s.clusters.value)
    (caching : Bool) (clO clO' : List (Fin K)) (cfO cfO' : (c : Fin M) → List (Fin (nG c)))
    (h1 : VisitsAll clO) (h2 : ∀ c, VisitsAll (cfO c)) (h3 : VisitsAll clO')
    (h4 : ∀ c, VisitsAll (cfO' c)) (garbage : Fin N → Fin F → Fin (M + 1) → 𝕜) :
    (evalLh d s caching clO cfO).2 = freshObservationLhs d s.params clO' cfO' garbage := by
  have hI := runW_forall (I := fun s => CompInv d s ∧ NodeInv d P s)
    (fun p g => ⟨compInv_new p g, nodeInv_new p g⟩)
    (fun s h => ⟨compInv_copy h.1, nodeInv_copy h.2⟩)
    (fun s op hop h => ⟨stepS_compInv hc h.1 hop, stepS_nodeInv h.2 op⟩) ops [] (by simp) ho s hs
  rw [evalLh_value hc hI.1 hI.2 hd caching h1 h2]
  unfold freshObservationLhs
  rw [updateComponents_all (p := s.params) hd hc h3 h4]

/-! ### C05 -/

/-- Data of the counterexample: one object, one feature, one state, no confounder. -/
def cexD : ModelData 1 1 1 0 (fun _ => 0) := ⟨fun _ _ _ => true, fun c => c.elim0⟩
/-- Parameters of the counterexample. -/
def cexP : Params ℚ 1 1 1 1 0 (fun _ => 0) :=
  ⟨fun _ _ => true, fun _ _ => 1, fun _ _ _ => 1, fun c => c.elim0, none⟩
/-- Priors of the counterexample (irrelevant). -/
def cexF : PriorFns ℚ 1 1 1 1 0 (fun _ => 0) :=
  ⟨fun _ => 0, fun cl => if cl 0 0 then 0 else -1, fun _ _ _ => 0, id⟩
/-- Create a sample, evaluate it, then replace the cluster effect by a whole-array `edit()`. -/
def cexOps : List (WOp ℚ 1 1 1 1 0 (fun _ => 0)) :=
  [.new cexP (fun _ _ _ => 0), .on 0 (.evalLh true [0] (fun c => c.elim0)),
   .on 0 (.effectEditAll (fun _ _ _ _ => 1/2))]

theorem cex_value : ∀ s ∈ runW cexD cexF [] cexOps,
    (evalLh cexD s true [0] (fun c => c.elim0)).2 = [1] ∧
    freshObservationLhs cexD s.params [0] (fun c => c.elim0) (fun _ _ _ => 0) = [1/2] := by
  intro s hs
  simp only [runW, cexOps, List.foldl_cons, List.foldl_nil, stepW, List.nil_append,
    List.modify_zero_cons, List.mem_singleton] at hs
  subst hs
  constructor
  · simp [evalLh, updateComp, updateWeights, readHas, stepS, Sample.new, freshCache, Sample.compVersion,
      GP.new, GP.editAll, clustersChanged, Sample.params, cexP, cexD, observationLhs, updateComponents,
      overwriteNA, isNA, computeComponentLikelihood, writeGroup, stateProb, b2n, normalizeWeights,
      hasComponents, anyGroup, List.finRange_succ, Finset.filter_singleton]
  · simp [evalLh, updateComp, updateWeights, readHas, stepS, Sample.new, freshCache, Sample.compVersion,
      GP.new, GP.editAll, clustersChanged, Sample.params, cexP, cexD, observationLhs, updateComponents,
      overwriteNA, isNA, computeComponentLikelihood, writeGroup, stateProb, b2n, normalizeWeights,
      hasComponents, anyGroup, freshObservationLhs, List.finRange_succ, Finset.filter_singleton]

/-- **C05 is false of the code.** After a whole-array `edit()` of a grouped parameter (which does
not mark the groups as changed) the cached likelihood is stale. -/
theorem C05_false : ¬ ∀ (ops : List (WOp ℚ 1 1 1 1 0 (fun _ => 0))),
    HistoryOkAll cexD cexF [] ops → ∀ s ∈ runW cexD cexF [] ops, DisjointGroups s.clusters.value →
    (evalLh cexD s true [0] (fun c => c.elim0)).2 =
      freshObservationLhs cexD s.params [0] (fun c => c.elim0) (fun _ _ _ => 0) := by
  intro h
  have hdis : ∀ g : Fin 1 → Fin 1 → Bool, DisjointGroups g := by
    intro g i j n _ _; exact Subsingleton.elim i j
  have hv : VisitsAll ([0] : List (Fin 1)) := by unfold VisitsAll; decide
  have hok : HistoryOkAll cexD cexF [] cexOps := by
    simp only [cexOps, HistoryOkAll, OpOkAll]
    exact ⟨fun s _ => ⟨hdis _, hv, fun c => c.elim0⟩, fun _ _ => trivial, trivial⟩
  have hlen : (runW cexD cexF [] cexOps).length = 1 := by
    simp [runW, cexOps, stepW]
  obtain ⟨s, hs⟩ := List.exists_mem_of_length_pos (by rw [hlen]; exact Nat.one_pos)
  have := h cexOps hok s hs (hdis _)
  obtain ⟨a, b⟩ := cex_value s hs
  rw [a, b] at this
  norm_num at this

/-- Group versions never exceed the version, after every history. -/
theorem runW_WF (d : ModelData N F S M nG) (P : PriorFns 𝕜 K N F S M nG) (ops : List (WOp 𝕜 K N F S M nG))
    (s : Sample 𝕜 K N F S M nG) (hs : s ∈ runW d P [] ops) :
    s.clusters.WF ∧ s.clusterEffect.WF ∧ ∀ c, (s.confEffect c).WF := by
  exact runW_forall_any (d := d) (P := P)
    (I := fun s => s.clusters.WF ∧ s.clusterEffect.WF ∧ ∀ c, (s.confEffect c).WF)
    (fun p g => ⟨fun _ => le_refl _, fun _ => le_refl _, fun _ _ => le_refl _⟩) (fun s h => h)
    (fun s op h => by
      have upd : ∀ (c c' : Fin M) (q : GP (nG c) (Fin F → Fin S → 𝕜)), q.WF →
          (Function.update s.confEffect c q c').WF := by
        intro c c' q hq
        by_cases hcc : c' = c
        · subst hcc; simpa using hq
        · rw [Function.update_of_ne hcc]; exact h.2.2 c'
      cases op with
      | clusterEdit k f => exact ⟨h.1.edit k f, h.2⟩
      | clustersEditAll f => exact ⟨h.1.editAll f, h.2⟩
      | effectEdit k f => exact ⟨h.1, h.2.1.edit k f, h.2.2⟩
      | effectEditAll f => exact ⟨h.1, h.2.1.editAll f, h.2.2⟩
      | confEdit c g f => exact ⟨h.1, h.2.1, fun c' => upd c c' _ ((h.2.2 c).edit g f)⟩
      | confEditAll c f => exact ⟨h.1, h.2.1, fun c' => upd c c' _ ((h.2.2 c).editAll f)⟩
      | weightsEdit f => exact h
      | sourceEdit f => exact h
      | evalLh b o o' =>
        show GP.WF (updateWeights _ _).clusters ∧ GP.WF (updateWeights _ _).clusterEffect ∧
          ∀ c, GP.WF ((updateWeights _ _).confEffect c)
        rw [(updateWeights_params _).1, (updateWeights_params _).2.2.1, (updateWeights_params _).2.2.2.1,
          (updateComp_params _ _ _).1, (updateComp_params _ _ _).2.2.1, (updateComp_params _ _ _).2.2.2.1]
        cases b <;> exact h
      | updateComp b o o' =>
        show GP.WF (updateComp _ _ _ _ _).clusters ∧ GP.WF (updateComp _ _ _ _ _).clusterEffect ∧
          ∀ c, GP.WF ((updateComp _ _ _ _ _).confEffect c)
        rw [(updateComp_params _ _ _).1, (updateComp_params _ _ _).2.2.1, (updateComp_params _ _ _).2.2.2.1]
        exact h
      | updateWeights b =>
        show GP.WF (updateWeights _ _).clusters ∧ GP.WF (updateWeights _ _).clusterEffect ∧
          ∀ c, GP.WF ((updateWeights _ _).confEffect c)
        rw [(updateWeights_params _).1, (updateWeights_params _).2.2.1, (updateWeights_params _).2.2.2.1]
        exact h
      | readHas =>
        show GP.WF (readHas _).clusters ∧ GP.WF (readHas _).clusterEffect ∧
          ∀ c, GP.WF ((readHas _).confEffect c)
        rw [readHas_params.1, readHas_params.2.2.1, readHas_params.2.2.2.1]; exact h
      | evalSize b =>
        show GP.WF (evalSize P s b).1.clusters ∧ GP.WF (evalSize P s b).1.clusterEffect ∧
          ∀ c, GP.WF ((evalSize P s b).1.confEffect c)
        unfold evalSize; split <;> exact h
      | evalGeo b =>
        show GP.WF (evalGeo P s b).1.clusters ∧ GP.WF (evalGeo P s b).1.clusterEffect ∧
          ∀ c, GP.WF ((evalGeo P s b).1.confEffect c)
        unfold evalGeo; split <;> exact h
      | evalConf c b o =>
        show GP.WF (evalConf P s c b o).1.clusters ∧ GP.WF (evalConf P s c b o).1.clusterEffect ∧
          ∀ c', GP.WF ((evalConf P s c b o).1.confEffect c')
        unfold evalConf; dsimp only; split <;> exact h
      | evalSrc b =>
        show GP.WF (evalSrc P s b).1.clusters ∧ GP.WF (evalSrc P s b).1.clusterEffect ∧
          ∀ c, GP.WF ((evalSrc P s b).1.confEffect c)
        unfold evalSrc; dsimp only; split
        · exact h
        · show GP.WF (updateWeights _ _).clusters ∧ GP.WF (updateWeights _ _).clusterEffect ∧
            ∀ c, GP.WF ((updateWeights _ _).confEffect c)
          rw [(updateWeights_params _).1, (updateWeights_params _).2.2.1,
            (updateWeights_params _).2.2.2.1]
          exact h
      | clear => exact h) ops [] (by simp) s hs

/-- What remains of C05 when whole-array changes occur: evaluation without caching is right after
every history whatsoever. -/
theorem C05_uncached_likelihood_always_right_partial (d : ModelData N F S M nG)
    (P : PriorFns 𝕜 K N F S M nG) (hc : ∀ c, DisjointGroups (d.confGroups c))
    (ops : List (WOp 𝕜 K N F S M nG))
    (s : Sample 𝕜 K N F S M nG) (hs : s ∈ runW d P [] ops) (hd : DisjointGroups s.clusters.value)
    (clO clO' : List (Fin K)) (cfO cfO' : (c : Fin M) → List (Fin (nG c)))
    (h1 : VisitsAll clO) (h2 : ∀ c, VisitsAll (cfO c)) (h3 : VisitsAll clO')
    (h4 : ∀ c, VisitsAll (cfO' c)) (garbage : Fin N → Fin F → Fin (M + 1) → 𝕜) :
    (evalLh d s false clO cfO).2 = freshObservationLhs d s.params clO' cfO' garbage := by
  have hN := runW_forall_any (I := fun s => NodeInv d P s)
    (fun p g => nodeInv_new p g) (fun s h => nodeInv_copy h)
    (fun s op h => stepS_nodeInv h op) ops [] (by simp) s hs
  have hW := runW_WF d P ops s hs
  have hI : CompInv d { s with cache := s.cache.clear } :=
    ⟨hW.1, hW.2.1, hW.2.2, .inl ⟨rfl, fun _ => rfl, fun _ => rfl, fun _ _ => rfl⟩⟩
  have := evalLh_value (s := { s with cache := s.cache.clear }) hc hI (clear_inv hN) hd false h1 h2
  rw [show (evalLh d s false clO cfO).2 = (evalLh d { s with cache := s.cache.clear } false clO cfO).2
    from rfl, this]
  unfold freshObservationLhs
  rw [updateComponents_all (p := s.params) hd hc h3 h4]
  rfl

/-! ### C06 -/

/-- **C06** (cluster-size prior). After every history, whole-array changes included. -/
theorem C06_size_prior_cache_is_sound (d : ModelData N F S M nG) (P : PriorFns 𝕜 K N F S M nG)
    (ops : List (WOp 𝕜 K N F S M nG)) (s : Sample 𝕜 K N F S M nG) (hs : s ∈ runW d P [] ops)
    (caching : Bool) : (evalSize P s caching).2 = P.sizeP s.params.clusters :=
  evalSize_val (runW_forall_any (I := fun s => NodeInv d P s)
    (fun p g => nodeInv_new p g) (fun s h => nodeInv_copy h)
    (fun s op h => stepS_nodeInv h op) ops [] (by simp) s hs) caching

/-- **C06** (source prior). After every history, whole-array changes included: the (log) prior of the
sources is the sum over the attributed components of the logs of the normalised weights. -/
theorem C06_source_prior_cache_is_sound (d : ModelData N F S M nG) (P : PriorFns 𝕜 K N F S M nG)
    (ops : List (WOp 𝕜 K N F S M nG)) (s : Sample 𝕜 K N F S M nG) (hs : s ∈ runW d P [] ops)
    (source : Fin N → Fin F → Fin (M + 1) → Bool) (hsrc : s.params.source = some source)
    (caching : Bool) : (evalSrc P s caching).2 =
      ((sourceWeights (normalizeWeights s.params.weights (hasComponents d s.params.clusters))
        source).map P.logf).sum := by
  have : s.source.value = source := by
    simp only [Sample.params] at hsrc
    split at hsrc
    · exact Option.some.inj hsrc
    · cases hsrc
  rw [← this]
  exact evalSrc_val (runW_forall_any (I := fun s => NodeInv d P s)
    (fun p g => nodeInv_new p g) (fun s h => nodeInv_copy h)
    (fun s op h => stepS_nodeInv h op) ops [] (by simp) s hs) caching

/-- **C06** (confounding-effect prior). After every history with group-wise changes: the prior is the
sum of the priors of the current effects of all groups. -/
theorem C06_confounding_effect_prior_cache_is_sound (d : ModelData N F S M nG)
    (P : PriorFns 𝕜 K N F S M nG) (ops : List (WOp 𝕜 K N F S M nG)) (ho : HistoryOk d P [] ops)
    (s : Sample 𝕜 K N F S M nG) (hs : s ∈ runW d P [] ops) (c : Fin M) (order : List (Fin (nG c)))
    (h : VisitsAll order) (caching : Bool) :
    (evalConf P s c caching order).2 = ∑ g, P.confP c g (s.params.confEffect c g) :=
  evalConf_val (runW_forall (I := fun s => ConfInv P s)
    (fun p g => confInv_new p g) (fun s h => confInv_copy h)
    (fun s op hop h => stepS_confInv h hop) ops [] (by simp) ho s hs) c caching h

/-- The example history reaches two samples with different clusters, one with outdated nodes. -/
example : ∃ s t, runW exD exF [] exOps = [s, t] ∧ s.params.clusters ≠ t.params.clusters ∧
    s.cache.wnorm.cached ≠ some (s.clusters.version, s.weights.version) := by
  refine ⟨_, _, rfl, ?_, ?_⟩
  · intro h
    have h1 := congrFun (congrFun h 0) 1
    exact absurd h1 (by decide)
  · decide

/-! ### C07 -/

/-- Create a sample, evaluate the geo-prior, then remove the object from the cluster. -/
def geoOps : List (WOp ℚ 1 1 1 1 0 (fun _ => 0)) :=
  [.new cexP (fun _ _ _ => 0), .on 0 (.evalGeo true), .on 0 (.clusterEdit 0 (fun _ _ => false))]

/-- **C07 is false of the code.** After a change of the clusters the cached geo-prior is stale,
although the clusters changed through the tracked group-wise mutator. -/
theorem C07_false : ¬ ∀ (ops : List (WOp ℚ 1 1 1 1 0 (fun _ => 0))), HistoryOk cexD cexF [] ops →
    ∀ s ∈ runW cexD cexF [] ops, (evalGeo cexF s true).2 = cexF.geoP s.params.clusters := by
  intro h
  have hok : HistoryOk cexD cexF [] geoOps := by
    simp only [geoOps, HistoryOk, OpOk]
    exact ⟨fun _ _ => trivial, fun _ _ => trivial, trivial⟩
  have hlen : (runW cexD cexF [] geoOps).length = 1 := by simp [runW, geoOps, stepW]
  obtain ⟨s, hs⟩ := List.exists_mem_of_length_pos (by rw [hlen]; exact Nat.one_pos)
  have := h geoOps hok s hs
  simp only [runW, geoOps, List.foldl_cons, List.foldl_nil, stepW, List.nil_append,
    List.modify_zero_cons, List.mem_singleton] at hs
  subst hs
  simp [stepS, evalGeo, Sample.new, freshCache, Sample.params, GP.editGroup, GP.new, cexP, cexF] at this

/-- Operations after which the cached geo-prior of a sample survives. -/
def KeepsGeo : SOp 𝕜 K N F S M nG → Prop
  | .clear => False
  | .evalLh caching _ _ => caching = true
  | .evalGeo caching => caching = true
  | _ => True

theorem stepS_geo (d : ModelData N F S M nG) (P : PriorFns 𝕜 K N F S M nG)
    (s : Sample 𝕜 K N F S M nG) (x : 𝕜) (h : s.cache.geo = ⟨x, some ()⟩) (op : SOp 𝕜 K N F S M nG)
    (hop : KeepsGeo op) : (stepS d P s op).cache.geo = ⟨x, some ()⟩ := by
  cases op with
  | clear => exact hop.elim
  | evalLh b o o' =>
    subst hop
    show (updateWeights (updateComp d s true o o') true).cache.geo = _
    obtain ⟨e1, e2, e3, e4, e5, e6, e7, e8, e9⟩ := updateWeights_params (s := updateComp d s true o o') true
    obtain ⟨r1, r2, r3, r4, r5, r6, r7, r8, r9⟩ := updateComp_params (d := d) (s := s) true o o'
    rw [e8, r8, h]
  | updateComp b o o' =>
    show (updateComp d s b o o').cache.geo = _
    obtain ⟨r1, r2, r3, r4, r5, r6, r7, r8, r9⟩ := updateComp_params (d := d) (s := s) b o o'
    rw [r8, h]
  | updateWeights b =>
    show (updateWeights s b).cache.geo = _
    obtain ⟨e1, e2, e3, e4, e5, e6, e7, e8, e9⟩ := updateWeights_params (s := s) b
    rw [e8, h]
  | readHas =>
    show (readHas s).cache.geo = _
    obtain ⟨e1, e2, e3, e4, e5, e6, e7, e8, e9, e10⟩ := readHas_params (s := s)
    rw [e9, h]
  | evalGeo b =>
    subst hop
    show (evalGeo P s true).1.cache.geo = _
    unfold evalGeo; simp [h]
  | evalSize b => show (evalSize P s b).1.cache.geo = _; unfold evalSize; split <;> exact h
  | evalConf c b o =>
    show (evalConf P s c b o).1.cache.geo = _; unfold evalConf; dsimp only; split <;> exact h
  | evalSrc b =>
    show (evalSrc P s b).1.cache.geo = _
    unfold evalSrc; dsimp only; split
    · exact h
    · show (updateWeights s true).cache.geo = _
      obtain ⟨e1, e2, e3, e4, e5, e6, e7, e8, e9⟩ := updateWeights_params (s := s) true
      rw [e8, h]
  | _ => exact h

/-- How badly C07 fails: once the geo-prior was evaluated with value `x`, every later evaluation with
caching returns `x`, whatever happens to the clusters, until something is evaluated without caching
or the cache is cleared; copies inherit the frozen value. -/
theorem C07_geo_prior_is_frozen (d : ModelData N F S M nG) (P : PriorFns 𝕜 K N F S M nG)
    (s : Sample 𝕜 K N F S M nG) (ops : List (SOp 𝕜 K N F S M nG)) (hops : ∀ op ∈ ops, KeepsGeo op) :
    (evalGeo P (ops.foldl (stepS d P) ((evalGeo P s true).1.copy d)) true).2 =
      (evalGeo P s true).2 := by
  have h0 : ((evalGeo P s true).1.copy d).cache.geo = ⟨(evalGeo P s true).2, some ()⟩ := by
    show (evalGeo P s true).1.cache.geo = _
    unfold evalGeo; split
    · rename_i hc
      rw [← hc.2]
    · rfl
  have h1 : (ops.foldl (stepS d P) ((evalGeo P s true).1.copy d)).cache.geo =
      ⟨(evalGeo P s true).2, some ()⟩ := by
    generalize (evalGeo P s true).1.copy d = t at h0 ⊢
    induction ops generalizing t with
    | nil => exact h0
    | cons op ops ih =>
      exact ih (fun o ho => hops o (List.mem_cons_of_mem _ ho)) _
        (stepS_geo d P t _ h0 op (hops op List.mem_cons_self))
  rw [show ∀ t : Sample 𝕜 K N F S M nG, t.cache.geo = ⟨(evalGeo P s true).2, some ()⟩ →
    (evalGeo P t true).2 = (evalGeo P s true).2 from fun t ht => by
      conv_lhs => unfold evalGeo
      simp [ht]]
  exact h1

/-- Non-vacuity: cluster changes are allowed between the evaluations. -/
example : ∀ op ∈ ([.clusterEdit 0 (fun _ _ => false), .evalLh true [0] (fun c => c.elim0)] :
    List (SOp ℚ 1 1 1 1 0 (fun _ => 0))), KeepsGeo op := by
  intro op h; simp at h; rcases h with rfl | rfl <;> simp [KeepsGeo]

/-- If the geo-prior is constant, the cached value is right after every history. -/
theorem runW_geo (d : ModelData N F S M nG) (P : PriorFns 𝕜 K N F S M nG) (hconst : ∀ cl cl', P.geoP cl = P.geoP cl')
    (ops : List (WOp 𝕜 K N F S M nG)) (s : Sample 𝕜 K N F S M nG) (hs : s ∈ runW d P [] ops) :
    ∀ u, s.cache.geo.cached = some u → s.cache.geo.value = P.geoP s.clusters.value := by
  exact runW_forall_any (d := d) (P := P)
    (I := fun s => ∀ u, s.cache.geo.cached = some u → s.cache.geo.value = P.geoP s.clusters.value)
    (fun p g u hu => by cases hu) (fun s h => h)
    (fun s op h => by
      by_cases hk : KeepsGeo op
      · intro u hu
        by_cases hc : s.cache.geo.cached = some ()
        · have := stepS_geo d P s s.cache.geo.value (by rw [← hc]) op hk
          rw [this, h () hc]; exact hconst _ _
        · cases op with
          | evalGeo b =>
            simp only [stepS, evalGeo, hc, and_false, if_false]
          | evalLh b o o' =>
            subst hk
            exfalso; revert hu
            show (updateWeights (updateComp d s true o o') true).cache.geo.cached = some u → False
            obtain ⟨e1, e2, e3, e4, e5, e6, e7, e8, e9⟩ :=
              updateWeights_params (s := updateComp d s true o o') true
            obtain ⟨r1, r2, r3, r4, r5, r6, r7, r8, r9⟩ := updateComp_params (d := d) (s := s) true o o'
            rw [e8, r8]; exact hc
          | updateComp b o o' =>
            exfalso; revert hu
            show (updateComp d s b o o').cache.geo.cached = some u → False
            obtain ⟨r1, r2, r3, r4, r5, r6, r7, r8, r9⟩ := updateComp_params (d := d) (s := s) b o o'
            rw [r8]; exact hc
          | updateWeights b =>
            exfalso; revert hu
            show (updateWeights s b).cache.geo.cached = some u → False
            obtain ⟨e1, e2, e3, e4, e5, e6, e7, e8, e9⟩ := updateWeights_params (s := s) b
            rw [e8]; exact hc
          | readHas =>
            exfalso; revert hu
            show (readHas s).cache.geo.cached = some u → False
            obtain ⟨e1, e2, e3, e4, e5, e6, e7, e8, e9, e10⟩ := readHas_params (s := s)
            rw [e9]; exact hc
          | evalSize b =>
            exfalso; revert hu
            show (evalSize P s b).1.cache.geo.cached = some u → False
            unfold evalSize; split <;> exact hc
          | evalConf c b o =>
            exfalso; revert hu
            show (evalConf P s c b o).1.cache.geo.cached = some u → False
            unfold evalConf; dsimp only; split <;> exact hc
          | evalSrc b =>
            exfalso; revert hu
            show (evalSrc P s b).1.cache.geo.cached = some u → False
            unfold evalSrc; dsimp only; split
            · exact hc
            · show (updateWeights s true).cache.geo.cached = some u → False
              obtain ⟨e1, e2, e3, e4, e5, e6, e7, e8, e9⟩ := updateWeights_params (s := s) true
              rw [e8]; exact hc
          | clear => exact hk.elim
          | _ => exact absurd hu hc
      · cases op with
        | clear => intro u hu; cases hu
        | evalLh b o o' =>
          cases b with
          | true => exact absurd rfl hk
          | false =>
            intro u hu
            exfalso; revert hu
            show (updateWeights (updateComp d { s with cache := s.cache.clear } false o o')
              false).cache.geo.cached = some u → False
            obtain ⟨e1, e2, e3, e4, e5, e6, e7, e8, e9⟩ := updateWeights_params
              (s := updateComp d { s with cache := s.cache.clear } false o o') false
            obtain ⟨r1, r2, r3, r4, r5, r6, r7, r8, r9⟩ :=
              updateComp_params (d := d) (s := { s with cache := s.cache.clear }) false o o'
            rw [e8, r8]; intro hu; cases hu
        | evalGeo b =>
          cases b with
          | true => exact absurd rfl hk
          | false => intro u _; simp [stepS, evalGeo]
        | _ => exact absurd trivial hk) ops [] (by simp) s hs

/-- **C07**, the part that holds: evaluation without caching is right after every history, and so is
evaluation with caching if the geo-prior does not depend on the clusters (type `uniform`) or if
the cache was cleared before. -/
theorem C07_geo_prior_partial (d : ModelData N F S M nG) (P : PriorFns 𝕜 K N F S M nG)
    (ops : List (WOp 𝕜 K N F S M nG)) (s : Sample 𝕜 K N F S M nG) (hs : s ∈ runW d P [] ops) :
    (evalGeo P s false).2 = P.geoP s.params.clusters ∧
    (evalGeo P { s with cache := s.cache.clear } true).2 = P.geoP s.params.clusters ∧
    ((∀ cl cl', P.geoP cl = P.geoP cl') → (evalGeo P s true).2 = P.geoP s.params.clusters) := by
  refine ⟨by simp [evalGeo, Sample.params], by simp [evalGeo, ModelCache.clear, Sample.params], ?_⟩
  intro hconst
  have hI := runW_geo d P hconst ops s hs
  unfold evalGeo; split
  · rename_i hc; exact hI () hc.2
  · rfl

end SBayes.Cache
