import Verif.Spec.Reorder
import Verif.Props.Prior
import Verif.Lemmas.Cache
import Verif.Props.Likelihood
/- Lemmas for C100: every term of the posterior is the same in another order. -/
namespace SBayes.Reorder
open SBayes.Lik SBayes.Prior SBayes.Clusters SBayes.Effects SBayes.Posterior SBayes.Kernel
open scoped BigOperators

variable {K N F S M : ℕ} {nG nG' : Fin M → ℕ} (r : Reordering K N F S M nG nG')

@[simp] theorem comp_zero : r.comp 0 = 0 := rfl
@[simp] theorem comp_succ (c : Fin M) : r.comp c.succ = (r.conf c).succ := rfl

/-! ### Sizes and the geo-prior -/

theorem clusterSize_obj (σ : Equiv.Perm (Fin N)) (z : Fin N → Bool) : clusterSize (fun n => z (σ n)) = clusterSize z := by
  unfold clusterSize
  rw [show (fun n => (fun n => z (σ n)) n) = z ∘ σ from rfl, ← List.countP_map]
  refine List.Perm.countP_eq _ ?_
  rw [List.perm_ext_iff_of_nodup ((List.nodup_finRange N).map σ.injective) (List.nodup_finRange N)]
  intro a
  simp only [List.mem_map, List.mem_finRange, true_and, iff_true]
  exact ⟨σ.symm a, by simp⟩

theorem sizePrior_reorder (t : SizePriorType) (z : Clus K N) : sizePrior t (r.clusters z) = sizePrior t z := by
  have h1 : sizePrior t (r.clusters z) = sizePrior t (fun k => z (r.clus k)) := by
    have : (fun k => clusterSize (r.clusters z k)) = fun k => clusterSize (z (r.clus k)) :=
      funext fun k => clusterSize_obj r.obj (z (r.clus k))
    unfold sizePrior
    rw [this]
  rw [h1, C12_size_prior_is_exchangeable]

section mst
set_option linter.unusedSectionVars false
open Classical
variable {V W : Type} [Fintype V] [Fintype W]

theorem edgeCost_map (e : V ≃ W) (c : W → W → ℝ) (x : Sym2 V) :
    edgeCost c (x.map e) = edgeCost (fun i j => c (e i) (e j)) x := by
  induction x using Sym2.ind with
  | _ u v => rfl

theorem edges_map (e : V ≃ W) (c : W → W → ℝ) (T : SimpleGraph V) (U : SimpleGraph W) (hU : U = T.map e.toEmbedding) :
    U.edgeFinset.val.map (edgeCost c) = T.edgeFinset.val.map (edgeCost fun i j => c (e i) (e j)) := by
  have h : U.edgeFinset = T.edgeFinset.map e.toEmbedding.sym2Map := by
    ext x
    rw [SimpleGraph.mem_edgeFinset, hU, SimpleGraph.edgeSet_map]
    simp
  rw [h, Finset.map_val, Multiset.map_map]
  exact Multiset.map_congr rfl fun x _ => edgeCost_map e c x

theorem sum_map (e : V ≃ W) (c : W → W → ℝ) (T : SimpleGraph V) (U : SimpleGraph W) (hU : U = T.map e.toEmbedding) :
    ∑ x ∈ U.edgeFinset, edgeCost c x = ∑ x ∈ T.edgeFinset, edgeCost (fun i j => c (e i) (e j)) x := by
  rw [Finset.sum_eq_multiset_sum, Finset.sum_eq_multiset_sum, edges_map e c T U hU]

theorem isMST_map (e : V ≃ W) (c : W → W → ℝ) {T : SimpleGraph V} (h : IsMST (fun i j => c (e i) (e j)) T) (U : SimpleGraph W)
    (hU : U = T.map e.toEmbedding) : IsMST c U := by
  refine ⟨hU ▸ ((SimpleGraph.Iso.map e T).isTree_iff).1 h.1, fun X hX => ?_⟩
  have hX' : (X.map e.symm.toEmbedding).IsTree := ((SimpleGraph.Iso.map e.symm X).isTree_iff).1 hX
  have h2 : X = (X.map e.symm.toEmbedding).map e.toEmbedding := by
    ext a b
    simp
  have := h.2 _ hX'
  rw [sum_map e c T U hU]
  refine this.trans (le_of_eq ?_)
  convert (sum_map e c _ X h2).symm

theorem distances_map (e : V ≃ W) (c : W → W → ℝ) {T : SimpleGraph V} {U : SimpleGraph W} (h : IsMST (fun i j => c (e i) (e j)) T)
    (hU : IsMST c U) : distances (fun i j => c (e i) (e j)) T = distances c U := by
  unfold distances
  rw [← edges_map e c T (T.map e.toEmbedding) rfl, ← mst_costs_unique hU _ _ rfl (isMST_map e c h _ rfl)]

end mst

/-- The members of a cluster in both orders. -/
def membersEquiv (σ : Equiv.Perm (Fin N)) (z : Fin N → Bool) : Members (fun n => z (σ n)) ≃ Members z :=
  σ.subtypeEquiv fun _ => Iff.rfl

theorem geoTerm_reorder {g g' : GeoCfg N} (h : SameGeo r.obj g g') (z : Clus K N) :
    geoTerm g' (r.clusters z) = geoTerm g z := by
  cases h with
  | uniform => rfl
  | costBased agg f scale cost mst mst' h h' =>
    unfold geoTerm geoPrior
    dsimp only
    have hall : (∀ k, 1 < clusterSize (r.clusters z k)) ↔ ∀ k, 1 < clusterSize (z k) := by
      have : ∀ k, clusterSize (r.clusters z k) = clusterSize (z (r.clus k)) := fun k => clusterSize_obj r.obj _
      simp only [this]
      exact ⟨fun hk k => by simpa using hk (r.clus.symm k), fun hk k => hk _⟩
    by_cases hs : ∀ k, 1 < clusterSize (z k)
    · rw [if_pos (hall.2 hs), if_pos hs]
      rw [Option.some.injEq, ← Equiv.sum_comp r.clus fun k => f.eval scale (agg.eval
        (distances (fun i j : Members (z k) => cost i j) (mst (z k))))]
      refine Finset.sum_congr rfl fun k _ => ?_
      have := distances_map (membersEquiv r.obj (z (r.clus k))) (fun i j : Members (z (r.clus k)) => cost i j)
        (T := mst' (r.clusters z k)) (h' (r.clusters z k) ((hall.2 hs) k)) (h _ (hs (r.clus k)))
      exact congrArg (fun x => f.eval scale (agg.eval x)) this
    · rw [if_neg (fun h => hs (hall.1 h)), if_neg hs]

/-! ### Effects -/

theorem states_reorder (app : Fin F → Fin S → Bool) (f : Fin F) :
    (states (r.table app) f).map (r.state f).toEmbedding = states app (r.feat f) := by
  ext s
  unfold states Reordering.table
  rw [Finset.mem_map, Finset.mem_filter]
  constructor
  · rintro ⟨t, ht, rfl⟩; exact ⟨Finset.mem_univ _, (Finset.mem_filter.1 ht).2⟩
  · intro hs
    exact ⟨(r.state f).symm s, Finset.mem_filter.2 ⟨Finset.mem_univ _, by simpa using hs.2⟩, by simp⟩

theorem groupEffectPrior_reorder (app : Fin F → Fin S → Bool) (conc e : Fin F → Fin S → ℝ) :
    groupEffectPrior (r.table app) (r.table conc) (r.table e) = groupEffectPrior app conc e := by
  unfold groupEffectPrior
  rw [← Equiv.prod_comp r.feat fun f => dirichletPdf (states app f) (conc f) (e f)]
  refine Finset.prod_congr rfl fun f _ => ?_
  unfold dirichletPdf
  rw [← states_reorder r app f, Finset.sum_map, Finset.prod_map, Finset.prod_map]
  rfl

theorem confEffectPrior_reorder (app : Fin F → Fin S → Bool) (cfg : Option (Fin F → Fin S → ℝ)) (e : Fin F → Fin S → ℝ) :
    confEffectPrior (r.table app) (cfg.map r.table) (r.table e) = confEffectPrior app cfg e := by
  cases cfg with
  | none => rfl
  | some conc => exact groupEffectPrior_reorder r app conc e

/-! ### Likelihood -/

theorem anyGroup_equiv {G G' : ℕ} (σ : Equiv.Perm (Fin N)) (e : Fin G' ≃ Fin G) (groups : Fin G → Fin N → Bool) (n : Fin N) :
    anyGroup (fun g n => groups (e g) (σ n)) n = anyGroup groups (σ n) := by
  rw [Bool.eq_iff_iff, anyGroup_iff, anyGroup_iff]
  exact ⟨fun ⟨g, h⟩ => ⟨e g, h⟩, fun ⟨g, h⟩ => ⟨e.symm g, by simpa using h⟩⟩

theorem disjoint_equiv {G G' : ℕ} (σ : Equiv.Perm (Fin N)) (e : Fin G' ≃ Fin G) {groups : Fin G → Fin N → Bool}
    (h : DisjointGroups groups) : DisjointGroups fun g n => groups (e g) (σ n) :=
  fun _ _ _ hi hj => e.injective (h _ _ _ hi hj)

theorem hasComponents_reorder (d : ModelData N F S M nG) (z : Clus K N) (n : Fin N) (i : Fin (M + 1)) :
    hasComponents (r.data d) (r.clusters z) n i = hasComponents d z (r.obj n) (r.comp i) := by
  unfold hasComponents
  refine Fin.cases ?_ (fun c => ?_) i
  · exact anyGroup_equiv r.obj r.clus z n
  · simp only [Fin.cons_succ, comp_succ]
    exact anyGroup_equiv r.obj (r.group c) (d.confGroups (r.conf c)) n

theorem normalizeWeights_reorder (d : ModelData N F S M nG) (w : Fin F → Fin (M + 1) → ℝ) (z : Clus K N) (n : Fin N) (f : Fin F)
    (i : Fin (M + 1)) : normalizeWeights (r.weights w) (hasComponents (r.data d) (r.clusters z)) n f i =
      normalizeWeights w (hasComponents d z) (r.obj n) (r.feat f) (r.comp i) := by
  unfold normalizeWeights
  simp only [hasComponents_reorder]
  congr 1
  exact Equiv.sum_comp r.comp fun j => w (r.feat f) j * b2n ℝ (hasComponents d z (r.obj n) j)

theorem componentValue_reorder {G G' : ℕ} (e : Fin G' ≃ Fin G) (x : Features N F S) (probs : Fin G → Fin F → Fin S → ℝ)
    {groups : Fin G → Fin N → Bool} (hd : DisjointGroups groups) (n : Fin N) (f : Fin F) :
    componentValue (fun n => r.table (x (r.obj n))) (fun g => r.table (probs (e g))) (fun g n => groups (e g) (r.obj n)) n f =
      componentValue x probs groups (r.obj n) (r.feat f) := by
  have hna : isNA (fun n => r.table (x (r.obj n))) n f = isNA x (r.obj n) (r.feat f) := by
    rw [Bool.eq_iff_iff, isNA_iff, isNA_iff]
    unfold Missing Reordering.table
    exact ⟨fun h s => by simpa using h ((r.state f).symm s), fun h s => h _⟩
  unfold componentValue overwriteNA
  rw [hna]
  split
  · rfl
  · have hd' := disjoint_equiv r.obj e hd
    by_cases h : ∃ i, groups i (r.obj n) = true
    · obtain ⟨i, hi⟩ := h
      rw [compute_member hd _ hi (by simp), compute_member hd' _ (i := e.symm i) (by simpa using hi) (by simp)]
      unfold stateProb Reordering.table
      rw [Equiv.apply_symm_apply]
      exact Equiv.sum_comp (r.state f) fun s => b2n ℝ (x (r.obj n) (r.feat f) s) * probs i (r.feat f) s
    · have h' : ∀ i, groups i (r.obj n) = false := by simpa using h
      rw [compute_outside _ h', compute_outside (groups := fun g n => groups (e g) (r.obj n)) _ (n := n) (fun i => h' (e i))]

theorem components_reorder (d : ModelData N F S M nG) (hc : ∀ c, DisjointGroups (d.confGroups c)) {z : Clus K N} (hz : DisjointGroups z)
    (e : Fin K → Fin F → Fin S → ℝ) (ce : (c : Fin M) → Fin (nG c) → Fin F → Fin S → ℝ) (n : Fin N) (f : Fin F) (i : Fin (M + 1)) :
    Cache.compOf (r.data d) (r.clusters z) (r.clusterEffect e) (r.confEffect ce) n f i =
      Cache.compOf d z e ce (r.obj n) (r.feat f) (r.comp i) := by
  unfold Cache.compOf
  refine Fin.cases ?_ (fun c => ?_) i
  · exact componentValue_reorder r r.clus d.features e hz n f
  · simp only [Fin.cons_succ, comp_succ]
    exact componentValue_reorder r (r.group c) d.features (ce (r.conf c)) (hc (r.conf c)) n f

theorem prod_reorder (h : Fin N → Fin F → ℝ) : ∏ n, ∏ f, h (r.obj n) (r.feat f) = ∏ n, ∏ f, h n f := by
  rw [← Equiv.prod_comp r.obj fun n => ∏ f, h n f]
  exact Finset.prod_congr rfl fun n _ => Equiv.prod_comp r.feat fun f => h (r.obj n) f

theorem likelihood_reorder (w lh w' lh' : Fin N → Fin F → Fin (M + 1) → ℝ) (src : Option (Fin N → Fin F → Fin (M + 1) → Bool))
    (hw : ∀ n f i, w' n f i = w (r.obj n) (r.feat f) (r.comp i)) (hlh : ∀ n f i, lh' n f i = lh (r.obj n) (r.feat f) (r.comp i)) :
    likelihood (observationLhs lh' w' (src.map r.sourceArr)) = likelihood (observationLhs lh w src) := by
  cases src with
  | none =>
    rw [Option.map_none, likelihood_none, likelihood_none, ← prod_reorder r (fun n f => ∑ i, w n f i * lh n f i)]
    refine Finset.prod_congr rfl fun n _ => Finset.prod_congr rfl fun f _ => ?_
    simp only [hw, hlh]
    exact Equiv.sum_comp r.comp fun i => w (r.obj n) (r.feat f) i * lh (r.obj n) (r.feat f) i
  | some src =>
    rw [Option.map_some]
    unfold likelihood observationLhs
    dsimp only
    rw [prod_filter_ravel, prod_filter_ravel, ← prod_reorder r (fun n f => ∏ i, if src n f i then lh n f i else 1)]
    refine Finset.prod_congr rfl fun n _ => Finset.prod_congr rfl fun f _ => ?_
    simp only [hlh, Reordering.sourceArr]
    exact Equiv.prod_comp r.comp fun i => if src (r.obj n) (r.feat f) i then lh (r.obj n) (r.feat f) i else 1

theorem sourceTerm_reorder (b : Bool) (w w' : Fin N → Fin F → Fin (M + 1) → ℝ) (src : Option (Fin N → Fin F → Fin (M + 1) → Bool))
    (hw : ∀ n f i, w' n f i = w (r.obj n) (r.feat f) (r.comp i)) :
    sourceTerm b w' (src.map r.sourceArr) = sourceTerm b w src := by
  cases src with
  | none => cases b <;> rfl
  | some src =>
    cases b with
    | false => rfl
    | true =>
      simp only [sourceTerm, Option.map_some, Option.some.injEq]
      unfold sourceWeights
      rw [prod_filter_ravel, prod_filter_ravel, ← prod_reorder r (fun n f => ∏ i, if src n f i then w n f i else 1)]
      refine Finset.prod_congr rfl fun n _ => Finset.prod_congr rfl fun f _ => ?_
      simp only [hw, Reordering.sourceArr]
      exact Equiv.prod_comp r.comp fun i => if src (r.obj n) (r.feat f) i then w (r.obj n) (r.feat f) i else 1

theorem prior_reorder {cfg : ModelCfg N F S M nG} {cfg' : ModelCfg N F S M nG'} (h : SameCfg r cfg cfg') (d : ModelData N F S M nG)
    (p : Params ℝ K N F S M nG) : prior (r.data d) cfg' (r.params p) = prior d cfg p := by
  have hconf : (∏ c, ∏ g, confEffectPrior cfg'.app (cfg'.conf c g) ((r.params p).confEffect c g)) =
      ∏ c, ∏ g, confEffectPrior cfg.app (cfg.conf c g) (p.confEffect c g) := by
    rw [← Equiv.prod_comp r.conf fun c => ∏ g, confEffectPrior cfg.app (cfg.conf c g) (p.confEffect c g)]
    refine Finset.prod_congr rfl fun c _ => ?_
    rw [← Equiv.prod_comp (r.group c) fun g => confEffectPrior cfg.app (cfg.conf (r.conf c) g) (p.confEffect (r.conf c) g)]
    refine Finset.prod_congr rfl fun g _ => ?_
    rw [h.app, h.conf]
    exact confEffectPrior_reorder r _ _ _
  unfold prior
  rw [hconf, h.size, h.sampleSource]
  rw [show (r.params p).clusters = r.clusters p.clusters from rfl, show (r.params p).weights = r.weights p.weights from rfl, sizePrior_reorder, geoTerm_reorder r h.geo,
    show (r.params p).source = p.source.map r.sourceArr from rfl,
    sourceTerm_reorder r _ (normalizeWeights p.weights (hasComponents d p.clusters)) _ _
      (fun n f i => normalizeWeights_reorder r d p.weights p.clusters n f i)]

end SBayes.Reorder
