import Verif.Lemmas.ReorderMeas
import Verif.Props.StartAlter
/- C100: the order of the data does not matter. -/
namespace SBayes.Reorder
open SBayes.Lik SBayes.Prior SBayes.Clusters SBayes.Effects SBayes.Posterior SBayes.Kernel SBayes.Meas SBayes.MCMC SBayes.Init MeasureTheory Filter
open scoped BigOperators ENNReal Topology

variable {K N F S M : ℕ} {nG nG' : Fin M → ℕ} (r : Reordering K N F S M nG nG')

/-- **C100** The log-posterior of the same parameters is the same, for any order of objects, features, states, confounders, groups and
clusters; and it fails on the same parameters. -/
theorem C100_posterior_does_not_depend_on_the_order {cfg : ModelCfg N F S M nG} {cfg' : ModelCfg N F S M nG'} (h : SameCfg r cfg cfg')
    (d : ModelData N F S M nG) (hc : ∀ c, DisjointGroups (d.confGroups c)) (p : Params ℝ K N F S M nG) (hz : DisjointGroups p.clusters)
    {clO clO' : List (Fin K)} {cfO : (c : Fin M) → List (Fin (nG c))} {cfO' : (c : Fin M) → List (Fin (nG' c))}
    (h1 : VisitsAll clO) (h1' : VisitsAll clO') (h2 : ∀ c, VisitsAll (cfO c)) (h2' : ∀ c, VisitsAll (cfO' c))
    (buf buf' : Fin N → Fin F → Fin (M + 1) → ℝ) :
    posterior (r.data d) cfg' clO' cfO' buf' (r.params p) = posterior d cfg clO cfO buf p := by
  unfold posterior
  rw [prior_reorder r h]
  have hz' : DisjointGroups (r.params p).clusters := disjoint_equiv r.obj r.clus hz
  have hc' : ∀ c, DisjointGroups ((r.data d).confGroups c) := fun c => disjoint_equiv r.obj (r.group c) (hc (r.conf c))
  have : likelihood (freshObservationLhs (r.data d) (r.params p) clO' cfO' buf') = likelihood (freshObservationLhs d p clO cfO buf) := by
    unfold freshObservationLhs
    rw [Cache.updateComponents_all hz' hc' h1' h2', Cache.updateComponents_all hz hc h1 h2]
    exact likelihood_reorder r _ _ _ _ _ (fun n f i => normalizeWeights_reorder r d p.weights p.clusters n f i)
      (fun n f i => components_reorder r d hc hz p.clusterEffect p.confEffect n f i)
  rw [this]

theorem sourceArray_reorder (s : Fin N × Fin F → Fin (M + 1)) : sourceArray (r.source s) = r.sourceArr (sourceArray s) := by
  funext n f i
  unfold sourceArray Reordering.sourceArr Reordering.source Source.eye
  rw [Bool.eq_iff_iff, beq_iff_eq, beq_iff_eq]
  exact Equiv.symm_apply_eq _

theorem params_reorder (x : Disc K N F M × Cont K F S M nG) : params (r.disc x.1, r.cont x.2) = r.params (params x) := by
  unfold params Reordering.params
  simp only [Option.map_some]
  rw [← sourceArray_reorder]
  rfl

theorem post_reorder {m : Setup K N F S M nG} {m' : Setup K N F S M nG'} (hm : WellPosed m) (h : SameSetup r m m')
    (x : Disc K N F M × Cont K F S M nG) (hz : DisjointGroups x.1.1) : post m' (r.disc x.1, r.cont x.2) = post m x := by
  unfold post
  rw [params_reorder, h.data, C100_posterior_does_not_depend_on_the_order r h.cfg m.d hm.disjoint (params x) hz hm.clOrder h.clOrder hm.confOrder
    h.confOrder]

theorem post0_reorder {m : Setup K N F S M nG} {m' : Setup K N F S M nG'} (hm : WellPosed m) (h : SameSetup r m m')
    (x : Clus K N × Cont K F S M nG) (hz : DisjointGroups x.1) : post0 m' (r.clusters x.1, r.cont x.2) = post0 m x := by
  unfold post0
  have : params0 (r.clusters x.1, r.cont x.2) = r.params (params0 x) := rfl
  rw [this, h.data, C100_posterior_does_not_depend_on_the_order r h.cfg m.d hm.disjoint (params0 x) hz hm.clOrder h.clOrder hm.confOrder
    h.confOrder]

/-- A run that is set up properly is so in any order. -/
theorem wellPosed_reorder {m : Setup K N F S M nG} {m' : Setup K N F S M nG'} (hm : WellPosed m) (h : SameSetup r m m') : WellPosed m' where
  observed n f := by
    rw [h.data, h.cfg.app]
    rcases hm.observed (r.obj n) (r.feat f) with h | ⟨s, h1, h2⟩
    · exact Or.inl fun s => h _
    · refine Or.inr ⟨(r.state f).symm s, fun s' => ?_, by simpa [Reordering.table] using h2⟩
      exact (h1 (r.state f s')).trans (Equiv.eq_symm_apply _).symm
  disjoint c := by rw [h.data]; exact disjoint_equiv r.obj (r.group c) (hm.disjoint (r.conf c))
  covered n := by
    obtain ⟨c, g, hc⟩ := hm.covered (r.obj n)
    obtain ⟨c, rfl⟩ := r.conf.surjective c
    obtain ⟨g, rfl⟩ := (r.group c).surjective g
    exact ⟨c, g, by rw [h.data]; exact hc⟩
  hasState f := by
    obtain ⟨s, hs⟩ := hm.hasState (r.feat f)
    exact ⟨(r.state f).symm s, by rw [h.cfg.app]; simpa [Reordering.table] using hs⟩
  hasCluster := hm.hasCluster
  hasConfounder := hm.hasConfounder
  hasGroup c := by
    have e := Fintype.card_congr (r.group c)
    rw [Fintype.card_fin, Fintype.card_fin] at e
    rw [e]; exact hm.hasGroup _
  clOrder := h.clOrder
  confOrder := h.confOrder
  geo z hz := by
    obtain ⟨y, rfl⟩ := (clustersEquiv r).surjective z
    have hy := (valid_reorder r y).1 hz
    rw [h.minSize, h.maxSize] at hy
    have := geoTerm_reorder r h.cfg.geo y
    exact (congrArg Option.isSome this).trans (hm.geo y hy)
  conc c g a ha f s hs := by
    rw [h.cfg.conf] at ha
    obtain ⟨b, hb, rfl⟩ := Option.map_eq_some_iff.1 ha
    rw [h.cfg.app] at hs
    exact hm.conc _ _ b hb _ _ hs
  nonempty e := by rw [h.minSize]; exact hm.nonempty (by rw [← h.cfg.size]; exact e)
  pConn := by rw [h.pConn]; exact hm.pConn

theorem canMove_reorder {m : Setup K N F S M nG} {m' : Setup K N F S M nG'} (hm : CanMove m) (h : SameSetup r m m') : CanMove m' where
  feature := hm.feature
  twoStates f := by
    obtain ⟨s, s', h1, h2, h3⟩ := hm.twoStates (r.feat f)
    exact ⟨(r.state f).symm s, (r.state f).symm s', fun e => h1 ((r.state f).symm.injective e),
      by rw [h.cfg.app]; simpa [Reordering.table] using h2, by rw [h.cfg.app]; simpa [Reordering.table] using h3⟩
  room := by rw [h.minSize]; exact hm.room
  sizes := by rw [h.minSize, h.maxSize]; exact hm.sizes
  anywhere := by rw [h.pConn]; exact hm.anywhere

/-- **C100** The posterior distribution for the reordered data is the posterior distribution, reordered: every event has the same (unnormalised)
posterior probability. -/
theorem C100_posterior_distribution {m : Setup K N F S M nG} {m' : Setup K N F S M nG'} (hm : WellPosed m) (h : SameSetup r m m') :
    MeasurePreserving (fun x : Disc K N F M × Cont K F S M nG => (r.disc x.1, r.cont x.2)) (target m Prod.fst (post m))
      (target m' Prod.fst (post m')) :=
  target_reorder r h (discEquiv r) (fun _ => rfl) (meas_post m) (meas_post m') fun d c hv => post_reorder r hm h (d, c) hv.disjoint

/-- **C100** The same without sources. -/
theorem C100_posterior_distribution_no_source {m : Setup K N F S M nG} {m' : Setup K N F S M nG'} (hm : WellPosed m) (h : SameSetup r m m') :
    MeasurePreserving (fun x : Clus K N × Cont K F S M nG => (r.clusters x.1, r.cont x.2)) (target m id (post0 m)) (target m' id (post0 m')) :=
  target_reorder r h (clustersEquiv r) (fun _ => rfl) (meas_post0 m) (meas_post0 m') fun d c hv => post0_reorder r hm h (d, c) hv.disjoint

/-- **C100** A whole run on the reordered data: the average of any bounded function over its samples converges to the posterior mean of the same
quantity for the data in the original order. -/
theorem C100_whole_run_converges {m : Setup K N F S M nG} {m' : Setup K N F S M nG'} (hm : WellPosed m) (h : SameSetup r m m')
    (hs : m.cfg.sampleSource = true) (hN : K * m.cl.minSize < N) (hadj : ∀ i j, m'.cl.adj i j = m'.cl.adj j i)
    (cfg : OpConfig) (ops : List (OpKind M × ℝ)) (hops : getOperators true M cfg = .ok ops) (hpos : ∀ o ∈ ops, 0 < o.2)
    (sz nChains warmSteps : ℕ) (hsz : 1 ≤ sz) (hlo : m.cl.minSize ≤ sz) (hhi : sz ≤ m.cl.maxSize) (hchains : 0 < nChains)
    (garbage : Fin N × Fin F → Fin (M + 1)) (rnd : Fin nChains → ℕ → ℕ) (rnd' : ℕ → ℕ) (blank : Fin nChains → State K N F S M nG')
    (hrnd : ∀ c, (initialClusters (m := 0) m'.cl.adj (rnd c) sz (fun k => k.elim0) : Option (Clus K N)).isSome)
    (s : ℕ) (hs0 : 0 < s) (f : Disc K N F M × Cont K F S M nG' → ℝ) (hf : Measurable f) (B : ℝ) (hB : ∀ x, |f x| ≤ B)
    (ε : ℝ) (hε : 0 < ε) :
    Tendsto (fun n : ℕ => (wholeRun m' (normalizeOperatorWeights ops) sz nChains warmSteps garbage rnd rnd' blank s n).prob
      {l | |(l.map f).sum / (l.length : ℝ) -
        (∫ y, f (r.disc y.1, r.cont y.2) ∂target m Prod.fst (post m)) / (target m Prod.fst (post m) Set.univ).toReal| < ε}) atTop (𝓝 1) := by
  have hp := C100_posterior_distribution r hm h
  have e1 : ∫ y, f y ∂target m' Prod.fst (post m') = ∫ y, f (r.disc y.1, r.cont y.2) ∂target m Prod.fst (post m) := by
    rw [← hp.map_eq, integral_map hp.measurable.aemeasurable hf.aestronglyMeasurable]
  have e2 : target m' Prod.fst (post m') Set.univ = target m Prod.fst (post m) Set.univ := by
    rw [← hp.map_eq, Measure.map_apply hp.measurable MeasurableSet.univ, Set.preimage_univ]
  rw [← e1, ← e2]
  exact C88_whole_run_converges (wellPosed_reorder r hm h) (by rw [h.cfg.sampleSource]; exact hs) (by rw [h.minSize]; exact hN) hadj cfg ops hops
    hpos sz nChains warmSteps hsz (by rw [h.minSize]; exact hlo) (by rw [h.maxSize]; exact hhi) hchains garbage rnd rnd' blank hrnd s hs0 f hf B hB
    ε hε

/-- **C100** The same without sources. -/
theorem C100_whole_run_converges_no_source {m : Setup K N F S M nG} {m' : Setup K N F S M nG'} (hm : WellPosed m) (h : SameSetup r m m')
    (hs : m.cfg.sampleSource = false) (hmove : CanMove m) (hadj : ∀ i j, m'.cl.adj i j = m'.cl.adj j i)
    (cfg : OpConfig) (ops : List (OpKind M × ℝ)) (hops : getOperators false M cfg = .ok ops) (hpos : ∀ o ∈ ops, 0 < o.2)
    (sz nChains warmSteps : ℕ) (hsz : 1 ≤ sz) (hlo : m.cl.minSize ≤ sz) (hhi : sz ≤ m.cl.maxSize) (hchains : 0 < nChains)
    (rnd : Fin nChains → ℕ → ℕ) (rnd' : ℕ → ℕ) (blank : Fin nChains → State0 K N F S M nG')
    (hrnd : ∀ c, (initialClusters (m := 0) m'.cl.adj (rnd c) sz (fun k => k.elim0) : Option (Clus K N)).isSome)
    (s : ℕ) (hs0 : 0 < s) (f : Clus K N × Cont K F S M nG' → ℝ) (hf : Measurable f) (B : ℝ) (hB : ∀ x, |f x| ≤ B)
    (ε : ℝ) (hε : 0 < ε) :
    Tendsto (fun n : ℕ => (wholeRun0 m' (normalizeOperatorWeights ops) sz nChains warmSteps rnd rnd' blank s n).prob
      {l | |(l.map f).sum / (l.length : ℝ) -
        (∫ y, f (r.clusters y.1, r.cont y.2) ∂target m id (post0 m)) / (target m id (post0 m) Set.univ).toReal| < ε}) atTop (𝓝 1) := by
  have hp := C100_posterior_distribution_no_source r hm h
  have e1 : ∫ y, f y ∂target m' id (post0 m') = ∫ y, f (r.clusters y.1, r.cont y.2) ∂target m id (post0 m) := by
    rw [← hp.map_eq, integral_map hp.measurable.aemeasurable hf.aestronglyMeasurable]
  have e2 : target m' id (post0 m') Set.univ = target m id (post0 m) Set.univ := by
    rw [← hp.map_eq, Measure.map_apply hp.measurable MeasurableSet.univ, Set.preimage_univ]
  rw [← e1, ← e2]
  exact C90_whole_run_converges (wellPosed_reorder r hm h) (by rw [h.cfg.sampleSource]; exact hs) (canMove_reorder r hmove h) hadj cfg ops hops
    hpos sz nChains warmSteps hsz (by rw [h.minSize]; exact hlo) (by rw [h.maxSize]; exact hhi) hchains rnd rnd' blank hrnd s hs0 f hf B hB
    ε hε

/-! ### Orders that meet the requirements -/

/-- Objects rotated, clusters, groups and features swapped, the first two states of every feature swapped. -/
def exampleOrder : Reordering 2 5 2 3 1 (fun _ => 2) (fun _ => 2) where
  obj := finRotate 5
  feat := Equiv.swap 0 1
  state _ := Equiv.swap 0 1
  conf := 1
  group _ := Equiv.swap 0 1
  clus := Equiv.swap 0 1

/-- The run of C89 and C90 in this order, with another traversal order and another buffer. -/
noncomputable def reorderedSetup : Setup 2 5 2 3 1 (fun _ => 2) where
  d := exampleOrder.data widerSetup.d
  cfg := { widerSetup.cfg with app := exampleOrder.table widerSetup.cfg.app }
  cl := widerSetup.cl
  clOrder := [1, 0, 1]
  confOrder := fun _ => [1, 0]
  empty := fun _ _ _ => 7

theorem reorderedSetup_same : SameSetup exampleOrder widerSetup reorderedSetup where
  data := rfl
  cfg := ⟨rfl, .uniform, fun _ _ => rfl, rfl, rfl⟩
  minSize := rfl
  maxSize := rfl
  pConn := rfl
  clOrder g := by have : ∀ g : Fin 2, g ∈ [1, 0, 1] := by decide
                  exact this g
  confOrder _ g := by have : ∀ g : Fin 2, g ∈ [1, 0] := by decide
                      exact this g

/-- The reordered data is not the same table, and the run meets all requirements of the theorems above. -/
example : reorderedSetup.d.features ≠ widerSetup.d.features ∧ reorderedSetup.cfg.app ≠ widerSetup.cfg.app ∧ WellPosed widerSetup ∧
    CanMove widerSetup ∧ SameSetup exampleOrder widerSetup reorderedSetup ∧ widerSetup.cfg.sampleSource = false ∧
    (∀ i j, reorderedSetup.cl.adj i j = reorderedSetup.cl.adj j i) ∧
    ∀ rnd, (initialClusters (m := 0) reorderedSetup.cl.adj rnd 1 (fun k => k.elim0) : Option (Clus 2 5)).isSome := by
  refine ⟨fun h => ?_, fun h => ?_, widerSetup_wellPosed, widerSetup_canMove, reorderedSetup_same, rfl, fun _ _ => rfl, widerSetup_initial⟩
  · have := congrFun (congrFun (congrFun h 4) 0) 0
    have e : reorderedSetup.d.features 4 0 0 = true := by
      show (decide ((finRotate 5 4).val ≠ 4) && decide ((Equiv.swap (0 : Fin 3) 1 0).val = ((finRotate 5 4).val + (Equiv.swap (0 : Fin 2) 1 0).val) % 2)) = true
      decide
    have e' : widerSetup.d.features 4 0 0 = false := rfl
    rw [e, e'] at this
    cases this
  · have := congrFun (congrFun h 0) 2
    have e : reorderedSetup.cfg.app 0 2 = false := by
      show decide ((Equiv.swap (0 : Fin 3) 1 2).val < 3 - (Equiv.swap (0 : Fin 2) 1 0).val) = false
      decide
    have e' : widerSetup.cfg.app 0 2 = true := rfl
    rw [e, e'] at this
    cases this

/-- Clusters that are disjoint, and a geo-prior with distances along a line of three objects in another order: both are the same prior. -/
example (mst mst' : (z : Fin 3 → Bool) → SimpleGraph (Members z))
    (h : ∀ z, 1 < clusterSize z → IsMST (fun i j : Members z => |((i.1.val : ℕ) : ℝ) - (j.1.val : ℕ)|) (mst z))
    (h' : ∀ z, 1 < clusterSize z → IsMST (fun i j : Members z => |(((finRotate 3) i.1).val : ℝ) - ((finRotate 3) j.1).val|) (mst' z)) :
    SameGeo (finRotate 3) (.costBased .sum .exponential 2 (fun i j => |((i.val : ℕ) : ℝ) - (j.val : ℕ)|) mst)
      (.costBased .sum .exponential 2 (fun i j => |(((finRotate 3) i).val : ℝ) - ((finRotate 3) j).val|) mst') :=
  .costBased .sum .exponential 2 _ mst mst' h h'

end SBayes.Reorder
