import Verif.Props.StrongLaw
import Verif.Props.Prior
import Verif.Props.Likelihood
/- C115: the labels of the clusters carry no information. -/
namespace SBayes.Kernel
open SBayes.Lik SBayes.Clusters SBayes.MH SBayes.Effects SBayes.Posterior SBayes.Draws SBayes.Meas SBayes.MCMC SBayes.Prior MeasureTheory
open SBayes.Init
open Filter Topology
open scoped BigOperators ENNReal

variable {K N F S M : ℕ} {nG : Fin M → ℕ} {m : Setup K N F S M nG}

/-- The clusters in another order. -/
def swapClusters (σ : Equiv.Perm (Fin K)) : Clus K N ≃ Clus K N where
  toFun z := fun k => z (σ k)
  invFun z := fun k => z (σ.symm k)
  left_inv z := by funext k; simp
  right_inv z := by funext k; simp

/-- The cluster effects in another order. -/
def swapEffects (σ : Equiv.Perm (Fin K)) (c : Cont K F S M nG) : Cont K F S M nG := (c.1, fun k => c.2.1 (σ k), c.2.2)

theorem pi_swap {X : Type} [MeasurableSpace X] (μ : Measure X) [SigmaFinite μ] (σ : Equiv.Perm (Fin K)) :
    MeasurePreserving (fun (v : Fin K → X) k => v (σ k)) (Measure.pi fun _ => μ) (Measure.pi fun _ => μ) := by
  have h := measurePreserving_piCongrLeft (fun _ : Fin K => μ) σ.symm
  convert h using 1
  funext v k
  have := Equiv.piCongrLeft_apply_apply (fun _ : Fin K => X) σ.symm v (σ k)
  rw [Equiv.symm_apply_apply] at this
  exact this.symm

theorem contRef_swap (hst : ∀ f, ∃ s, m.cfg.app f s = true) (σ : Equiv.Perm (Fin K)) :
    MeasurePreserving (swapEffects σ) (contRef m.cfg.app : Measure (Cont K F S M nG)) (contRef m.cfg.app) := by
  have p0 : IsProbabilityMeasure (uniformSimplex (Finset.univ : Finset (Fin (M + 1)))) := uniformSimplex_prob Finset.univ_nonempty
  have p1 : ∀ f, IsProbabilityMeasure (uniformSimplex (states m.cfg.app f)) := fun f => by
    obtain ⟨s, hs⟩ := hst f
    exact uniformSimplex_prob ⟨s, by simp [states, hs]⟩
  exact (MeasurePreserving.id _).prod ((pi_swap _ σ).prod (MeasurePreserving.id _))

theorem count_swap {D : Type} [MeasurableSpace D] [DiscreteMeasurableSpace D] (e : D ≃ D) :
    MeasurePreserving e (Measure.count : Measure D) Measure.count := by
  refine ⟨Measurable.of_discrete, ?_⟩
  ext B hB
  rw [Measure.map_apply Measurable.of_discrete hB, Measure.count_apply (MeasurableSet.of_discrete), Measure.count_apply hB]
  rw [Set.encard_preimage_of_bijective e.bijective]

theorem hasComponents_swap (d : ModelData N F S M nG) (z : Clus K N) (σ : Equiv.Perm (Fin K)) :
    hasComponents d (fun k => z (σ k)) = hasComponents d z := by
  have hany : anyGroup (fun k => z (σ k)) = anyGroup z := by
    funext n
    rw [Bool.eq_iff_iff, anyGroup_iff, anyGroup_iff]
    constructor
    · rintro ⟨g, hg⟩; exact ⟨σ g, hg⟩
    · rintro ⟨g, hg⟩; exact ⟨σ.symm g, by simpa using hg⟩
  unfold hasComponents
  rw [hany]

theorem prior_swap (d : ModelData N F S M nG) (cfg : ModelCfg N F S M nG) (p : Params ℝ K N F S M nG) (σ : Equiv.Perm (Fin K)) :
    prior d cfg (p.relabel σ) = prior d cfg p := by
  have hg : geoTerm cfg.geo (p.relabel σ).clusters = geoTerm cfg.geo p.clusters := by
    unfold geoTerm
    cases cfg.geo with
    | uniform => rfl
    | costBased agg f scale cost mst => exact C12_geo_prior_is_exchangeable agg f scale cost mst p.clusters σ
  have hsz : sizePrior cfg.size (p.relabel σ).clusters = sizePrior cfg.size p.clusters := C12_size_prior_is_exchangeable cfg.size p.clusters σ
  have hh : hasComponents d (p.relabel σ).clusters = hasComponents d p.clusters := hasComponents_swap d p.clusters σ
  unfold prior
  rw [hg, hsz, hh]
  rfl

theorem posterior_swap (hm : WellPosed m) (p : Params ℝ K N F S M nG) (hv : Valid m.cl.minSize m.cl.maxSize p.clusters) (σ : Equiv.Perm (Fin K)) :
    posterior m.d m.cfg m.clOrder m.confOrder m.empty (p.relabel σ) = posterior m.d m.cfg m.clOrder m.confOrder m.empty p := by
  unfold posterior
  rw [prior_swap, C12_cluster_labels_are_exchangeable m.d p σ hv.disjoint hm.disjoint m.clOrder m.clOrder m.confOrder m.confOrder
    hm.clOrder hm.clOrder hm.confOrder hm.confOrder m.empty m.empty]

theorem valid_swap {lo hi : ℕ} (z : Clus K N) (σ : Equiv.Perm (Fin K)) : Valid lo hi (swapClusters σ z) ↔ Valid lo hi z := by
  have key : ∀ (z : Clus K N) (τ : Equiv.Perm (Fin K)), Valid lo hi z → Valid lo hi (swapClusters τ z) := fun z τ h =>
    ⟨fun i j n hi hj => τ.injective (h.disjoint _ _ n hi hj), fun k => h.lower _, fun k => h.upper _⟩
  refine ⟨fun h => ?_, key z σ⟩
  have := key _ σ.symm h
  have e : swapClusters σ.symm (swapClusters σ z) = z := by funext k; simp [swapClusters]
  rwa [e] at this

section Target
variable {D : Type} [Fintype D] [MeasurableSpace D] [DiscreteMeasurableSpace D] {clusters : D → Clus K N}
  {post : D × Cont K F S M nG → ℝ}

theorem target_swap (hst : ∀ f, ∃ s, m.cfg.app f s = true) (hpost : ∀ d, Measurable fun c => post (d, c)) (σ : Equiv.Perm (Fin K)) (e : D ≃ D)
    (he : ∀ d, clusters (e d) = swapClusters σ (clusters d))
    (hp : ∀ d c, Valid m.cl.minSize m.cl.maxSize (clusters d) → post (e d, swapEffects σ c) = post (d, c)) :
    MeasurePreserving (Prod.map e (swapEffects σ)) (target m clusters post) (target m clusters post) := by
  classical
  have hP : IsProbabilityMeasure (contRef m.cfg.app : Measure (Cont K F S M nG)) := contRef_prob hst
  have hT := (count_swap e).prod (contRef_swap (m := m) hst σ)
  have hmeas : Measurable fun x : D × Cont K F S M nG => if Valid m.cl.minSize m.cl.maxSize (clusters x.1) then ENNReal.ofReal (post x) else 0 := by
    refine measurable_from_prod_countable_right fun d => ?_
    by_cases hv : Valid m.cl.minSize m.cl.maxSize (clusters d)
    · simpa only [hv, if_true] using (hpost d).ennreal_ofReal
    · simpa only [hv, if_false] using measurable_const
  refine ⟨hT.measurable, ?_⟩
  ext B hB
  rw [Measure.map_apply hT.measurable hB]
  unfold target
  rw [withDensity_apply _ (hT.measurable hB), withDensity_apply _ hB, ← hT.setLIntegral_comp_preimage hB hmeas]
  refine lintegral_congr fun x => ?_
  show _ = if Valid m.cl.minSize m.cl.maxSize (clusters (e x.1)) then ENNReal.ofReal (post (e x.1, swapEffects σ x.2)) else 0
  rw [he]
  by_cases hv : Valid m.cl.minSize m.cl.maxSize (clusters x.1)
  · rw [if_pos hv, if_pos ((valid_swap _ σ).mpr hv), hp _ _ hv]
  · rw [if_neg hv, if_neg (fun h => hv ((valid_swap _ σ).mp h))]

omit [Fintype D] in
theorem target_disjoint (n : Fin N) :
    ∑ k, target m clusters post {x | clusters x.1 k n = true} ≤ target m clusters post Set.univ := by
  classical
  set V : Set (D × Cont K F S M nG) := {x | Valid m.cl.minSize m.cl.maxSize (clusters x.1)} with hV
  have hVm : MeasurableSet V := measurable_fst (MeasurableSet.of_discrete (s := {d : D | Valid m.cl.minSize m.cl.maxSize (clusters d)}))
  have hAm : ∀ k, MeasurableSet {x : D × Cont K F S M nG | clusters x.1 k n = true} := fun k =>
    measurable_fst (MeasurableSet.of_discrete (s := {d : D | clusters d k n = true}))
  have h0 : target m clusters post Vᶜ = 0 := by
    unfold target
    rw [withDensity_apply _ hVm.compl]
    exact (setLIntegral_congr_fun (g := fun _ => 0) hVm.compl fun x hx => if_neg hx).trans (by simp)
  have hcut : ∀ k, target m clusters post {x | clusters x.1 k n = true} = target m clusters post ({x | clusters x.1 k n = true} ∩ V) := fun k => by
    have h1 : target m clusters post ({x | clusters x.1 k n = true} \ V) = 0 := measure_mono_null (fun x hx => hx.2) h0
    conv_lhs => rw [← measure_inter_add_sdiff _ hVm, h1, add_zero]
  calc ∑ k, target m clusters post {x | clusters x.1 k n = true}
      = ∑ k, target m clusters post ({x | clusters x.1 k n = true} ∩ V) := Finset.sum_congr rfl fun k _ => hcut k
    _ = target m clusters post (⋃ k, {x | clusters x.1 k n = true} ∩ V) := by
        rw [measure_iUnion (fun i j hij => Set.disjoint_left.mpr fun x hx hy => hij (hx.2.disjoint i j n hx.1 hy.1))
          (fun k => (hAm k).inter hVm), tsum_fintype]
    _ ≤ _ := measure_mono (Set.subset_univ _)

omit [Fintype D] in
/-- A common share of at most `1 / K`. -/
theorem share_le (hK : 0 < K) (n : Fin N) (hfin : target m clusters post Set.univ ≠ ⊤)
    (hsame : ∀ k j, target m clusters post {x | clusters x.1 k n = true} = target m clusters post {x | clusters x.1 j n = true}) (k : Fin K) :
    (target m clusters post {x | clusters x.1 k n = true}).toReal / (target m clusters post Set.univ).toReal ≤ 1 / K := by
  have h := target_disjoint (m := m) (clusters := clusters) (post := post) n
  rw [Finset.sum_congr rfl fun j _ => hsame j k, Finset.sum_const, Finset.card_univ, Fintype.card_fin, nsmul_eq_mul] at h
  have h2 := ENNReal.toReal_mono hfin h
  rw [ENNReal.toReal_mul, ENNReal.toReal_natCast] at h2
  have hK' : (0 : ℝ) < K := by exact_mod_cast hK
  rcases (ENNReal.toReal_nonneg (a := target m clusters post Set.univ)).eq_or_lt with h0 | h0
  · rw [← h0, div_zero]; positivity
  · rw [div_le_div_iff₀ h0 hK']
    linarith
end Target

/-- **C115.** Giving the clusters other numbers (and the cluster effects with them) does not change the posterior distribution: no numbering is
more probable than another one. -/
theorem C115_posterior_is_symmetric (hm : WellPosed m) (σ : Equiv.Perm (Fin K)) :
    (target m Prod.fst (post m)).map (fun x => ((fun k => x.1.1 (σ k), x.1.2), (x.2.1, fun k => x.2.2.1 (σ k), x.2.2.2))) = target m Prod.fst (post m) :=
  (target_swap (clusters := Prod.fst) hm.hasState (meas_post m) σ ((swapClusters σ).prodCongr (Equiv.refl _)) (fun _ => rfl) fun d c hv => by
    unfold Kernel.post
    exact congrArg (fun o => o.getD 0) (posterior_swap hm (params (d, c)) hv σ)).map_eq

/-- **C115.** The same without sources. -/
theorem C115_posterior_is_symmetric_without_sources (hm : WellPosed m) (σ : Equiv.Perm (Fin K)) :
    (target m id (post0 m)).map (fun x => (fun k => x.1 (σ k), (x.2.1, fun k => x.2.2.1 (σ k), x.2.2.2))) = target m id (post0 m) :=
  (target_swap (clusters := id) hm.hasState (meas_post0 m) σ (swapClusters σ) (fun _ => rfl) fun d c hv => by
    unfold post0
    exact congrArg (fun o => o.getD 0) (posterior_swap hm (params0 (d, c)) hv σ)).map_eq

theorem same_share (hm : WellPosed m) (n : Fin N) (k j : Fin K) :
    target m Prod.fst (post m) {x | x.1.1 k n = true} = target m Prod.fst (post m) {x | x.1.1 j n = true} := by
  have hT := (target_swap (m := m) (clusters := Prod.fst) hm.hasState (meas_post m) (Equiv.swap k j) ((swapClusters (Equiv.swap k j)).prodCongr (Equiv.refl _))
    (fun _ => rfl) fun d c hv => by
      unfold Kernel.post
      exact congrArg (fun o => o.getD 0) (posterior_swap hm (params (d, c)) hv (Equiv.swap k j)))
  have h := hT.measure_preimage (measurable_fst (MeasurableSet.of_discrete (s := {d : Disc K N F M | d.1 j n = true}))).nullMeasurableSet
  refine Eq.trans ?_ h
  congr 1
  ext x
  simp [swapClusters]

theorem same_share0 (hm : WellPosed m) (n : Fin N) (k j : Fin K) :
    target m id (post0 m) {x | x.1 k n = true} = target m id (post0 m) {x | x.1 j n = true} := by
  have hT := (target_swap (m := m) (clusters := id) hm.hasState (meas_post0 m) (Equiv.swap k j) (swapClusters (Equiv.swap k j))
    (fun _ => rfl) fun d c hv => by
      unfold post0
      exact congrArg (fun o => o.getD 0) (posterior_swap hm (params0 (d, c)) hv (Equiv.swap k j)))
  have h := hT.measure_preimage (measurable_fst (MeasurableSet.of_discrete (s := {d : Clus K N | d j n = true}))).nullMeasurableSet
  refine Eq.trans ?_ h
  congr 1
  ext x
  simp [swapClusters]

/-- **C115.** In the samples of a whole run, as long as their clusters are not matched, the fraction that has a given object in the cluster with
number `k` settles, for all numbers `k`, at the same value, which is at most `1 / K`. -/
theorem C115_unmatched_frequencies_agree (hm : WellPosed m) (hs : m.cfg.sampleSource = true) (hN : K * m.cl.minSize < N)
    (hadj : ∀ i j, m.cl.adj i j = m.cl.adj j i)
    (cfg : OpConfig) (ops : List (OpKind M × ℝ)) (hops : getOperators true M cfg = .ok ops) (hpos : ∀ o ∈ ops, 0 < o.2)
    (sz nChains warmSteps : ℕ) (hsz : 1 ≤ sz) (hlo : m.cl.minSize ≤ sz) (hhi : sz ≤ m.cl.maxSize) (hchains : 0 < nChains)
    (garbage : Fin N × Fin F → Fin (M + 1)) (rnd : Fin nChains → ℕ → ℕ) (rnd' : ℕ → ℕ) (blank : Fin nChains → State K N F S M nG)
    (hrnd : ∀ c, (initialClusters (m := 0) m.cl.adj (rnd c) sz (fun k => k.elim0) : Option (Clus K N)).isSome)
    (s : ℕ) (hs0 : 0 < s) (i : Fin N) :
    ∃ p : ℝ, 0 ≤ p ∧ p ≤ 1 / K ∧ ∀ (k : Fin K) (ε : ℝ), 0 < ε → ∀ δ : ℝ, 0 < δ →
      ∃ n0, ∀ n, 0 < n → ENNReal.ofReal (1 - δ) ≤
        (wholeRun m (normalizeOperatorWeights ops) sz nChains warmSteps garbage rnd rnd' blank s n).prob
          {l | ∀ r, n0 ≤ r → r ≤ l.length → |((l.take r).countP (fun x => x.1.1 k i) : ℝ) / (r : ℝ) - p| < ε} := by
  refine ⟨(target m Prod.fst (post m) {x | x.1.1 ⟨0, hm.hasCluster⟩ i = true}).toReal / (target m Prod.fst (post m) Set.univ).toReal,
    by positivity, share_le hm.hasCluster i (target_finite hm (meas_post m) fun d hd c hc => post_le hm hs hd hc).ne (fun k j => same_share hm i k j) _, fun k ε hε δ hδ => ?_⟩
  rw [same_share hm i ⟨0, hm.hasCluster⟩ k]
  exact C114_whole_run_frequencies_settle hm hs hN hadj cfg ops hops hpos sz nChains warmSteps hsz hlo hhi hchains garbage rnd rnd' blank hrnd s hs0
    (fun x => x.1.1 k i) (measurable_fst (MeasurableSet.of_discrete (s := {d : Disc K N F M | d.1 k i = true}))) ε hε δ hδ

/-- **C115.** The same for runs without sources. -/
theorem C115_unmatched_frequencies_agree_without_sources (hm : WellPosed m) (hs : m.cfg.sampleSource = false) (hmv : CanMove m)
    (hadj : ∀ i j, m.cl.adj i j = m.cl.adj j i)
    (cfg : OpConfig) (ops : List (OpKind M × ℝ)) (hops : getOperators false M cfg = .ok ops) (hpos : ∀ o ∈ ops, 0 < o.2)
    (sz nChains warmSteps : ℕ) (hsz : 1 ≤ sz) (hlo : m.cl.minSize ≤ sz) (hhi : sz ≤ m.cl.maxSize) (hchains : 0 < nChains)
    (rnd : Fin nChains → ℕ → ℕ) (rnd' : ℕ → ℕ) (blank : Fin nChains → State0 K N F S M nG)
    (hrnd : ∀ c, (initialClusters (m := 0) m.cl.adj (rnd c) sz (fun k => k.elim0) : Option (Clus K N)).isSome)
    (s : ℕ) (hs0 : 0 < s) (i : Fin N) :
    ∃ p : ℝ, 0 ≤ p ∧ p ≤ 1 / K ∧ ∀ (k : Fin K) (ε : ℝ), 0 < ε → ∀ δ : ℝ, 0 < δ →
      ∃ n0, ∀ n, 0 < n → ENNReal.ofReal (1 - δ) ≤
        (wholeRun0 m (normalizeOperatorWeights ops) sz nChains warmSteps rnd rnd' blank s n).prob
          {l | ∀ r, n0 ≤ r → r ≤ l.length → |((l.take r).countP (fun x => x.1 k i) : ℝ) / (r : ℝ) - p| < ε} := by
  refine ⟨(target m id (post0 m) {x | x.1 ⟨0, hm.hasCluster⟩ i = true}).toReal / (target m id (post0 m) Set.univ).toReal,
    by positivity, share_le (clusters := id) hm.hasCluster i (target_finite hm (meas_post0 m) (clusters := id) fun d hd c hc => post0_le hm hs hd hc).ne (fun k j => same_share0 hm i k j) _, fun k ε hε δ hδ => ?_⟩
  rw [same_share0 hm i ⟨0, hm.hasCluster⟩ k]
  exact C114_whole_run_frequencies_settle_without_sources hm hs hmv hadj cfg ops hops hpos sz nChains warmSteps hsz hlo hhi hchains rnd rnd' blank hrnd s hs0
    (fun x => x.1 k i) (measurable_fst (MeasurableSet.of_discrete (s := {d : Clus K N | d k i = true}))) ε hε δ hδ

/-- The requirements are met by a run with two clusters and five objects: each object is in each of the two clusters in at most half of the
samples, in the long run. -/
example : ∃ ops : List (OpKind 1 × ℝ),
    getOperators false 1 { clusters := 45, weights := 15, clusterEffect := 10, confoundingEffects := 10, source := 0 } = .ok ops ∧
    ∃ p : ℝ, 0 ≤ p ∧ p ≤ 1 / (2 : ℕ) ∧ ∀ (k : Fin 2) (ε : ℝ), 0 < ε → ∀ δ : ℝ, 0 < δ →
      ∃ n0, ∀ n, 0 < n → ENNReal.ofReal (1 - δ) ≤
        (wholeRun0 widerSetup (normalizeOperatorWeights ops) 1 3 10 (fun _ _ => 0) (fun _ => 0) (fun _ => widerState) 5 n).prob
          {l | ∀ r, n0 ≤ r → r ≤ l.length → |((l.take r).countP (fun x => x.1 k 3) : ℝ) / (r : ℝ) - p| < ε} := by
  refine ⟨_, rfl, C115_unmatched_frequencies_agree_without_sources widerSetup_wellPosed rfl widerSetup_canMove (fun _ _ => rfl)
    { clusters := 45, weights := 15, clusterEffect := 10, confoundingEffects := 10, source := 0 } _ rfl ?_ 1 3 10 le_rfl le_rfl
    (by norm_num [widerSetup]) (by norm_num) (fun _ _ => 0) (fun _ => 0) (fun _ => widerState) (fun _ => widerSetup_initial _) 5 (by norm_num) 3⟩
  intro o ho
  simp [List.finRange] at ho
  rcases ho with rfl | rfl | rfl | rfl <;> norm_num

/-- With sources: the run with one cluster and two objects, where all operators are in use. -/
example : ∃ ops : List (OpKind 1 × ℝ),
    getOperators true 1 { clusters := 45, weights := 15, clusterEffect := 10, confoundingEffects := 10, source := 10 } = .ok ops ∧
    ∃ p : ℝ, 0 ≤ p ∧ p ≤ 1 / (1 : ℕ) ∧ ∀ (k : Fin 1) (ε : ℝ), 0 < ε → ∀ δ : ℝ, 0 < δ →
      ∃ n0, ∀ n, 0 < n → ENNReal.ofReal (1 - δ) ≤
        (wholeRun (exampleSetup true) (normalizeOperatorWeights ops) 1 3 10 (fun _ => 0) (fun _ _ => 0) (fun _ => 0) (fun _ => exampleState) 5 n).prob
          {l | ∀ r, n0 ≤ r → r ≤ l.length → |((l.take r).countP (fun x => x.1.1 k 1) : ℝ) / (r : ℝ) - p| < ε} := by
  refine ⟨_, rfl, C115_unmatched_frequencies_agree (exampleSetup_wellPosed true) rfl (by simp [exampleSetup]) (fun _ _ => rfl)
    { clusters := 45, weights := 15, clusterEffect := 10, confoundingEffects := 10, source := 10 } _ rfl ?_ 1 3 10 le_rfl le_rfl le_rfl (by norm_num)
    (fun _ => 0) (fun _ _ => 0) (fun _ => 0) (fun _ => exampleState) (fun _ => exampleSetup_initial _) 5 (by norm_num) 1⟩
  intro o ho
  simp [List.finRange] at ho
  rcases ho with rfl | rfl | rfl | rfl | rfl | rfl <;> norm_num

/-- A posterior that is not zero, with two clusters, is the same after exchanging them. -/
example : (target widerSetup id (post0 widerSetup)).map
      (fun x => (fun k => x.1 (Equiv.swap 0 1 k), (x.2.1, fun k => x.2.2.1 (Equiv.swap 0 1 k), x.2.2.2))) = target widerSetup id (post0 widerSetup) ∧
    target widerSetup id (post0 widerSetup) Set.univ ≠ 0 := by
  refine ⟨C115_posterior_is_symmetric_without_sources widerSetup_wellPosed (Equiv.swap 0 1), ((C81_posterior_is_proper widerSetup_wellPosed ?_).2 rfl).1⟩
  refine ⟨fun k n => decide (n.val = k.val), ⟨?_, ?_, ?_⟩⟩
  · intro i j n hi hj
    simp only [decide_eq_true_eq] at hi hj
    exact Fin.ext (hi.symm.trans hj)
  · show ∀ k : Fin 2, 1 ≤ _
    decide
  · show ∀ k : Fin 2, _ ≤ 2
    decide

end SBayes.Kernel
