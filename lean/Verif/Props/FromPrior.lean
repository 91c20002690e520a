import Verif.Lemmas.FromPrior
import Verif.Props.Modes
/- C91: a run with `sample_from_prior` samples the prior. -/
namespace SBayes.Kernel
open SBayes.Lik SBayes.Clusters SBayes.MH SBayes.Effects SBayes.Posterior SBayes.Draws SBayes.Meas SBayes.MCMC SBayes.Prior MeasureTheory
open SBayes.Init
open Filter Topology
open scoped BigOperators ENNReal

variable {K N F S M : ℕ} {nG : Fin M → ℕ} {m : Setup K N F S M nG}

/-! ### With sources -/

theorem target_emptied (m : Setup K N F S M nG) : target (emptied m) Prod.fst (post (emptied m)) = target m Prod.fst (priorOnly m) := by
  rw [post_emptied]
  rfl

/-- **C91.** What a run with sources samples from the prior: the prior of the clusters, that of the confounding effects, and for each value
the probability of its source given the weights; nothing depends on the data. -/
theorem C91_density_with_sources (hm : WellPosed m) (hs : m.cfg.sampleSource = true) (z : Clus K N)
    (hz : Valid m.cl.minSize m.cl.maxSize z) (s : Fin N × Fin F → Fin (M + 1)) (c : Cont K F S M nG) :
    ∃ geo, geoTerm m.cfg.geo z = some geo ∧
      priorOnly m ((z, s), c) = Real.exp (sizePrior m.cfg.size z) * Real.exp geo *
        (∏ i, ∏ g, confEffectPrior m.cfg.app (m.cfg.conf i g) (c.2.2 i g)) *
        ∏ n, ∏ f, effectiveWeight c.1 (hasComponents m.d z) n f (s (n, f)) := by
  obtain ⟨geo, hgeo⟩ := Option.isSome_iff_exists.mp (hm.geo z hz)
  refine ⟨geo, hgeo, ?_⟩
  have h := post_eq (m := emptied m) (emptied_wellPosed hm) hs hz s c
  rw [post_emptied] at h
  rw [h]
  have h1 : ∀ n f, componentLh (emptied m).d c.2.1 c.2.2 z n f (s (n, f)) = 1 := fun n f => componentLh_empty _ _ _ _ _ _
  simp only [h1, Finset.prod_const_one, one_mul, effectiveWeight_eq]
  show clusterTerm m z * _ * _ = _
  simp only [clusterTerm, hgeo, Option.getD_some]
  rfl

/-- **C91.** With sources, the sampler leaves the prior invariant if it is told to sample from the prior. -/
theorem C91_leaves_prior_invariant (hm : WellPosed m) (hs : m.cfg.sampleSource = true) (cfg : OpConfig)
    (ops : List (OpKind M × ℝ)) (hops : getOperators true M cfg = .ok ops) (hnn : ∀ o ∈ ops, 0 ≤ o.2)
    (hpos : 0 < (ops.map Prod.snd).sum) (n : ℕ) :
    LeavesInvariant (target m Prod.fst (priorOnly m)) (run (chainStep (priorOnly m) (proposePrior m) (normalizeOperatorWeights ops)) n) := by
  rw [← target_emptied, ← post_emptied, ← propose_emptied]
  exact C80_sampler_leaves_posterior_invariant (emptied_wellPosed hm) hs cfg ops hops hnn hpos n

/-- **C91.** The prior is a proper distribution, and the only one with a density that this sampler leaves invariant. -/
theorem C91_prior_is_the_only_equilibrium (hm : WellPosed m) (hs : m.cfg.sampleSource = true) (hN : K * m.cl.minSize < N)
    (hv : ∃ z : Clus K N, Valid m.cl.minSize m.cl.maxSize z)
    (cfg : OpConfig) (ops : List (OpKind M × ℝ)) (hops : getOperators true M cfg = .ok ops) (hpos : ∀ o ∈ ops, 0 < o.2) :
    target m Prod.fst (priorOnly m) Set.univ ≠ 0 ∧ target m Prod.fst (priorOnly m) Set.univ ≠ ⊤ ∧
    ∀ P : Measure (Disc K N F M × Cont K F S M nG), IsProbabilityMeasure P → P ≪ target m Prod.fst (priorOnly m) →
      LeavesInvariant P (chainStep (priorOnly m) (proposePrior m) (normalizeOperatorWeights ops)) →
      P = (target m Prod.fst (priorOnly m) Set.univ)⁻¹ • target m Prod.fst (priorOnly m) := by
  rw [← target_emptied, ← post_emptied, ← propose_emptied]
  obtain ⟨h1, h2⟩ := (C81_posterior_is_proper (m := emptied m) (emptied_wellPosed hm) hv).1 hs
  exact ⟨h1, h2, fun P hP hac hinv =>
    C83_posterior_is_the_only_equilibrium (m := emptied m) (emptied_wellPosed hm) hs hN cfg ops hops hpos P hP hac hinv⟩

/-- **C91.** A run with sources that samples from the prior can be started from every state the model allows and continued for any number of
steps; all logged samples are states the model allows. -/
theorem C91_runs_from_any_start (hm : WellPosed m) (hs : m.cfg.sampleSource = true)
    (cfg : OpConfig) (ops : List (OpKind M × ℝ)) (hops : getOperators true M cfg = .ok ops) (hpos : ∀ o ∈ ops, 0 < o.2)
    (x : Disc K N F M × Cont K F S M nG) (hx : StartsWell m x) (s n : ℕ) :
    (sampleLoop (chainStep (priorOnly m) (proposePrior m) (normalizeOperatorWeights ops)) s n 0 x).prob
      {l | l.length = ((Finset.range n).filter fun i => i % s = 0).card ∧ ∀ y ∈ l, StartsWell m y} = 1 := by
  rw [← post_emptied, ← propose_emptied]
  have e : ∀ y, StartsWell (emptied m) y ↔ StartsWell m y := fun y => ⟨fun h => { h with }, fun h => { h with }⟩
  have := C88_runs_from_any_start (m := emptied m) (emptied_wellPosed hm) hs cfg ops hops hpos x ((e x).mpr hx) s n
  simpa only [e] using this

theorem priorRun (hm : WellPosed m) (hs : m.cfg.sampleSource = true)
    (hadj : ∀ i j, m.cl.adj i j = m.cl.adj j i)
    (cfg : OpConfig) (ops : List (OpKind M × ℝ)) (hops : getOperators true M cfg = .ok ops) (hpos : ∀ o ∈ ops, 0 < o.2)
    (sz nChains warmSteps : ℕ) (hsz : 1 ≤ sz) (hlo : m.cl.minSize ≤ sz) (hhi : sz ≤ m.cl.maxSize) (hchains : 0 < nChains)
    (garbage : Fin N × Fin F → Fin (M + 1)) (rnd : Fin nChains → ℕ → ℕ) (rnd' : ℕ → ℕ) (blank : Fin nChains → State K N F S M nG)
    (hrnd : ∀ c, (initialClusters (m := 0) m.cl.adj (rnd c) sz (fun k => k.elim0) : Option (Clus K N)).isSome) :
    (∃ z : Clus K N, Valid m.cl.minSize m.cl.maxSize z) ∧
    Lands (Live m) (Law.bind (warmUp (priorOnly m) (fun c => initialSamplePrior m sz garbage none (rnd c))
      (chainStep (priorOnly m) (proposePrior m) (normalizeOperatorWeights ops)) warmSteps blank) fun x =>
      initialSamplePrior m sz garbage (some x) rnd') := by
  have hval : ∀ c, ∃ z : Clus K N, initialClusters (m := 0) m.cl.adj (rnd c) sz (fun k => k.elim0) = some z ∧
      Valid m.cl.minSize m.cl.maxSize z := by
    intro c
    obtain ⟨z, hz⟩ := Option.isSome_iff_exists.mp (hrnd c)
    exact ⟨z, hz, C30_initial_clusters_valid _ hadj _ sz _ _ hsz hlo hhi z hz⟩
  refine ⟨(hval ⟨0, hchains⟩).imp fun z h => h.2, ?_⟩
  obtain ⟨hne, -⟩ := getOperators_source hops
  have hd := weights_dist (fun o ho => (hpos o ho).le) (total_pos hpos hne)
  obtain ⟨κ, hκ, hR⟩ := chain_rep (m := emptied m) (emptied_wellPosed hm) hs hd
  have hacts := hR.acts
  rw [post_emptied, propose_emptied] at hacts
  exact lands_startPrior hm hs hacts hchains sz warmSteps garbage rnd rnd' blank hval

/-- **C91.** A whole run with sources that samples from the prior: the average of any bounded function over the logged samples converges to
its prior mean, with probability tending to one, whatever the data are and however the run is started. -/
theorem C91_whole_run_converges (hm : WellPosed m) (hs : m.cfg.sampleSource = true) (hN : K * m.cl.minSize < N)
    (hadj : ∀ i j, m.cl.adj i j = m.cl.adj j i)
    (cfg : OpConfig) (ops : List (OpKind M × ℝ)) (hops : getOperators true M cfg = .ok ops) (hpos : ∀ o ∈ ops, 0 < o.2)
    (sz nChains warmSteps : ℕ) (hsz : 1 ≤ sz) (hlo : m.cl.minSize ≤ sz) (hhi : sz ≤ m.cl.maxSize) (hchains : 0 < nChains)
    (garbage : Fin N × Fin F → Fin (M + 1)) (rnd : Fin nChains → ℕ → ℕ) (rnd' : ℕ → ℕ) (blank : Fin nChains → State K N F S M nG)
    (hrnd : ∀ c, (initialClusters (m := 0) m.cl.adj (rnd c) sz (fun k => k.elim0) : Option (Clus K N)).isSome)
    (s : ℕ) (hs0 : 0 < s) (f : Disc K N F M × Cont K F S M nG → ℝ) (hf : Measurable f) (B : ℝ) (hB : ∀ x, |f x| ≤ B)
    (ε : ℝ) (hε : 0 < ε) :
    Tendsto (fun n : ℕ => (wholeRunPrior m (normalizeOperatorWeights ops) sz nChains warmSteps garbage rnd rnd' blank s n).prob
      {l | |(l.map f).sum / (l.length : ℝ) -
        (∫ y, f y ∂target m Prod.fst (priorOnly m)) / (target m Prod.fst (priorOnly m) Set.univ).toReal| < ε}) atTop (𝓝 1) := by
  obtain ⟨hv, P, hP, hP0, hPd⟩ := priorRun hm hs hadj cfg ops hops hpos sz nChains warmSteps hsz hlo hhi hchains garbage rnd rnd' blank hrnd
  obtain ⟨q, h1, h2, h3, h4⟩ := any_start (m := emptied m) (emptied_wellPosed hm) hs hN cfg ops hops hpos hv s hs0 f hf B hB ε hε
  rw [target_emptied, post_emptied, propose_emptied] at h3
  have hlim : Tendsto (fun n => ∫⁻ y, q n y ∂P) atTop (𝓝 (∫⁻ _, 1 ∂P)) :=
    tendsto_lintegral_of_dominated_convergence (fun _ => 1) h1 (fun n => ae_of_all _ (h2 n)) (by simp)
      ((ae_in hP0).mono fun y hy => h4 y hy)
  rw [lintegral_one, measure_univ] at hlim
  refine hlim.congr' ?_
  filter_upwards [eventually_gt_atTop 0] with n hn
  exact (hPd _ _ (h1 n) fun y hy => h3 n y hy hn).symm

/-- **C91.** A whole run with sources that samples from the prior does not fail once the initial clusters have been generated. -/
theorem C91_whole_run_succeeds (hm : WellPosed m) (hs : m.cfg.sampleSource = true)
    (hadj : ∀ i j, m.cl.adj i j = m.cl.adj j i)
    (cfg : OpConfig) (ops : List (OpKind M × ℝ)) (hops : getOperators true M cfg = .ok ops) (hpos : ∀ o ∈ ops, 0 < o.2)
    (sz nChains warmSteps : ℕ) (hsz : 1 ≤ sz) (hlo : m.cl.minSize ≤ sz) (hhi : sz ≤ m.cl.maxSize) (hchains : 0 < nChains)
    (garbage : Fin N × Fin F → Fin (M + 1)) (rnd : Fin nChains → ℕ → ℕ) (rnd' : ℕ → ℕ) (blank : Fin nChains → State K N F S M nG)
    (hrnd : ∀ c, (initialClusters (m := 0) m.cl.adj (rnd c) sz (fun k => k.elim0) : Option (Clus K N)).isSome) (s n : ℕ) :
    (wholeRunPrior m (normalizeOperatorWeights ops) sz nChains warmSteps garbage rnd rnd' blank s n).prob
      {l | l.length = ((Finset.range n).filter fun i => i % s = 0).card ∧ ∀ y ∈ l, StartsWell m y} = 1 := by
  obtain ⟨hv, P, hP, hP0, hPd⟩ := priorRun hm hs hadj cfg ops hops hpos sz nChains warmSteps hsz hlo hhi hchains garbage rnd rnd' blank hrnd
  refine (hPd _ (fun _ => 1) measurable_const fun y hy =>
    C91_runs_from_any_start hm hs cfg ops hops hpos y (startsWell_of_live hy) s n).trans ?_
  rw [lintegral_one, measure_univ]

/-! ### Without sources -/

theorem target0_emptied (hm : WellPosed m) : target (emptied m) id (post0 (emptied m)) = target m id (priorOnly0 m) := by
  refine Measure.ext fun B hB => ?_
  have hp : ∀ z, Measurable fun c => priorOnly0 m (z, c) := fun z => (priorOnly0_meas m).comp (measurable_const.prodMk measurable_id)
  rw [← lintegral_indicator_one hB, ← lintegral_indicator_one hB,
    lintegral_target (meas_post0 _) (measurable_one.indicator hB), lintegral_target hp (measurable_one.indicator hB)]
  refine Finset.sum_congr rfl fun z _ => ?_
  refine lintegral_congr_ae ((interior_ae hm.hasState).mono fun c hc => ?_)
  dsimp only
  congr 1
  by_cases hv : Valid m.cl.minSize m.cl.maxSize z
  · rw [dens_valid (m := m) (clusters := id) (d := z) hv, dens_valid (m := emptied m) (clusters := id) (d := z) hv,
      post0_emptied hm fun f i => (hc.w f).pos (Finset.mem_univ i)]
  · rw [dens_invalid (m := m) (clusters := id) (d := z) hv, dens_invalid (m := emptied m) (clusters := id) (d := z) hv]

/-- **C91.** What a run without sources samples from the prior: the prior of the clusters and that of the confounding effects. -/
theorem C91_density_without_sources (hm : WellPosed m) (hs : m.cfg.sampleSource = false) (z : Clus K N)
    (hz : Valid m.cl.minSize m.cl.maxSize z) (c : Cont K F S M nG) :
    ∃ geo, geoTerm m.cfg.geo z = some geo ∧
      priorOnly0 m (z, c) = Real.exp (sizePrior m.cfg.size z) * Real.exp geo *
        ∏ i, ∏ g, confEffectPrior m.cfg.app (m.cfg.conf i g) (c.2.2 i g) := by
  obtain ⟨geo, hgeo⟩ := Option.isSome_iff_exists.mp (hm.geo z hz)
  refine ⟨geo, hgeo, ?_⟩
  unfold priorOnly0 prior params0
  dsimp only
  rw [hgeo, hs]
  simp only [sourceTerm, Option.bind_eq_bind, Option.bind_some, Option.getD_some]
  ring

theorem chain0_prior_rep (hm : WellPosed m) (hs : m.cfg.sampleSource = false) (hF : 0 < F)
    (h2 : ∀ f, ∃ s s', s ≠ s' ∧ m.cfg.app f s = true ∧ m.cfg.app f s' = true)
    (cfg : OpConfig) (ops : List (OpKind M × ℝ)) (hops : getOperators false M cfg = .ok ops) (hnn : ∀ o ∈ ops, 0 ≤ o.2)
    (hpos : 0 < (ops.map Prod.snd).sum) :
    ∃ κ : ProbabilityTheory.Kernel (Clus K N × Cont K F S M nG) (Clus K N × Cont K F S M nG),
      RepOn (Live0 m) (chainStep (post0 (emptied m)) (propose0 (emptied m)) (normalizeOperatorWeights ops)) κ := by
  obtain ⟨κ, hκ, hR⟩ := chain0_rep (m := emptied m) (emptied_wellPosed hm) hs hF h2 (weights_dist hnn hpos) (noSource_normalized hops)
  exact ⟨κ, hR⟩

/-- **C91.** A run without sources that samples from the prior can be started from every state the model allows and continued for any number
of steps; all logged samples are states the model allows. -/
theorem C91_runs_from_any_start_without_sources (hm : WellPosed m) (hs : m.cfg.sampleSource = false) (hF : 0 < F)
    (h2 : ∀ f, ∃ s s', s ≠ s' ∧ m.cfg.app f s = true ∧ m.cfg.app f s' = true)
    (cfg : OpConfig) (ops : List (OpKind M × ℝ)) (hops : getOperators false M cfg = .ok ops) (hpos : ∀ o ∈ ops, 0 < o.2)
    (x : Clus K N × Cont K F S M nG) (hx : StartsWell0 m x) (s n : ℕ) :
    (sampleLoop (chainStep (priorOnly0 m) (propose0 m) (normalizeOperatorWeights ops)) s n 0 x).prob
      {l | l.length = ((Finset.range n).filter fun i => i % s = 0).card ∧ ∀ y ∈ l, StartsWell0 m y} = 1 := by
  obtain ⟨κ, hR⟩ := chain0_prior_rep hm hs hF h2 cfg ops hops (fun o ho => (hpos o ho).le) (total_pos hpos (getOperators_noSource hops).1)
  rw [loop_congr hR (fun y hy => chain0_emptied hm hy _) s n 0 x hx.live]
  have e : ∀ y, StartsWell0 (emptied m) y ↔ StartsWell0 m y := fun y => ⟨fun h => { h with }, fun h => { h with }⟩
  have := C90_runs_from_any_start (m := emptied m) (emptied_wellPosed hm) hs hF h2 cfg ops hops hpos x ((e x).mpr hx) s n
  simpa only [e] using this

theorem priorRun0 (hm : WellPosed m) (hs : m.cfg.sampleSource = false) (hF : 0 < F)
    (h2 : ∀ f, ∃ s s', s ≠ s' ∧ m.cfg.app f s = true ∧ m.cfg.app f s' = true)
    (hadj : ∀ i j, m.cl.adj i j = m.cl.adj j i)
    (cfg : OpConfig) (ops : List (OpKind M × ℝ)) (hops : getOperators false M cfg = .ok ops) (hpos : ∀ o ∈ ops, 0 < o.2)
    (sz nChains warmSteps : ℕ) (hsz : 1 ≤ sz) (hlo : m.cl.minSize ≤ sz) (hhi : sz ≤ m.cl.maxSize) (hchains : 0 < nChains)
    (rnd : Fin nChains → ℕ → ℕ) (rnd' : ℕ → ℕ) (blank : Fin nChains → State0 K N F S M nG)
    (hrnd : ∀ c, (initialClusters (m := 0) m.cl.adj (rnd c) sz (fun k => k.elim0) : Option (Clus K N)).isSome) :
    (∃ z : Clus K N, Valid m.cl.minSize m.cl.maxSize z) ∧
    Lands (Live0 m) (Law.bind (warmUp (priorOnly0 m) (fun c => initialSample0 m sz none (rnd c))
      (chainStep (priorOnly0 m) (propose0 m) (normalizeOperatorWeights ops)) warmSteps blank) fun x =>
      initialSample0 m sz (some x) rnd') := by
  have hval : ∀ c, ∃ z : Clus K N, initialClusters (m := 0) m.cl.adj (rnd c) sz (fun k => k.elim0) = some z ∧
      Valid m.cl.minSize m.cl.maxSize z := by
    intro c
    obtain ⟨z, hz⟩ := Option.isSome_iff_exists.mp (hrnd c)
    exact ⟨z, hz, C30_initial_clusters_valid _ hadj _ sz _ _ hsz hlo hhi z hz⟩
  refine ⟨(hval ⟨0, hchains⟩).imp fun z h => h.2, ?_⟩
  obtain ⟨hne, -⟩ := getOperators_noSource hops
  have hd := weights_dist (fun o ho => (hpos o ho).le) (total_pos hpos hne)
  obtain ⟨κ, hκ, hR⟩ := chain0_rep (m := emptied m) (emptied_wellPosed hm) hs hF h2 hd (noSource_normalized hops)
  exact lands_start0 hm (priorOnly0_meas m) (hR.acts.congr fun y hy => chain0_emptied hm hy _) hchains sz warmSteps rnd rnd' blank hval

/-- **C91.** A whole run without sources that samples from the prior: the average of any bounded function over the logged samples converges
to its prior mean, with probability tending to one, whatever the data are and however the run is started. -/
theorem C91_whole_run_converges_without_sources (hm : WellPosed m) (hs : m.cfg.sampleSource = false) (hf : CanMove m)
    (hadj : ∀ i j, m.cl.adj i j = m.cl.adj j i)
    (cfg : OpConfig) (ops : List (OpKind M × ℝ)) (hops : getOperators false M cfg = .ok ops) (hpos : ∀ o ∈ ops, 0 < o.2)
    (sz nChains warmSteps : ℕ) (hsz : 1 ≤ sz) (hlo : m.cl.minSize ≤ sz) (hhi : sz ≤ m.cl.maxSize) (hchains : 0 < nChains)
    (rnd : Fin nChains → ℕ → ℕ) (rnd' : ℕ → ℕ) (blank : Fin nChains → State0 K N F S M nG)
    (hrnd : ∀ c, (initialClusters (m := 0) m.cl.adj (rnd c) sz (fun k => k.elim0) : Option (Clus K N)).isSome)
    (s : ℕ) (hs0 : 0 < s) (f : Clus K N × Cont K F S M nG → ℝ) (hfm : Measurable f) (B : ℝ) (hB : ∀ x, |f x| ≤ B)
    (ε : ℝ) (hε : 0 < ε) :
    Tendsto (fun n : ℕ => (wholeRunPrior0 m (normalizeOperatorWeights ops) sz nChains warmSteps rnd rnd' blank s n).prob
      {l | |(l.map f).sum / (l.length : ℝ) -
        (∫ y, f y ∂target m id (priorOnly0 m)) / (target m id (priorOnly0 m) Set.univ).toReal| < ε}) atTop (𝓝 1) := by
  obtain ⟨hv, P, hP, hP0, hPd⟩ := priorRun0 hm hs hf.feature hf.twoStates hadj cfg ops hops hpos sz nChains warmSteps hsz hlo hhi hchains rnd rnd'
    blank hrnd
  obtain ⟨q, h1, h2, h3, h4⟩ := any_start0 (m := emptied m) (emptied_wellPosed hm) hs { hf with } cfg ops hops hpos hv s hs0 f hfm B hB ε hε
  rw [target0_emptied hm] at h3
  obtain ⟨κ, hR⟩ := chain0_prior_rep hm hs hf.feature hf.twoStates cfg ops hops (fun o ho => (hpos o ho).le)
    (total_pos hpos (getOperators_noSource hops).1)
  have hlim : Tendsto (fun n => ∫⁻ y, q n y ∂P) atTop (𝓝 (∫⁻ _, 1 ∂P)) :=
    tendsto_lintegral_of_dominated_convergence (fun _ => 1) h1 (fun n => ae_of_all _ (h2 n)) (by simp)
      ((ae_in hP0).mono fun y hy => h4 y hy)
  rw [lintegral_one, measure_univ] at hlim
  refine hlim.congr' ?_
  filter_upwards [eventually_gt_atTop 0] with n hn
  refine (hPd _ _ (h1 n) fun y hy => ?_).symm
  rw [← h3 n y hy hn, ← loop_congr hR (fun y hy => chain0_emptied hm hy _) s n 0 y hy]
  rfl

/-- **C91.** A whole run without sources that samples from the prior does not fail once the initial clusters have been generated. -/
theorem C91_whole_run_succeeds_without_sources (hm : WellPosed m) (hs : m.cfg.sampleSource = false) (hF : 0 < F)
    (h2 : ∀ f, ∃ s s', s ≠ s' ∧ m.cfg.app f s = true ∧ m.cfg.app f s' = true)
    (hadj : ∀ i j, m.cl.adj i j = m.cl.adj j i)
    (cfg : OpConfig) (ops : List (OpKind M × ℝ)) (hops : getOperators false M cfg = .ok ops) (hpos : ∀ o ∈ ops, 0 < o.2)
    (sz nChains warmSteps : ℕ) (hsz : 1 ≤ sz) (hlo : m.cl.minSize ≤ sz) (hhi : sz ≤ m.cl.maxSize) (hchains : 0 < nChains)
    (rnd : Fin nChains → ℕ → ℕ) (rnd' : ℕ → ℕ) (blank : Fin nChains → State0 K N F S M nG)
    (hrnd : ∀ c, (initialClusters (m := 0) m.cl.adj (rnd c) sz (fun k => k.elim0) : Option (Clus K N)).isSome) (s n : ℕ) :
    (wholeRunPrior0 m (normalizeOperatorWeights ops) sz nChains warmSteps rnd rnd' blank s n).prob
      {l | l.length = ((Finset.range n).filter fun i => i % s = 0).card ∧ ∀ y ∈ l, StartsWell0 m y} = 1 := by
  obtain ⟨hv, P, hP, hP0, hPd⟩ := priorRun0 hm hs hF h2 hadj cfg ops hops hpos sz nChains warmSteps hsz hlo hhi hchains rnd rnd' blank hrnd
  refine (hPd _ (fun _ => 1) measurable_const fun y hy =>
    C91_runs_from_any_start_without_sources hm hs hF h2 cfg ops hops hpos y (startsWell0_of_live hy) s n).trans ?_
  rw [lintegral_one, measure_univ]

/-! ### What the samples look like -/

theorem marginal_prior (hm : WellPosed m) (hs : m.cfg.sampleSource = true) (B : Set (Clus K N × Cont K F S M nG)) (hB : MeasurableSet B) :
    target m Prod.fst (priorOnly m) {x | (x.1.1, x.2) ∈ B} =
      target (withSampling m false) id (priorOnly0 (withSampling m false)) B := by
  have h := C92_same_posterior (emptied_wellPosed hm) B hB
  have e1 : withSampling (emptied m) true = emptied m := by
    rcases m with ⟨d, ⟨app, conf, size, geo, src⟩, cl, clO, cfO, e, fl⟩
    cases hs
    rfl
  have e2 : withSampling (emptied m) false = emptied (withSampling m false) := rfl
  rw [e1, e2, target_emptied, target0_emptied (withSampling_wellPosed hm false)] at h
  exact h

/-- The normalising constant of the confounding effects. -/
noncomputable def confMass (m : Setup K N F S M nG) : ℝ≥0∞ :=
  ∫⁻ c, ENNReal.ofReal (∏ i, ∏ g, confEffectPrior m.cfg.app (m.cfg.conf i g) (c.2.2 i g)) ∂(contRef m.cfg.app : Measure (Cont K F S M nG))

theorem priorOnly0_eq (hm : WellPosed m) (hs : m.cfg.sampleSource = false) {z : Clus K N} (hz : Valid m.cl.minSize m.cl.maxSize z)
    (c : Cont K F S M nG) :
    priorOnly0 m (z, c) = clusterTerm m z * ∏ i, ∏ g, confEffectPrior m.cfg.app (m.cfg.conf i g) (c.2.2 i g) := by
  obtain ⟨geo, hg, h⟩ := C91_density_without_sources hm hs z hz c
  rw [h, clusterTerm, hg]
  rfl

/-- **C91.** Under the prior, the clusters are independent of weights and effects (without sources): the probability of clusters `z` and
weights and effects in `B` is a product. -/
theorem C91_clusters_are_independent_of_effects (hm : WellPosed m) (hs : m.cfg.sampleSource = false) (z : Clus K N)
    (hz : Valid m.cl.minSize m.cl.maxSize z) (B : Set (Cont K F S M nG)) (hB : MeasurableSet B) :
    ∃ geo, geoTerm m.cfg.geo z = some geo ∧
      target m id (priorOnly0 m) {x | x.1 = z ∧ x.2 ∈ B} = ENNReal.ofReal (Real.exp (sizePrior m.cfg.size z) * Real.exp geo) *
        ∫⁻ c in B, ENNReal.ofReal (∏ i, ∏ g, confEffectPrior m.cfg.app (m.cfg.conf i g) (c.2.2 i g)) ∂contRef m.cfg.app := by
  classical
  obtain ⟨geo, hg⟩ := Option.isSome_iff_exists.mp (hm.geo z hz)
  refine ⟨geo, hg, ?_⟩
  have hct : clusterTerm m z = Real.exp (sizePrior m.cfg.size z) * Real.exp geo := by
    rw [clusterTerm, hg]
    rfl
  have hmeas : MeasurableSet {x : Clus K N × Cont K F S M nG | x.1 = z ∧ x.2 ∈ B} :=
    (measurable_fst (measurableSet_singleton z)).inter (measurable_snd hB)
  have hp : ∀ z, Measurable fun c => priorOnly0 m (z, c) := fun z => (priorOnly0_meas m).comp (measurable_const.prodMk measurable_id)
  rw [← lintegral_indicator_one hmeas, lintegral_target hp (measurable_one.indicator hmeas), Finset.sum_eq_single z]
  · rw [← lintegral_const_mul' _ _ ENNReal.ofReal_ne_top, ← lintegral_indicator hB]
    refine lintegral_congr fun c => ?_
    rw [dens_valid (m := m) (clusters := id) (d := z) hz, priorOnly0_eq hm hs hz, hct, ENNReal.ofReal_mul (by positivity)]
    by_cases hc : c ∈ B
    · rw [Set.indicator_of_mem (show (z, c) ∈ {x : Clus K N × Cont K F S M nG | x.1 = z ∧ x.2 ∈ B} from ⟨rfl, hc⟩), Set.indicator_of_mem hc]
      simp
    · rw [Set.indicator_of_notMem (show (z, c) ∉ {x : Clus K N × Cont K F S M nG | x.1 = z ∧ x.2 ∈ B} from fun h => hc h.2),
        Set.indicator_of_notMem hc]
      simp
  · intro z' _ hne
    rw [lintegral_eq_zero_iff (by
      exact (measurable_dens hp z').mul ((measurable_one.indicator hmeas).comp (measurable_const.prodMk measurable_id)))]
    refine ae_of_all _ fun c => ?_
    show dens m id (priorOnly0 m) z' c * _ = 0
    rw [Set.indicator_of_notMem (show (z', c) ∉ {x : Clus K N × Cont K F S M nG | x.1 = z ∧ x.2 ∈ B} from fun h => hne h.1), mul_zero]
  · exact fun h => absurd (Finset.mem_univ z) h

open Classical in
/-- The probability of clusters under the prior: proportional to the exponential of size prior plus geo-prior, among the assignments within
the constraints. -/
noncomputable def clusterPrior (m : Setup K N F S M nG) (z : Clus K N) : ℝ :=
  (if Valid m.cl.minSize m.cl.maxSize z then Real.exp (sizePrior m.cfg.size z + (geoTerm m.cfg.geo z).getD 0) else 0) /
    ∑ z' : Clus K N, if Valid m.cl.minSize m.cl.maxSize z' then Real.exp (sizePrior m.cfg.size z' + (geoTerm m.cfg.geo z').getD 0) else 0

theorem mass_of_clusters (hm : WellPosed m) (hs : m.cfg.sampleSource = false) (hv : ∃ z : Clus K N, Valid m.cl.minSize m.cl.maxSize z)
    (z : Clus K N) :
    (target m id (priorOnly0 m) {x | x.1 = z}).toReal / (target m id (priorOnly0 m) Set.univ).toReal = clusterPrior m z := by
  classical
  have hp : ∀ z, Measurable fun c => priorOnly0 m (z, c) := fun z => (priorOnly0_meas m).comp (measurable_const.prodMk measurable_id)
  have hone : ∀ z : Clus K N, target m id (priorOnly0 m) {x | x.1 = z} =
      ENNReal.ofReal (if Valid m.cl.minSize m.cl.maxSize z then Real.exp (sizePrior m.cfg.size z + (geoTerm m.cfg.geo z).getD 0) else 0) *
        confMass m := by
    intro z
    by_cases hz : Valid m.cl.minSize m.cl.maxSize z
    · obtain ⟨geo, hg, h⟩ := C91_clusters_are_independent_of_effects hm hs z hz Set.univ MeasurableSet.univ
      rw [if_pos hz, hg, Option.getD_some, Real.exp_add, confMass, ← Measure.restrict_univ (μ := contRef m.cfg.app), ← h]
      simp
    · rw [if_neg hz, ENNReal.ofReal_zero, zero_mul]
      have hmeas : MeasurableSet {x : Clus K N × Cont K F S M nG | x.1 = z} := measurable_fst (measurableSet_singleton z)
      rw [← lintegral_indicator_one hmeas, lintegral_target hp (measurable_one.indicator hmeas)]
      refine Finset.sum_eq_zero fun z' _ => ?_
      rw [lintegral_eq_zero_iff (by
        exact (measurable_dens hp z').mul ((measurable_one.indicator hmeas).comp (measurable_const.prodMk measurable_id)))]
      refine ae_of_all _ fun c => ?_
      show dens m id (priorOnly0 m) z' c * _ = 0
      by_cases he : z' = z
      · rw [he, dens_invalid (m := m) (clusters := id) (d := z) hz, zero_mul]
      · rw [Set.indicator_of_notMem (show (z', c) ∉ {x : Clus K N × Cont K F S M nG | x.1 = z} from he), mul_zero]
  have htot : target m id (priorOnly0 m) Set.univ = ∑ z : Clus K N, target m id (priorOnly0 m) {x | x.1 = z} := by
    rw [← measure_biUnion_finset]
    · congr 1
      ext x
      simp
    · intro z _ z' _ hne
      exact Set.disjoint_left.mpr fun x h1 h2 => hne (h1.symm.trans h2)
    · exact fun z _ => measurable_fst (measurableSet_singleton z)
  obtain ⟨h0, h1⟩ := (C81_posterior_is_proper (m := emptied m) (emptied_wellPosed hm) hv).2 hs
  rw [target0_emptied hm] at h0 h1
  have hnn : ∀ z : Clus K N, 0 ≤ if Valid m.cl.minSize m.cl.maxSize z then Real.exp (sizePrior m.cfg.size z + (geoTerm m.cfg.geo z).getD 0) else 0 :=
    fun z => by split <;> positivity
  have htot' : target m id (priorOnly0 m) Set.univ = ENNReal.ofReal (∑ z : Clus K N, if Valid m.cl.minSize m.cl.maxSize z then
      Real.exp (sizePrior m.cfg.size z + (geoTerm m.cfg.geo z).getD 0) else 0) * confMass m := by
    rw [htot, ENNReal.ofReal_sum_of_nonneg fun z _ => hnn z, Finset.sum_mul]
    exact Finset.sum_congr rfl fun z _ => hone z
  have hc0 : confMass m ≠ 0 := fun h => h0 (by rw [htot', h, mul_zero])
  have hc1 : confMass m ≠ ⊤ := fun h => h1 (by
    rw [htot', h, ENNReal.mul_top]
    intro h'
    exact h0 (by rw [htot', h', zero_mul]))
  rw [hone, htot', ENNReal.toReal_mul, ENNReal.toReal_mul, ENNReal.toReal_ofReal (hnn z),
    ENNReal.toReal_ofReal (Finset.sum_nonneg fun z _ => hnn z), clusterPrior]
  have hc : (confMass m).toReal ≠ 0 := (ENNReal.toReal_pos hc0 hc1).ne'
  rw [mul_div_mul_right _ _ hc]

theorem count_mean {X : Type} (Q : X → Bool) (l : List X) : (l.map fun x => if Q x = true then (1 : ℝ) else 0).sum = (l.countP Q : ℝ) := by
  induction l with
  | nil => simp
  | cons x l ih =>
    rw [List.map_cons, List.sum_cons, ih, List.countP_cons]
    split <;> simp [add_comm]

theorem mean_count {X : Type} [MeasurableSpace X] (μ : Measure X) (Q : X → Bool) (hQ : MeasurableSet {x | Q x = true}) :
    ∫ y, (if Q y = true then (1 : ℝ) else 0) ∂μ = (μ {x | Q x = true}).toReal := by
  have : (fun y => if Q y = true then (1 : ℝ) else 0) = Set.indicator {x | Q x = true} (1 : X → ℝ) := by
    funext y
    by_cases hy : Q y = true <;> simp [hy]
  rw [this, integral_indicator_one hQ]
  rfl

/-- **C91.** In a run without sources that samples from the prior, how often clusters `z` are logged converges to their prior probability,
which is proportional to `exp (size prior + geo-prior)`, whatever the data are. -/
theorem C91_cluster_frequencies_without_sources (hm : WellPosed m) (hs : m.cfg.sampleSource = false) (hf : CanMove m)
    (hadj : ∀ i j, m.cl.adj i j = m.cl.adj j i)
    (cfg : OpConfig) (ops : List (OpKind M × ℝ)) (hops : getOperators false M cfg = .ok ops) (hpos : ∀ o ∈ ops, 0 < o.2)
    (sz nChains warmSteps : ℕ) (hsz : 1 ≤ sz) (hlo : m.cl.minSize ≤ sz) (hhi : sz ≤ m.cl.maxSize) (hchains : 0 < nChains)
    (rnd : Fin nChains → ℕ → ℕ) (rnd' : ℕ → ℕ) (blank : Fin nChains → State0 K N F S M nG)
    (hrnd : ∀ c, (initialClusters (m := 0) m.cl.adj (rnd c) sz (fun k => k.elim0) : Option (Clus K N)).isSome)
    (s : ℕ) (hs0 : 0 < s) (z : Clus K N) (ε : ℝ) (hε : 0 < ε) :
    Tendsto (fun n : ℕ => (wholeRunPrior0 m (normalizeOperatorWeights ops) sz nChains warmSteps rnd rnd' blank s n).prob
      {l | |(l.countP (fun x => decide (x.1 = z)) : ℝ) / (l.length : ℝ) - clusterPrior m z| < ε}) atTop (𝓝 1) := by
  have hset : {x : Clus K N × Cont K F S M nG | decide (x.1 = z) = true} = {x | x.1 = z} := by simp
  have hQ : MeasurableSet {x : Clus K N × Cont K F S M nG | decide (x.1 = z) = true} := by
    rw [hset]
    exact measurable_fst (measurableSet_singleton z)
  have hmeas : Measurable fun x : Clus K N × Cont K F S M nG => if decide (x.1 = z) = true then (1 : ℝ) else 0 :=
    Measurable.ite hQ measurable_const measurable_const
  have h := C91_whole_run_converges_without_sources hm hs hf hadj cfg ops hops hpos sz nChains warmSteps hsz hlo hhi hchains rnd rnd' blank hrnd
    s hs0 _ hmeas 1 (fun x => by split <;> simp) ε hε
  have hv := (priorRun0 hm hs hf.feature hf.twoStates hadj cfg ops hops hpos sz nChains warmSteps hsz hlo hhi hchains rnd rnd' blank hrnd).1
  rw [mean_count _ _ hQ, hset, mass_of_clusters hm hs hv z] at h
  simp only [count_mean] at h
  exact h

/-- **C91.** In a run with sources that samples from the prior, how often clusters `z` are logged converges to the same prior probability. -/
theorem C91_cluster_frequencies (hm : WellPosed m) (hs : m.cfg.sampleSource = true) (hN : K * m.cl.minSize < N)
    (hadj : ∀ i j, m.cl.adj i j = m.cl.adj j i)
    (cfg : OpConfig) (ops : List (OpKind M × ℝ)) (hops : getOperators true M cfg = .ok ops) (hpos : ∀ o ∈ ops, 0 < o.2)
    (sz nChains warmSteps : ℕ) (hsz : 1 ≤ sz) (hlo : m.cl.minSize ≤ sz) (hhi : sz ≤ m.cl.maxSize) (hchains : 0 < nChains)
    (garbage : Fin N × Fin F → Fin (M + 1)) (rnd : Fin nChains → ℕ → ℕ) (rnd' : ℕ → ℕ) (blank : Fin nChains → State K N F S M nG)
    (hrnd : ∀ c, (initialClusters (m := 0) m.cl.adj (rnd c) sz (fun k => k.elim0) : Option (Clus K N)).isSome)
    (s : ℕ) (hs0 : 0 < s) (z : Clus K N) (ε : ℝ) (hε : 0 < ε) :
    Tendsto (fun n : ℕ => (wholeRunPrior m (normalizeOperatorWeights ops) sz nChains warmSteps garbage rnd rnd' blank s n).prob
      {l | |(l.countP (fun x => decide (x.1.1 = z)) : ℝ) / (l.length : ℝ) - clusterPrior m z| < ε}) atTop (𝓝 1) := by
  have hset : {x : Disc K N F M × Cont K F S M nG | decide (x.1.1 = z) = true} = {x | x.1.1 = z} := by simp
  have hQ : MeasurableSet {x : Disc K N F M × Cont K F S M nG | decide (x.1.1 = z) = true} := by
    rw [hset]
    exact (measurable_fst.comp measurable_fst) (measurableSet_singleton z)
  have hmeas : Measurable fun x : Disc K N F M × Cont K F S M nG => if decide (x.1.1 = z) = true then (1 : ℝ) else 0 :=
    Measurable.ite hQ measurable_const measurable_const
  have h := C91_whole_run_converges hm hs hN hadj cfg ops hops hpos sz nChains warmSteps hsz hlo hhi hchains garbage rnd rnd' blank hrnd
    s hs0 _ hmeas 1 (fun x => by split <;> simp) ε hε
  have hv := (priorRun hm hs hadj cfg ops hops hpos sz nChains warmSteps hsz hlo hhi hchains garbage rnd rnd' blank hrnd).1
  have e1 := marginal_prior hm hs {x | x.1 = z} (measurable_fst (measurableSet_singleton z))
  have e2 := marginal_prior hm hs Set.univ MeasurableSet.univ
  have e3 : {x : Disc K N F M × Cont K F S M nG | (x.1.1, x.2) ∈ (Set.univ : Set (Clus K N × Cont K F S M nG))} = Set.univ :=
    Set.eq_univ_of_forall fun _ => trivial
  rw [e3] at e2
  have e4 : {x : Disc K N F M × Cont K F S M nG | (x.1.1, x.2) ∈ ({x | x.1 = z} : Set (Clus K N × Cont K F S M nG))} = {x | x.1.1 = z} := rfl
  rw [e4] at e1
  rw [mean_count _ _ hQ, hset, e1, e2, mass_of_clusters (m := withSampling m false) (withSampling_wellPosed hm false) rfl hv z] at h
  simp only [count_mean] at h
  exact h

/-- **C91.** The prior probabilities of the clusters form a distribution on the assignments within the constraints. -/
theorem C91_cluster_prior_is_a_distribution (hv : ∃ z : Clus K N, Valid m.cl.minSize m.cl.maxSize z) :
    ∑ z, clusterPrior m z = 1 ∧ ∀ z, (Valid m.cl.minSize m.cl.maxSize z → 0 < clusterPrior m z) ∧
      (¬ Valid m.cl.minSize m.cl.maxSize z → clusterPrior m z = 0) := by
  classical
  obtain ⟨z0, hz0⟩ := hv
  have hnn : ∀ z : Clus K N, 0 ≤ if Valid m.cl.minSize m.cl.maxSize z then Real.exp (sizePrior m.cfg.size z + (geoTerm m.cfg.geo z).getD 0) else 0 :=
    fun z => by split <;> positivity
  have hpos : 0 < ∑ z : Clus K N, if Valid m.cl.minSize m.cl.maxSize z then Real.exp (sizePrior m.cfg.size z + (geoTerm m.cfg.geo z).getD 0) else 0 :=
    Finset.sum_pos' (fun z _ => hnn z) ⟨z0, Finset.mem_univ _, by rw [if_pos hz0]; positivity⟩
  refine ⟨?_, fun z => ⟨fun hz => ?_, fun hz => ?_⟩⟩
  · unfold clusterPrior
    rw [← Finset.sum_div, div_self hpos.ne']
  · unfold clusterPrior
    rw [if_pos hz]
    exact div_pos (Real.exp_pos _) hpos
  · unfold clusterPrior
    rw [if_neg hz, zero_div]

/-- The requirements are met by a run with two clusters and five objects, where all operators are in use in both modes. -/
example : ∃ ops ops0 : List (OpKind 1 × ℝ), WellPosed (withSampling widerSetup true) ∧ CanMove widerSetup ∧
    (∀ i j, widerSetup.cl.adj i j = widerSetup.cl.adj j i) ∧ (withSampling widerSetup true).cfg.sampleSource = true ∧
    getOperators true 1 { clusters := 45, weights := 15, clusterEffect := 10, confoundingEffects := 10, source := 10 } = .ok ops ∧
    getOperators false 1 { clusters := 45, weights := 15, clusterEffect := 10, confoundingEffects := 10, source := 10 } = .ok ops0 ∧
    (∀ o ∈ ops, 0 < o.2) ∧ (∀ o ∈ ops0, 0 < o.2) ∧ widerSetup.cl.minSize ≤ 1 ∧ 1 ≤ widerSetup.cl.maxSize ∧
    ∀ rnd, (initialClusters (m := 0) widerSetup.cl.adj rnd 1 (fun k => k.elim0) : Option (Clus 2 5)).isSome := by
  refine ⟨_, _, withSampling_wellPosed widerSetup_wellPosed true, widerSetup_canMove, fun _ _ => rfl, rfl, rfl, rfl, ?_, ?_, le_rfl, by norm_num [widerSetup],
    widerSetup_initial⟩
  · intro o ho
    simp [List.finRange] at ho
    rcases ho with rfl | rfl | rfl | rfl | rfl | rfl <;> norm_num
  · intro o ho
    simp [List.finRange] at ho
    rcases ho with rfl | rfl | rfl | rfl <;> norm_num

end SBayes.Kernel
