import Verif.Lemmas.ChainOn0
import Verif.Lemmas.WholeRun
import Verif.Props.Start
/- C90: convergence without source sampling, from every possible initial state, and for a whole run. -/
namespace SBayes.Kernel
open SBayes.Lik SBayes.Clusters SBayes.MH SBayes.Effects SBayes.Posterior SBayes.Draws SBayes.Meas SBayes.MCMC SBayes.Prior MeasureTheory
open SBayes.Init
open Filter Topology
open scoped BigOperators ENNReal

variable {K N F S M : ℕ} {nG : Fin M → ℕ} {m : Setup K N F S M nG}

theorem StartsWell0.live {x : Clus K N × Cont K F S M nG} (h : StartsWell0 m x) : x ∈ Live0 m := by
  refine ⟨h.clusters, ⟨fun f => ?_, fun k f => (h.effects k f).row, fun i g f => (h.confEffects i g f).row⟩⟩
  have := (h.weights f).row
  simpa using this

theorem startsWell0_of_live {x : Clus K N × Cont K F S M nG} (h : x ∈ Live0 m) : StartsWell0 m x where
  clusters := h.1
  weights f := ⟨fun i _ => (h.2.w f).pos (Finset.mem_univ i), (fun i hi => by cases hi), (h.2.w f).2⟩
  effects k f := ⟨fun i hi => (h.2.e k f).pos (by simp [states, hi]), fun i hi => by
    have := (h.2.e k f).1 i
    rwa [if_neg (by simp [states, hi])] at this, (h.2.e k f).2⟩
  confEffects c g f := ⟨fun i hi => (h.2.ce c g f).pos (by simp [states, hi]), fun i hi => by
    have := (h.2.ce c g f).1 i
    rwa [if_neg (by simp [states, hi])] at this, (h.2.ce c g f).2⟩

/-- **C90.** Whatever state a run without sources is started from (as long as the model allows it): it can be continued for any number `n`
of steps without an exception, logs one sample every `s` steps, and every logged sample is a state from which a run could be started. -/
theorem C90_runs_from_any_start (hm : WellPosed m) (hs : m.cfg.sampleSource = false) (hF : 0 < F)
    (h2 : ∀ f, ∃ s s', s ≠ s' ∧ m.cfg.app f s = true ∧ m.cfg.app f s' = true)
    (cfg : OpConfig) (ops : List (OpKind M × ℝ)) (hops : getOperators false M cfg = .ok ops) (hpos : ∀ o ∈ ops, 0 < o.2)
    (x : Clus K N × Cont K F S M nG) (hx : StartsWell0 m x) (s n : ℕ) :
    (sampleLoop (chainStep (post0 m) (propose0 m) (normalizeOperatorWeights ops)) s n 0 x).prob
      {l | l.length = ((Finset.range n).filter fun i => i % s = 0).card ∧ ∀ y ∈ l, StartsWell0 m y} = 1 := by
  obtain ⟨hne, -⟩ := getOperators_noSource hops
  have hd := weights_dist (fun o ho => (hpos o ho).le) (total_pos hpos hne)
  obtain ⟨κ, hκ, hR⟩ := chain0_rep hm hs hF h2 hd (noSource_normalized hops)
  refine loop_event hR s n 0 _ (fun l hl hlen => ?_) x hx.live
  refine Set.indicator_of_mem (a := l) ?_ 1
  simp only [Nat.zero_add] at hlen
  exact ⟨by rw [hlen, Nat.count_eq_card_filter_range], fun y hy => startsWell0_of_live (hl y hy)⟩

theorem any_start0 (hm : WellPosed m) (hs : m.cfg.sampleSource = false) (hf : CanMove m)
    (cfg : OpConfig) (ops : List (OpKind M × ℝ)) (hops : getOperators false M cfg = .ok ops) (hpos : ∀ o ∈ ops, 0 < o.2)
    (hv : ∃ z : Clus K N, Valid m.cl.minSize m.cl.maxSize z)
    (s : ℕ) (hs0 : 0 < s) (f : Clus K N × Cont K F S M nG → ℝ) (hfm : Measurable f) (B : ℝ) (hB : ∀ x, |f x| ≤ B) (ε : ℝ) (hε : 0 < ε) :
    ∃ q : ℕ → Clus K N × Cont K F S M nG → ℝ≥0∞, (∀ n, Measurable (q n)) ∧ (∀ n x, q n x ≤ 1) ∧
      (∀ n, ∀ x ∈ Live0 m, 0 < n → (sampleLoop (chainStep (post0 m) (propose0 m) (normalizeOperatorWeights ops)) s n 0 x).prob
        {l | |(l.map f).sum / (l.length : ℝ) -
          (∫ y, f y ∂target m id (post0 m)) / (target m id (post0 m) Set.univ).toReal| < ε} = q n x) ∧
      ∀ x ∈ Live0 m, Tendsto (fun n => q n x) atTop (𝓝 1) := by
  obtain ⟨hne, -, -, ⟨o, ho, hw⟩, ⟨o', ho', he⟩, hce⟩ := getOperators_noSource hops
  have ht := total_pos hpos hne
  have hd := weights_dist (fun o ho => (hpos o ho).le) ht
  have hn := noSource_normalized hops
  have hfin := target0_finite hm hs
  have h0 := ((C81_posterior_is_proper hm hv).2 hs).1
  have hk := keeps_chain0 hm hs hf.feature hf.twoStates hd hn
  obtain ⟨κ', hκ', hR'⟩ := chain0_kernel hm hs hf.feature hf.twoStates hd hn
  obtain ⟨κ, hκ, hR⟩ := chain0_rep hm hs hf.feature hf.twoStates hd hn
  have hmem : ∀ op : OpKind M, (∃ o ∈ ops, o.1 = op) → ∃ p, 0 < p ∧ (op, p) ∈ normalizeOperatorWeights ops := by
    rintro op ⟨o, ho, rfl⟩
    exact ⟨_, div_pos (hpos o ho) ht, List.mem_map.mpr ⟨o, ho, rfl⟩⟩
  have hno := chain0_noEscape hm hs hf.feature hf.twoStates hd hn (hmem _ ⟨o, ho, hw⟩) (hmem _ ⟨o', ho', he⟩) (fun a => hmem _ (hce a)) hR
  have hL := live0_meas m
  have htriv : ∀ A, MeasurableSet A → Splits (target m id (post0 m)) (run (chainStep (post0 m) (propose0 m) (normalizeOperatorWeights ops)) s) A →
      (∀ᵐ x ∂target m id (post0 m), x ∈ A) ∨ ∀ᵐ x ∂target m id (post0 m), x ∉ A := by
    intro A hA hsp
    refine chain0_triv hm hs hf hops hpos hA (splits_of_run_recalls hR' hk (fun Z hZ => ?_) hs0 hA hsp)
    obtain ⟨p, hp, hmem⟩ := hmem _ ⟨o, ho, hw⟩
    exact chain0_recalls hm hs hf.feature hmem hp hZ
  refine ⟨fun n x => ∫⁻ y, near (kpow κ s) f ((∫ y, f y ∂target m id (post0 m)) / (target m id (post0 m) Set.univ).toReal) ε
    ((n - 1) / s) y ∂κ x, fun n => ?_, fun n x => ?_, fun n x hx hn => loop_all hL hR hs0 hfm _ ε hn x hx, fun x hx => ?_⟩
  · exact Measurable.lintegral_kernel (near_meas hfm _ ε _)
  · calc _ ≤ ∫⁻ y, 1 ∂κ x := lintegral_mono fun y => near_le hfm _ ε _ y
      _ = 1 := by rw [lintegral_one, measure_univ]
  · exact (lln_on h0 hk hL (live0_ae hm hs) hR hno hs0 htriv ⟨hfm, hB⟩ hε x hx).comp (div_tendsto hs0)

/-- **C90.** Without sources, and from every single state that the model allows (not only from almost every one): the longer the run, the
closer is the average of any bounded function over the logged samples to its posterior mean, with probability tending to one. -/
theorem C90_averages_converge_from_any_start (hm : WellPosed m) (hs : m.cfg.sampleSource = false) (hf : CanMove m)
    (cfg : OpConfig) (ops : List (OpKind M × ℝ)) (hops : getOperators false M cfg = .ok ops) (hpos : ∀ o ∈ ops, 0 < o.2)
    (x : Clus K N × Cont K F S M nG) (hx : StartsWell0 m x)
    (s : ℕ) (hs0 : 0 < s) (f : Clus K N × Cont K F S M nG → ℝ) (hfm : Measurable f) (B : ℝ) (hB : ∀ x, |f x| ≤ B)
    (ε : ℝ) (hε : 0 < ε) :
    Tendsto (fun n : ℕ => (sampleLoop (chainStep (post0 m) (propose0 m) (normalizeOperatorWeights ops)) s n 0 x).prob
      {l | |(l.map f).sum / (l.length : ℝ) -
        (∫ y, f y ∂target m id (post0 m)) / (target m id (post0 m) Set.univ).toReal| < ε}) atTop (𝓝 1) := by
  obtain ⟨q, -, -, h3, h4⟩ := any_start0 hm hs hf cfg ops hops hpos ⟨_, hx.clusters⟩ s hs0 f hfm B hB ε hε
  refine (h4 x hx.live).congr' ?_
  filter_upwards [eventually_gt_atTop 0] with n hn using (h3 n x hx.live hn).symm

/-! ### A whole run -/

theorem initial_live0 (hm : WellPosed m) {z : Clus K N} (hz : Valid m.cl.minSize m.cl.maxSize z) :
    ((z, initialWeights none, initialClusterEffect m.d.features m.cfg.app (m := 0) (fun k => k.elim0) z,
        fun c => initialConfEffect m.d.features m.cfg.app none (m.d.confGroups c)) : State0 K N F S M nG) ∈ Live0 m := by
  have := initial_pre hm hz (fun _ => 0)
  exact ⟨this.1, this.2⟩

/-- The initial sample of the main run is that of the warm-up. -/
theorem initialSample0_some (x : State0 K N F S M nG) (hx : Interior m.cfg.app x.2) (sz : ℕ) (rnd : ℕ → ℕ) :
    initialSample0 m sz (some x) rnd = Law.ret x := by
  have h1 : (initialClusters m.cl.adj rnd sz x.1 : Option (Clus K N)) = some x.1 := by
    unfold initialClusters
    rw [if_pos le_rfl, initLoop, dif_neg (lt_irrefl K)]
    congr 1
    funext k n
    rw [dif_pos k.2]
  have h2 : initialWeights (some x.2.1) = x.2.1 := by
    obtain ⟨-, h, -⟩ := C31_initial_weights (some x.2.1) fun w hw f c => by
      cases hw
      exact (hx.w f).pos (Finset.mem_univ c)
    exact h _ rfl fun f => (hx.w f).2
  have h3 : ∀ z : Clus K N, initialClusterEffect m.d.features m.cfg.app x.2.2.1 z = x.2.2.1 := fun z => by
    funext k
    unfold initialClusterEffect
    rw [dif_pos k.2]
  unfold initialSample0
  dsimp only
  rw [h1]
  dsimp only
  rw [h2, h3]
  rfl

/-- The start of the main run. -/
theorem lands_start0 (hm : WellPosed m) {p : State0 K N F S M nG → ℝ} (hp : Measurable p) {step : State0 K N F S M nG → Law (State0 K N F S M nG)}
    (hstep : Acts (Live0 m) (Live0 m) step) {n : ℕ} (hn : 0 < n) (sz w : ℕ)
    (rnd : Fin n → ℕ → ℕ) (rnd' : ℕ → ℕ) (blank : Fin n → State0 K N F S M nG)
    (hrnd : ∀ c, ∃ z : Clus K N, initialClusters (m := 0) m.cl.adj (rnd c) sz (fun k => k.elim0) = some z ∧ Valid m.cl.minSize m.cl.maxSize z) :
    Lands (Live0 m) (Law.bind (warmUp p (fun c => initialSample0 m sz none (rnd c)) step w blank) fun x =>
      initialSample0 m sz (some x) rnd') := by
  have hL := live0_meas m
  have hinit : ∀ c, ∃ r : Rand (State0 K N F S M nG), initialSample0 m sz none (rnd c) = Law.ofRand r ∧ IsDist r ∧
      ∀ p ∈ r, p.2 ≠ 0 → p.1 ∈ Live0 m := by
    intro c
    obtain ⟨z, hz, hv⟩ := hrnd c
    have hl := initial_live0 hm hv
    refine ⟨MH.ret (z, initialWeights none, initialClusterEffect m.d.features m.cfg.app (m := 0) (fun k => k.elim0) z,
        fun c => initialConfEffect m.d.features m.cfg.app none (m.d.confGroups c)), ?_, isDist_ret _, fun p hp _ => ?_⟩
    · unfold initialSample0
      dsimp only
      rw [hz]
      funext g
      exact (ofRand_ret _ g).symm
    · rw [mem_ret hp]
      exact hl
  choose r hr1 hr2 hr3 using hinit
  have hwarm : Lands (Live0 m) (warmUp p (fun c => initialSample0 m sz none (rnd c)) step w blank) := by
    unfold warmUp
    refine Lands.bind hL (lands_initial hL hr1 hr2 hr3 blank) ?_
    exact Acts.comp hL (Acts.run (allIn_meas hL n) (acts_forChains hL (fun _ => hstep) _) w)
      (acts_best hL hn hp)
  refine Lands.bind hL hwarm ?_
  exact (Acts.ret hL measurable_id fun x hx => hx).congr fun x hx => initialSample0_some x hx.2 sz rnd'

/-- **C90.** A whole run without sources: initial samples for all chains, warm-up, choice of the best chain, main run. Whatever the random
numbers used for the initial clusters are (as long as they could be generated), and whatever the number of chains and steps of the
warm-up: the average of any bounded function over the logged samples converges to its posterior mean, with probability tending to one. -/
theorem C90_whole_run_converges (hm : WellPosed m) (hs : m.cfg.sampleSource = false) (hf : CanMove m)
    (hadj : ∀ i j, m.cl.adj i j = m.cl.adj j i)
    (cfg : OpConfig) (ops : List (OpKind M × ℝ)) (hops : getOperators false M cfg = .ok ops) (hpos : ∀ o ∈ ops, 0 < o.2)
    (sz nChains warmSteps : ℕ) (hsz : 1 ≤ sz) (hlo : m.cl.minSize ≤ sz) (hhi : sz ≤ m.cl.maxSize) (hchains : 0 < nChains)
    (rnd : Fin nChains → ℕ → ℕ) (rnd' : ℕ → ℕ) (blank : Fin nChains → State0 K N F S M nG)
    (hrnd : ∀ c, (initialClusters (m := 0) m.cl.adj (rnd c) sz (fun k => k.elim0) : Option (Clus K N)).isSome)
    (s : ℕ) (hs0 : 0 < s) (f : Clus K N × Cont K F S M nG → ℝ) (hfm : Measurable f) (B : ℝ) (hB : ∀ x, |f x| ≤ B)
    (ε : ℝ) (hε : 0 < ε) :
    Tendsto (fun n : ℕ => (wholeRun0 m (normalizeOperatorWeights ops) sz nChains warmSteps rnd rnd' blank s n).prob
      {l | |(l.map f).sum / (l.length : ℝ) -
        (∫ y, f y ∂target m id (post0 m)) / (target m id (post0 m) Set.univ).toReal| < ε}) atTop (𝓝 1) := by
  have hval : ∀ c, ∃ z : Clus K N, initialClusters (m := 0) m.cl.adj (rnd c) sz (fun k => k.elim0) = some z ∧
      Valid m.cl.minSize m.cl.maxSize z := by
    intro c
    obtain ⟨z, hz⟩ := Option.isSome_iff_exists.mp (hrnd c)
    exact ⟨z, hz, C30_initial_clusters_valid _ hadj _ sz _ _ hsz hlo hhi z hz⟩
  obtain ⟨q, h1, h2, h3, h4⟩ := any_start0 hm hs hf cfg ops hops hpos ((hval ⟨0, hchains⟩).imp fun z h => h.2) s hs0 f hfm B hB ε hε
  obtain ⟨hne, -⟩ := getOperators_noSource hops
  have hd := weights_dist (fun o ho => (hpos o ho).le) (total_pos hpos hne)
  obtain ⟨κ, hκ, hR⟩ := chain0_rep hm hs hf.feature hf.twoStates hd (noSource_normalized hops)
  obtain ⟨P, hP, hP0, hPd⟩ := lands_start0 hm (measurable_from_prod_countable_right (meas_post0 m)) hR.acts hchains sz warmSteps rnd rnd' blank hval
  have hlim : Tendsto (fun n => ∫⁻ y, q n y ∂P) atTop (𝓝 (∫⁻ _, 1 ∂P)) :=
    tendsto_lintegral_of_dominated_convergence (fun _ => 1) h1 (fun n => ae_of_all _ (h2 n)) (by simp)
      ((ae_in hP0).mono fun y hy => h4 y hy)
  rw [lintegral_one, measure_univ] at hlim
  refine hlim.congr' ?_
  filter_upwards [eventually_gt_atTop 0] with n hn
  exact (hPd _ _ (h1 n) fun y hy => h3 n y hy hn).symm

/-- **C90.** In particular, the fraction of the logged samples of a whole run without sources with any given feature (such as: an object is
in a cluster) converges to its posterior probability. -/
theorem C90_whole_run_frequencies (hm : WellPosed m) (hs : m.cfg.sampleSource = false) (hf : CanMove m)
    (hadj : ∀ i j, m.cl.adj i j = m.cl.adj j i)
    (cfg : OpConfig) (ops : List (OpKind M × ℝ)) (hops : getOperators false M cfg = .ok ops) (hpos : ∀ o ∈ ops, 0 < o.2)
    (sz nChains warmSteps : ℕ) (hsz : 1 ≤ sz) (hlo : m.cl.minSize ≤ sz) (hhi : sz ≤ m.cl.maxSize) (hchains : 0 < nChains)
    (rnd : Fin nChains → ℕ → ℕ) (rnd' : ℕ → ℕ) (blank : Fin nChains → State0 K N F S M nG)
    (hrnd : ∀ c, (initialClusters (m := 0) m.cl.adj (rnd c) sz (fun k => k.elim0) : Option (Clus K N)).isSome)
    (s : ℕ) (hs0 : 0 < s) (Q : Clus K N × Cont K F S M nG → Bool) (hQ : MeasurableSet {x | Q x = true}) (ε : ℝ) (hε : 0 < ε) :
    Tendsto (fun n : ℕ => (wholeRun0 m (normalizeOperatorWeights ops) sz nChains warmSteps rnd rnd' blank s n).prob
      {l | |(l.countP Q : ℝ) / (l.length : ℝ) -
        (target m id (post0 m) {x | Q x = true}).toReal / (target m id (post0 m) Set.univ).toReal| < ε}) atTop (𝓝 1) := by
  have hmeas : Measurable fun x => if Q x = true then (1 : ℝ) else 0 := Measurable.ite hQ measurable_const measurable_const
  have h := C90_whole_run_converges hm hs hf hadj cfg ops hops hpos sz nChains warmSteps hsz hlo hhi hchains rnd rnd' blank hrnd s hs0
    (fun x => if Q x = true then 1 else 0) hmeas 1 (fun x => by split <;> simp) ε hε
  have e1 : ∀ l : List (Clus K N × Cont K F S M nG), (l.map fun x => if Q x = true then (1 : ℝ) else 0).sum = (l.countP Q : ℝ) := by
    intro l
    induction l with
    | nil => simp
    | cons x l ih =>
      rw [List.map_cons, List.sum_cons, ih, List.countP_cons]
      split <;> simp [add_comm]
  have e2 : ∫ y, (if Q y = true then (1 : ℝ) else 0) ∂target m id (post0 m) = (target m id (post0 m) {x | Q x = true}).toReal := by
    have : (fun y => if Q y = true then (1 : ℝ) else 0) = Set.indicator {x | Q x = true} (1 : Clus K N × Cont K F S M nG → ℝ) := by
      funext y
      by_cases hy : Q y = true <;> simp [hy]
    rw [this, integral_indicator_one hQ]
    rfl
  simp only [e1, e2] at h
  exact h

/-- **C90.** And a whole run without sources does not fail once the initial clusters have been generated: it logs one sample every `s` steps,
and all logged samples are states the model allows. -/
theorem C90_whole_run_succeeds (hm : WellPosed m) (hs : m.cfg.sampleSource = false) (hF : 0 < F)
    (h2 : ∀ f, ∃ s s', s ≠ s' ∧ m.cfg.app f s = true ∧ m.cfg.app f s' = true)
    (hadj : ∀ i j, m.cl.adj i j = m.cl.adj j i)
    (cfg : OpConfig) (ops : List (OpKind M × ℝ)) (hops : getOperators false M cfg = .ok ops) (hpos : ∀ o ∈ ops, 0 < o.2)
    (sz nChains warmSteps : ℕ) (hsz : 1 ≤ sz) (hlo : m.cl.minSize ≤ sz) (hhi : sz ≤ m.cl.maxSize) (hchains : 0 < nChains)
    (rnd : Fin nChains → ℕ → ℕ) (rnd' : ℕ → ℕ) (blank : Fin nChains → State0 K N F S M nG)
    (hrnd : ∀ c, (initialClusters (m := 0) m.cl.adj (rnd c) sz (fun k => k.elim0) : Option (Clus K N)).isSome) (s n : ℕ) :
    (wholeRun0 m (normalizeOperatorWeights ops) sz nChains warmSteps rnd rnd' blank s n).prob
      {l | l.length = ((Finset.range n).filter fun i => i % s = 0).card ∧ ∀ y ∈ l, StartsWell0 m y} = 1 := by
  have hval : ∀ c, ∃ z : Clus K N, initialClusters (m := 0) m.cl.adj (rnd c) sz (fun k => k.elim0) = some z ∧
      Valid m.cl.minSize m.cl.maxSize z := by
    intro c
    obtain ⟨z, hz⟩ := Option.isSome_iff_exists.mp (hrnd c)
    exact ⟨z, hz, C30_initial_clusters_valid _ hadj _ sz _ _ hsz hlo hhi z hz⟩
  obtain ⟨hne, -⟩ := getOperators_noSource hops
  have hd := weights_dist (fun o ho => (hpos o ho).le) (total_pos hpos hne)
  obtain ⟨κ, hκ, hR⟩ := chain0_rep hm hs hF h2 hd (noSource_normalized hops)
  obtain ⟨P, hP, hP0, hPd⟩ := lands_start0 hm (measurable_from_prod_countable_right (meas_post0 m)) hR.acts hchains sz warmSteps rnd rnd' blank hval
  refine (hPd _ (fun _ => 1) measurable_const fun y hy =>
    C90_runs_from_any_start hm hs hF h2 cfg ops hops hpos y (startsWell0_of_live hy) s n).trans ?_
  rw [lintegral_one, measure_univ]

/-- **C90.** The main run starts in exactly the sample the warm-up returned. -/
theorem C90_main_run_continues (x : State0 K N F S M nG) (hx : StartsWell0 m x) (sz : ℕ) (rnd : ℕ → ℕ) :
    initialSample0 m sz (some x) rnd = Law.ret x := initialSample0_some x hx.live.2 sz rnd

/-! ### A run that meets the requirements -/

/-- A state of the run with two clusters and five objects: each of the first two objects is a cluster. -/
noncomputable def widerState : State0 2 5 2 3 1 (fun _ => 2) :=
  (fun k n => decide (n.val = k.val), fun _ _ => 1 / 2, fun _ f s => if s.val < 3 - f.val then 1 / ((3 : ℝ) - f.val) else 0,
    fun _ _ f s => if s.val < 3 - f.val then 1 / ((3 : ℝ) - f.val) else 0)

theorem wider_full (f : Fin 2) : FullDistribution (fun s : Fin 3 => decide (s.val < 3 - f.val))
    (fun s => if s.val < 3 - f.val then 1 / ((3 : ℝ) - f.val) else 0) := by
  refine ⟨fun s hs => ?_, fun s hs => ?_, ?_⟩
  · rw [if_pos (of_decide_eq_true hs)]
    fin_cases f <;> norm_num
  · rw [if_neg (of_decide_eq_false hs)]
  · fin_cases f <;> norm_num [Fin.sum_univ_three]

theorem widerState_starts : StartsWell0 widerSetup widerState where
  clusters := by
    refine ⟨fun i j n h1 h2 => Fin.ext ((of_decide_eq_true h1).symm.trans (of_decide_eq_true h2)), fun k => ?_, fun k => ?_⟩
    · have : ∀ k : Fin 2, 1 ≤ size (fun n : Fin 5 => decide (n.val = k.val)) := by decide
      exact this k
    · have : ∀ k : Fin 2, size (fun n : Fin 5 => decide (n.val = k.val)) ≤ 2 := by decide
      exact this k
  weights f := ⟨fun i _ => by norm_num [widerState], (fun i hi => by cases hi), by norm_num [widerState, Fin.sum_univ_two]⟩
  effects k f := wider_full f
  confEffects c g f := wider_full f

theorem widerSetup_initial (rnd : ℕ → ℕ) :
    (initialClusters (m := 0) widerSetup.cl.adj rnd 1 (fun k => k.elim0) : Option (Clus 2 5)).isSome :=
  C30_succeeds_among_neighbours _ (fun _ _ => rfl) rnd 1 le_rfl (by norm_num)

/-- The requirements are met by a run with two clusters and five objects, where all operators are in use. -/
example : ∃ ops : List (OpKind 1 × ℝ), WellPosed widerSetup ∧ CanMove widerSetup ∧ widerSetup.cfg.sampleSource = false ∧
    (∀ i j, widerSetup.cl.adj i j = widerSetup.cl.adj j i) ∧
    getOperators false 1 { clusters := 45, weights := 15, clusterEffect := 10, confoundingEffects := 10, source := 0 } = .ok ops ∧
    (∀ o ∈ ops, 0 < o.2) ∧ StartsWell0 widerSetup widerState ∧ widerSetup.cl.minSize ≤ 1 ∧ 1 ≤ widerSetup.cl.maxSize ∧
    ∀ rnd, (initialClusters (m := 0) widerSetup.cl.adj rnd 1 (fun k => k.elim0) : Option (Clus 2 5)).isSome := by
  refine ⟨_, widerSetup_wellPosed, widerSetup_canMove, rfl, fun _ _ => rfl, rfl, ?_, widerState_starts, le_rfl, by norm_num [widerSetup],
    widerSetup_initial⟩
  intro o ho
  simp [List.finRange] at ho
  rcases ho with rfl | rfl | rfl | rfl <;> norm_num

end SBayes.Kernel
