import Verif.Lemmas.StrongPoint
import Verif.Props.Start
import Verif.Props.StartAlter
/- C114: the averages over the log settle, and stay, near the posterior means. -/
namespace SBayes.Kernel
open SBayes.Lik SBayes.Clusters SBayes.MH SBayes.Effects SBayes.Posterior SBayes.Draws SBayes.Meas SBayes.MCMC SBayes.Prior MeasureTheory
open SBayes.Init
open Filter Topology
open scoped BigOperators ENNReal

variable {K N F S M : ℕ} {nG : Fin M → ℕ} {m : Setup K N F S M nG}

theorem sum_ite_count {X : Type} (Q : X → Bool) (l : List X) : (l.map fun x => if Q x = true then (1 : ℝ) else 0).sum = (l.countP Q : ℝ) := by
  induction l with
  | nil => simp
  | cons x l ih =>
    rw [List.map_cons, List.sum_cons, ih, List.countP_cons]
    split <;> simp [add_comm]

theorem any_settle (hm : WellPosed m) (hs : m.cfg.sampleSource = true) (hN : K * m.cl.minSize < N)
    (cfg : OpConfig) (ops : List (OpKind M × ℝ)) (hops : getOperators true M cfg = .ok ops) (hpos : ∀ o ∈ ops, 0 < o.2)
    (hv : ∃ z : Clus K N, Valid m.cl.minSize m.cl.maxSize z)
    (s : ℕ) (hs0 : 0 < s) (f : Disc K N F M × Cont K F S M nG → ℝ) (hf : Measurable f) (B : ℝ) (hB : ∀ x, |f x| ≤ B) (ε : ℝ) (hε : 0 < ε) :
    ∃ (a : ℕ) (q : ℕ → ℕ → Disc K N F M × Cont K F S M nG → ℝ≥0∞) (W : ℕ → Disc K N F M × Cont K F S M nG → ℝ≥0∞),
      (∀ j n, Measurable (q j n)) ∧ (∀ j, Measurable (W j)) ∧ (∀ j x, W j x ≤ 1) ∧
      (∀ j n, ∀ x ∈ Live m, 0 < n → (sampleLoop (chainStep (post m) (propose m) (normalizeOperatorWeights ops)) s n 0 x).prob
        {l | Settles f ((∫ y, f y ∂target m Prod.fst (post m)) / (target m Prod.fst (post m) Set.univ).toReal) ε (a + j) l} = q j n x) ∧
      (∀ j n, ∀ x, 1 - W j x ≤ q j n x) ∧ ∀ x ∈ Live m, Tendsto (fun j => W j x) atTop (𝓝 0) := by
  obtain ⟨hne, hall⟩ := getOperators_source hops
  have ht := total_pos hpos hne
  have hd := weights_dist (fun o ho => (hpos o ho).le) ht
  have hfin : IsFiniteMeasure (target m Prod.fst (post m)) :=
    ⟨target_finite hm (meas_post m) fun d hd c hc => post_le hm hs hd hc⟩
  have h0 := ((C81_posterior_is_proper hm hv).1 hs).1
  obtain ⟨κ', hκ', hR'⟩ := chain_kernel hm hs hd
  obtain ⟨κ, hκ, hR⟩ := chain_rep hm hs hd
  have hmem : ∀ op : OpKind M, ∃ p, (op, p) ∈ normalizeOperatorWeights ops ∧ 0 < p := by
    intro op
    obtain ⟨o, ho, rfl⟩ := hall op
    exact ⟨_, List.mem_map.mpr ⟨o, ho, rfl⟩, div_pos (hpos o ho) ht⟩
  obtain ⟨E, w, hlazy⟩ : ∃ E w, Lazy (target m Prod.fst (post m)) (chainStep (post m) (propose m) (normalizeOperatorWeights ops)) E w := by
    obtain ⟨p, hp, hp0⟩ := hmem .clusterEffect
    exact chain_lazy hm hs hp hp0
  have hno := chain_noEscape hm hs hd (hmem _) (hmem _) (fun i => hmem _) hR
  refine settle_on h0 (keeps_chain hm hs hd) (live_meas m) (live_ae hm hs) hR hno hs0 (fun A hA hsp => ?_) ⟨hf, hB⟩ hε
  have hsp1 := splits_of_run hR' (keeps_chain hm hs hd) (super_chain _) hlazy hs0 hA hsp
  have hop : ∀ op, Splits (target m Prod.fst (post m)) (mhStep (post m) (propose m op)) A := by
    intro op
    obtain ⟨p, hp, hp0⟩ := hmem op
    exact Splits.of_mix (T := fun op x => mhStep (post m) (propose m op) x) (l := normalizeOperatorWeights ops) hsp1 hp hp0
  exact ops_triv hm hs hN hA (hop _) (hop _) (hop _) (hop _) fun i => hop _

/-- **C114.** A run with sources, from every single state that the model allows: for every tolerance `ε` and every (small) probability `δ`
there is a number `n0` of samples such that, however long the run is, the averages of `f` over the first `k` samples are closer than `ε` to
the posterior mean for **all** `k` from `n0` to the end of the run at once, with probability `1 - δ` at least. -/
theorem C114_averages_settle (hm : WellPosed m) (hs : m.cfg.sampleSource = true) (hN : K * m.cl.minSize < N)
    (cfg : OpConfig) (ops : List (OpKind M × ℝ)) (hops : getOperators true M cfg = .ok ops) (hpos : ∀ o ∈ ops, 0 < o.2)
    (x : Disc K N F M × Cont K F S M nG) (hx : StartsWell m x)
    (s : ℕ) (hs0 : 0 < s) (f : Disc K N F M × Cont K F S M nG → ℝ) (hf : Measurable f) (B : ℝ) (hB : ∀ x, |f x| ≤ B)
    (ε : ℝ) (hε : 0 < ε) (δ : ℝ) (hδ : 0 < δ) :
    ∃ n0, ∀ n, 0 < n → ENNReal.ofReal (1 - δ) ≤
      (sampleLoop (chainStep (post m) (propose m) (normalizeOperatorWeights ops)) s n 0 x).prob
        {l | ∀ k, n0 ≤ k → k ≤ l.length → |((l.take k).map f).sum / (k : ℝ) - (∫ y, f y ∂target m Prod.fst (post m)) / (target m Prod.fst (post m) Set.univ).toReal| < ε} := by
  obtain ⟨a, q, W, -, -, -, h3, h4, h5⟩ := any_settle hm hs hN cfg ops hops hpos ⟨_, hx.clusters⟩ s hs0 f hf B hB ε hε
  obtain ⟨j, hj⟩ := ((tendsto_order.mp (h5 x hx.live)).2 _ (ENNReal.ofReal_pos.mpr hδ)).exists
  refine ⟨a + j, fun n hn => ?_⟩
  refine le_trans ?_ ((h4 j n x).trans (h3 j n x hx.live hn).symm.le)
  rw [ENNReal.ofReal_sub _ hδ.le, ENNReal.ofReal_one]
  exact tsub_le_tsub_left hj.le _

/-- **C114.** The same for a whole run with sources: initial samples for all chains, warm-up, choice of the best chain, main run. -/
theorem C114_whole_run_settles (hm : WellPosed m) (hs : m.cfg.sampleSource = true) (hN : K * m.cl.minSize < N)
    (hadj : ∀ i j, m.cl.adj i j = m.cl.adj j i)
    (cfg : OpConfig) (ops : List (OpKind M × ℝ)) (hops : getOperators true M cfg = .ok ops) (hpos : ∀ o ∈ ops, 0 < o.2)
    (sz nChains warmSteps : ℕ) (hsz : 1 ≤ sz) (hlo : m.cl.minSize ≤ sz) (hhi : sz ≤ m.cl.maxSize) (hchains : 0 < nChains)
    (garbage : Fin N × Fin F → Fin (M + 1)) (rnd : Fin nChains → ℕ → ℕ) (rnd' : ℕ → ℕ) (blank : Fin nChains → State K N F S M nG)
    (hrnd : ∀ c, (initialClusters (m := 0) m.cl.adj (rnd c) sz (fun k => k.elim0) : Option (Clus K N)).isSome)
    (s : ℕ) (hs0 : 0 < s) (f : Disc K N F M × Cont K F S M nG → ℝ) (hf : Measurable f) (B : ℝ) (hB : ∀ x, |f x| ≤ B)
    (ε : ℝ) (hε : 0 < ε) (δ : ℝ) (hδ : 0 < δ) :
    ∃ n0, ∀ n, 0 < n → ENNReal.ofReal (1 - δ) ≤
      (wholeRun m (normalizeOperatorWeights ops) sz nChains warmSteps garbage rnd rnd' blank s n).prob
        {l | ∀ k, n0 ≤ k → k ≤ l.length → |((l.take k).map f).sum / (k : ℝ) - (∫ y, f y ∂target m Prod.fst (post m)) / (target m Prod.fst (post m) Set.univ).toReal| < ε} := by
  have hval : ∀ c, ∃ z : Clus K N, initialClusters (m := 0) m.cl.adj (rnd c) sz (fun k => k.elim0) = some z ∧
      Valid m.cl.minSize m.cl.maxSize z := by
    intro c
    obtain ⟨z, hz⟩ := Option.isSome_iff_exists.mp (hrnd c)
    exact ⟨z, hz, C30_initial_clusters_valid _ hadj _ sz _ _ hsz hlo hhi z hz⟩
  obtain ⟨a, q, W, h1, h2, h2', h3, h4, h5⟩ := any_settle hm hs hN cfg ops hops hpos ((hval ⟨0, hchains⟩).imp fun z h => h.2) s hs0 f hf B hB ε hε
  obtain ⟨hne, -⟩ := getOperators_source hops
  have hd := weights_dist (fun o ho => (hpos o ho).le) (total_pos hpos hne)
  obtain ⟨κ, hκ, hR⟩ := chain_rep hm hs hd
  obtain ⟨P, hP, hP0, hPd⟩ := lands_start hm hs hR.acts hchains sz warmSteps garbage rnd rnd' blank hval
  have hlim : Tendsto (fun j => ∫⁻ y, W j y ∂P) atTop (𝓝 (∫⁻ _, 0 ∂P)) :=
    tendsto_lintegral_of_dominated_convergence (fun _ => 1) h2 (fun j => ae_of_all _ (h2' j)) (by simp)
      ((ae_in hP0).mono fun y hy => h5 y hy)
  rw [lintegral_zero] at hlim
  obtain ⟨j, hj⟩ := ((tendsto_order.mp hlim).2 _ (ENNReal.ofReal_pos.mpr hδ)).exists
  refine ⟨a + j, fun n hn => ?_⟩
  refine le_trans ?_ (hPd _ _ (h1 j n) fun y hy => h3 j n y hy hn).symm.le
  have h6 := lintegral_sub_le (μ := P) (fun y => W j y) (fun _ => 1) (h2 j)
  rw [lintegral_one, measure_univ] at h6
  refine le_trans ?_ (h6.trans (lintegral_mono fun y => h4 j n y))
  rw [ENNReal.ofReal_sub _ hδ.le, ENNReal.ofReal_one]
  exact tsub_le_tsub_left hj.le _

/-- **C114.** In particular: from some sample on, the fraction of the samples of a whole run with sources that have any given feature (such as: an
object is in a cluster) stays close to its posterior probability for the rest of the run, with probability `1 - δ` at least. -/
theorem C114_whole_run_frequencies_settle (hm : WellPosed m) (hs : m.cfg.sampleSource = true) (hN : K * m.cl.minSize < N)
    (hadj : ∀ i j, m.cl.adj i j = m.cl.adj j i)
    (cfg : OpConfig) (ops : List (OpKind M × ℝ)) (hops : getOperators true M cfg = .ok ops) (hpos : ∀ o ∈ ops, 0 < o.2)
    (sz nChains warmSteps : ℕ) (hsz : 1 ≤ sz) (hlo : m.cl.minSize ≤ sz) (hhi : sz ≤ m.cl.maxSize) (hchains : 0 < nChains)
    (garbage : Fin N × Fin F → Fin (M + 1)) (rnd : Fin nChains → ℕ → ℕ) (rnd' : ℕ → ℕ) (blank : Fin nChains → State K N F S M nG)
    (hrnd : ∀ c, (initialClusters (m := 0) m.cl.adj (rnd c) sz (fun k => k.elim0) : Option (Clus K N)).isSome)
    (s : ℕ) (hs0 : 0 < s) (Q : Disc K N F M × Cont K F S M nG → Bool) (hQ : MeasurableSet {x | Q x = true})
    (ε : ℝ) (hε : 0 < ε) (δ : ℝ) (hδ : 0 < δ) :
    ∃ n0, ∀ n, 0 < n → ENNReal.ofReal (1 - δ) ≤
      (wholeRun m (normalizeOperatorWeights ops) sz nChains warmSteps garbage rnd rnd' blank s n).prob
        {l | ∀ k, n0 ≤ k → k ≤ l.length → |((l.take k).countP Q : ℝ) / (k : ℝ) -
        (target m Prod.fst (post m) {x | Q x = true}).toReal / (target m Prod.fst (post m) Set.univ).toReal| < ε} := by
  have hmeas : Measurable fun x => if Q x = true then (1 : ℝ) else 0 := Measurable.ite hQ measurable_const measurable_const
  have h := C114_whole_run_settles hm hs hN hadj cfg ops hops hpos sz nChains warmSteps hsz hlo hhi hchains garbage rnd rnd' blank hrnd s hs0
    (fun x => if Q x = true then 1 else 0) hmeas 1 (fun x => by split <;> simp) ε hε δ hδ
  have e2 : ∫ y, (if Q y = true then (1 : ℝ) else 0) ∂target m Prod.fst (post m) = (target m Prod.fst (post m) {x | Q x = true}).toReal := by
    have : (fun y => if Q y = true then (1 : ℝ) else 0) = Set.indicator {x | Q x = true} (1 : Disc K N F M × Cont K F S M nG → ℝ) := by
      funext y
      by_cases hy : Q y = true <;> simp [hy]
    rw [this, integral_indicator_one hQ]
    rfl
  simp only [sum_ite_count, e2] at h
  exact h

theorem any_settle0 (hm : WellPosed m) (hs : m.cfg.sampleSource = false) (hmv : CanMove m)
    (cfg : OpConfig) (ops : List (OpKind M × ℝ)) (hops : getOperators false M cfg = .ok ops) (hpos : ∀ o ∈ ops, 0 < o.2)
    (hv : ∃ z : Clus K N, Valid m.cl.minSize m.cl.maxSize z)
    (s : ℕ) (hs0 : 0 < s) (f : Clus K N × Cont K F S M nG → ℝ) (hf : Measurable f) (B : ℝ) (hB : ∀ x, |f x| ≤ B) (ε : ℝ) (hε : 0 < ε) :
    ∃ (a : ℕ) (q : ℕ → ℕ → Clus K N × Cont K F S M nG → ℝ≥0∞) (W : ℕ → Clus K N × Cont K F S M nG → ℝ≥0∞),
      (∀ j n, Measurable (q j n)) ∧ (∀ j, Measurable (W j)) ∧ (∀ j x, W j x ≤ 1) ∧
      (∀ j n, ∀ x ∈ Live0 m, 0 < n → (sampleLoop (chainStep (post0 m) (propose0 m) (normalizeOperatorWeights ops)) s n 0 x).prob
        {l | Settles f ((∫ y, f y ∂target m id (post0 m)) / (target m id (post0 m) Set.univ).toReal) ε (a + j) l} = q j n x) ∧
      (∀ j n, ∀ x, 1 - W j x ≤ q j n x) ∧ ∀ x ∈ Live0 m, Tendsto (fun j => W j x) atTop (𝓝 0) := by
  obtain ⟨hne, -, -, ⟨o, ho, hw⟩, ⟨o', ho', he⟩, hce⟩ := getOperators_noSource hops
  have ht := total_pos hpos hne
  have hd := weights_dist (fun o ho => (hpos o ho).le) ht
  have hn := noSource_normalized hops
  have hfin := target0_finite hm hs
  have h0 := ((C81_posterior_is_proper hm hv).2 hs).1
  have hk := keeps_chain0 hm hs hmv.feature hmv.twoStates hd hn
  obtain ⟨κ', hκ', hR'⟩ := chain0_kernel hm hs hmv.feature hmv.twoStates hd hn
  obtain ⟨κ, hκ, hR⟩ := chain0_rep hm hs hmv.feature hmv.twoStates hd hn
  have hmem : ∀ op : OpKind M, (∃ o ∈ ops, o.1 = op) → ∃ p, 0 < p ∧ (op, p) ∈ normalizeOperatorWeights ops := by
    rintro op ⟨o, ho, rfl⟩
    exact ⟨_, div_pos (hpos o ho) ht, List.mem_map.mpr ⟨o, ho, rfl⟩⟩
  have hno := chain0_noEscape hm hs hmv.feature hmv.twoStates hd hn (hmem _ ⟨o, ho, hw⟩) (hmem _ ⟨o', ho', he⟩) (fun a => hmem _ (hce a)) hR
  refine settle_on h0 hk (live0_meas m) (live0_ae hm hs) hR hno hs0 (fun A hA hsp => ?_) ⟨hf, hB⟩ hε
  refine chain0_triv hm hs hmv hops hpos hA (splits_of_run_recalls hR' hk (fun Z hZ => ?_) hs0 hA hsp)
  obtain ⟨p, hp, hmem⟩ := hmem _ ⟨o, ho, hw⟩
  exact chain0_recalls hm hs hmv.feature hmem hp hZ

/-- **C114.** A run without sources, from every single state that the model allows: for every tolerance `ε` and every (small) probability `δ`
there is a number `n0` of samples such that, however long the run is, the averages of `f` over the first `k` samples are closer than `ε` to
the posterior mean for **all** `k` from `n0` to the end of the run at once, with probability `1 - δ` at least. -/
theorem C114_averages_settle_without_sources (hm : WellPosed m) (hs : m.cfg.sampleSource = false) (hmv : CanMove m)
    (cfg : OpConfig) (ops : List (OpKind M × ℝ)) (hops : getOperators false M cfg = .ok ops) (hpos : ∀ o ∈ ops, 0 < o.2)
    (x : Clus K N × Cont K F S M nG) (hx : StartsWell0 m x)
    (s : ℕ) (hs0 : 0 < s) (f : Clus K N × Cont K F S M nG → ℝ) (hf : Measurable f) (B : ℝ) (hB : ∀ x, |f x| ≤ B)
    (ε : ℝ) (hε : 0 < ε) (δ : ℝ) (hδ : 0 < δ) :
    ∃ n0, ∀ n, 0 < n → ENNReal.ofReal (1 - δ) ≤
      (sampleLoop (chainStep (post0 m) (propose0 m) (normalizeOperatorWeights ops)) s n 0 x).prob
        {l | ∀ k, n0 ≤ k → k ≤ l.length → |((l.take k).map f).sum / (k : ℝ) - (∫ y, f y ∂target m id (post0 m)) / (target m id (post0 m) Set.univ).toReal| < ε} := by
  obtain ⟨a, q, W, -, -, -, h3, h4, h5⟩ := any_settle0 hm hs hmv cfg ops hops hpos ⟨_, hx.clusters⟩ s hs0 f hf B hB ε hε
  obtain ⟨j, hj⟩ := ((tendsto_order.mp (h5 x hx.live)).2 _ (ENNReal.ofReal_pos.mpr hδ)).exists
  refine ⟨a + j, fun n hn => ?_⟩
  refine le_trans ?_ ((h4 j n x).trans (h3 j n x hx.live hn).symm.le)
  rw [ENNReal.ofReal_sub _ hδ.le, ENNReal.ofReal_one]
  exact tsub_le_tsub_left hj.le _

/-- **C114.** The same for a whole run without sources: initial samples for all chains, warm-up, choice of the best chain, main run. -/
theorem C114_whole_run_settles_without_sources (hm : WellPosed m) (hs : m.cfg.sampleSource = false) (hmv : CanMove m)
    (hadj : ∀ i j, m.cl.adj i j = m.cl.adj j i)
    (cfg : OpConfig) (ops : List (OpKind M × ℝ)) (hops : getOperators false M cfg = .ok ops) (hpos : ∀ o ∈ ops, 0 < o.2)
    (sz nChains warmSteps : ℕ) (hsz : 1 ≤ sz) (hlo : m.cl.minSize ≤ sz) (hhi : sz ≤ m.cl.maxSize) (hchains : 0 < nChains)
    (rnd : Fin nChains → ℕ → ℕ) (rnd' : ℕ → ℕ) (blank : Fin nChains → State0 K N F S M nG)
    (hrnd : ∀ c, (initialClusters (m := 0) m.cl.adj (rnd c) sz (fun k => k.elim0) : Option (Clus K N)).isSome)
    (s : ℕ) (hs0 : 0 < s) (f : Clus K N × Cont K F S M nG → ℝ) (hf : Measurable f) (B : ℝ) (hB : ∀ x, |f x| ≤ B)
    (ε : ℝ) (hε : 0 < ε) (δ : ℝ) (hδ : 0 < δ) :
    ∃ n0, ∀ n, 0 < n → ENNReal.ofReal (1 - δ) ≤
      (wholeRun0 m (normalizeOperatorWeights ops) sz nChains warmSteps rnd rnd' blank s n).prob
        {l | ∀ k, n0 ≤ k → k ≤ l.length → |((l.take k).map f).sum / (k : ℝ) - (∫ y, f y ∂target m id (post0 m)) / (target m id (post0 m) Set.univ).toReal| < ε} := by
  have hval : ∀ c, ∃ z : Clus K N, initialClusters (m := 0) m.cl.adj (rnd c) sz (fun k => k.elim0) = some z ∧
      Valid m.cl.minSize m.cl.maxSize z := by
    intro c
    obtain ⟨z, hz⟩ := Option.isSome_iff_exists.mp (hrnd c)
    exact ⟨z, hz, C30_initial_clusters_valid _ hadj _ sz _ _ hsz hlo hhi z hz⟩
  obtain ⟨a, q, W, h1, h2, h2', h3, h4, h5⟩ := any_settle0 hm hs hmv cfg ops hops hpos ((hval ⟨0, hchains⟩).imp fun z h => h.2) s hs0 f hf B hB ε hε
  obtain ⟨hne, -⟩ := getOperators_noSource hops
  have hd := weights_dist (fun o ho => (hpos o ho).le) (total_pos hpos hne)
  obtain ⟨κ, hκ, hR⟩ := chain0_rep hm hs hmv.feature hmv.twoStates hd (noSource_normalized hops)
  obtain ⟨P, hP, hP0, hPd⟩ := lands_start0 hm (measurable_from_prod_countable_right (meas_post0 m)) hR.acts hchains sz warmSteps rnd rnd' blank hval
  have hlim : Tendsto (fun j => ∫⁻ y, W j y ∂P) atTop (𝓝 (∫⁻ _, 0 ∂P)) :=
    tendsto_lintegral_of_dominated_convergence (fun _ => 1) h2 (fun j => ae_of_all _ (h2' j)) (by simp)
      ((ae_in hP0).mono fun y hy => h5 y hy)
  rw [lintegral_zero] at hlim
  obtain ⟨j, hj⟩ := ((tendsto_order.mp hlim).2 _ (ENNReal.ofReal_pos.mpr hδ)).exists
  refine ⟨a + j, fun n hn => ?_⟩
  refine le_trans ?_ (hPd _ _ (h1 j n) fun y hy => h3 j n y hy hn).symm.le
  have h6 := lintegral_sub_le (μ := P) (fun y => W j y) (fun _ => 1) (h2 j)
  rw [lintegral_one, measure_univ] at h6
  refine le_trans ?_ (h6.trans (lintegral_mono fun y => h4 j n y))
  rw [ENNReal.ofReal_sub _ hδ.le, ENNReal.ofReal_one]
  exact tsub_le_tsub_left hj.le _

/-- **C114.** In particular: from some sample on, the fraction of the samples of a whole run without sources that have any given feature (such as: an
object is in a cluster) stays close to its posterior probability for the rest of the run, with probability `1 - δ` at least. -/
theorem C114_whole_run_frequencies_settle_without_sources (hm : WellPosed m) (hs : m.cfg.sampleSource = false) (hmv : CanMove m)
    (hadj : ∀ i j, m.cl.adj i j = m.cl.adj j i)
    (cfg : OpConfig) (ops : List (OpKind M × ℝ)) (hops : getOperators false M cfg = .ok ops) (hpos : ∀ o ∈ ops, 0 < o.2)
    (sz nChains warmSteps : ℕ) (hsz : 1 ≤ sz) (hlo : m.cl.minSize ≤ sz) (hhi : sz ≤ m.cl.maxSize) (hchains : 0 < nChains)
    (rnd : Fin nChains → ℕ → ℕ) (rnd' : ℕ → ℕ) (blank : Fin nChains → State0 K N F S M nG)
    (hrnd : ∀ c, (initialClusters (m := 0) m.cl.adj (rnd c) sz (fun k => k.elim0) : Option (Clus K N)).isSome)
    (s : ℕ) (hs0 : 0 < s) (Q : Clus K N × Cont K F S M nG → Bool) (hQ : MeasurableSet {x | Q x = true})
    (ε : ℝ) (hε : 0 < ε) (δ : ℝ) (hδ : 0 < δ) :
    ∃ n0, ∀ n, 0 < n → ENNReal.ofReal (1 - δ) ≤
      (wholeRun0 m (normalizeOperatorWeights ops) sz nChains warmSteps rnd rnd' blank s n).prob
        {l | ∀ k, n0 ≤ k → k ≤ l.length → |((l.take k).countP Q : ℝ) / (k : ℝ) -
        (target m id (post0 m) {x | Q x = true}).toReal / (target m id (post0 m) Set.univ).toReal| < ε} := by
  have hmeas : Measurable fun x => if Q x = true then (1 : ℝ) else 0 := Measurable.ite hQ measurable_const measurable_const
  have h := C114_whole_run_settles_without_sources hm hs hmv hadj cfg ops hops hpos sz nChains warmSteps hsz hlo hhi hchains rnd rnd' blank hrnd s hs0
    (fun x => if Q x = true then 1 else 0) hmeas 1 (fun x => by split <;> simp) ε hε δ hδ
  have e2 : ∫ y, (if Q y = true then (1 : ℝ) else 0) ∂target m id (post0 m) = (target m id (post0 m) {x | Q x = true}).toReal := by
    have : (fun y => if Q y = true then (1 : ℝ) else 0) = Set.indicator {x | Q x = true} (1 : Clus K N × Cont K F S M nG → ℝ) := by
      funext y
      by_cases hy : Q y = true <;> simp [hy]
    rw [this, integral_indicator_one hQ]
    rfl
  simp only [sum_ite_count, e2] at h
  exact h

/-- The requirements are met by a run with one cluster and two objects, where all operators are in use: from some sample on, the fraction of
the samples that have the first object in the cluster stays within a hundredth of its posterior probability, with 99 % probability. -/
example : ∃ ops : List (OpKind 1 × ℝ),
    getOperators true 1 { clusters := 45, weights := 15, clusterEffect := 10, confoundingEffects := 10, source := 10 } = .ok ops ∧
    ∃ n0, ∀ n, 0 < n → ENNReal.ofReal (1 - 0.01) ≤
      (wholeRun (exampleSetup true) (normalizeOperatorWeights ops) 1 3 10 (fun _ => 0) (fun _ _ => 0) (fun _ => 0) (fun _ => exampleState) 5 n).prob
        {l | ∀ k, n0 ≤ k → k ≤ l.length → |((l.take k).countP (fun x => x.1.1 0 0) : ℝ) / (k : ℝ) -
          (target (exampleSetup true) Prod.fst (post (exampleSetup true)) {x | x.1.1 0 0 = true}).toReal /
            (target (exampleSetup true) Prod.fst (post (exampleSetup true)) Set.univ).toReal| < 0.01} := by
  refine ⟨_, rfl, C114_whole_run_frequencies_settle (exampleSetup_wellPosed true) rfl (by simp [exampleSetup]) (fun _ _ => rfl)
    { clusters := 45, weights := 15, clusterEffect := 10, confoundingEffects := 10, source := 10 } _ rfl ?_ 1 3 10 le_rfl le_rfl le_rfl (by norm_num)
    (fun _ => 0) (fun _ _ => 0) (fun _ => 0) (fun _ => exampleState) (fun _ => exampleSetup_initial _) 5 (by norm_num) _ ?_
    0.01 (by norm_num) 0.01 (by norm_num)⟩
  · intro o ho
    simp [List.finRange] at ho
    rcases ho with rfl | rfl | rfl | rfl | rfl | rfl <;> norm_num
  · exact measurable_fst (MeasurableSet.of_discrete (s := {d : Disc 1 2 1 1 | d.1 0 0 = true}))

/-- The same for a run without sources, with two clusters and five objects. -/
example : ∃ ops : List (OpKind 1 × ℝ),
    getOperators false 1 { clusters := 45, weights := 15, clusterEffect := 10, confoundingEffects := 10, source := 0 } = .ok ops ∧
    ∃ n0, ∀ n, 0 < n → ENNReal.ofReal (1 - 0.01) ≤
      (wholeRun0 widerSetup (normalizeOperatorWeights ops) 1 3 10 (fun _ _ => 0) (fun _ => 0) (fun _ => widerState) 5 n).prob
        {l | ∀ k, n0 ≤ k → k ≤ l.length → |((l.take k).countP (fun x => x.1 0 0) : ℝ) / (k : ℝ) -
          (target widerSetup id (post0 widerSetup) {x | x.1 0 0 = true}).toReal /
            (target widerSetup id (post0 widerSetup) Set.univ).toReal| < 0.01} := by
  refine ⟨_, rfl, C114_whole_run_frequencies_settle_without_sources widerSetup_wellPosed rfl widerSetup_canMove (fun _ _ => rfl)
    { clusters := 45, weights := 15, clusterEffect := 10, confoundingEffects := 10, source := 0 } _ rfl ?_ 1 3 10 le_rfl le_rfl
    (by norm_num [widerSetup]) (by norm_num) (fun _ _ => 0) (fun _ => 0) (fun _ => widerState) (fun _ => widerSetup_initial _) 5 (by norm_num) _ ?_
    0.01 (by norm_num) 0.01 (by norm_num)⟩
  · intro o ho
    simp [List.finRange] at ho
    rcases ho with rfl | rfl | rfl | rfl <;> norm_num
  · exact measurable_fst (MeasurableSet.of_discrete (s := {d : Clus 2 5 | d 0 0 = true}))

end SBayes.Kernel
