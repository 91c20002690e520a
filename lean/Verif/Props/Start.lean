import Verif.Lemmas.LawPoint
import Verif.Lemmas.WholeRun
import Verif.Spec.Start
import Verif.Props.LLN
/- C88: convergence from every possible initial state, and for a whole run. -/
namespace SBayes.Kernel
open SBayes.Lik SBayes.Clusters SBayes.MH SBayes.Effects SBayes.Posterior SBayes.Draws SBayes.Meas SBayes.MCMC SBayes.Prior MeasureTheory
open SBayes.Init
open Filter Topology
open scoped BigOperators ENNReal

variable {K N F S M : ℕ} {nG : Fin M → ℕ} {m : Setup K N F S M nG}

theorem FullDistribution.row {n : ℕ} {A : Fin n → Bool} {v : Fin n → ℝ} (h : FullDistribution A v) :
    Row (Finset.univ.filter fun i => A i) v := by
  refine ⟨fun i => ?_, h.total⟩
  rcases hi : A i with _ | _
  · rw [if_neg (by simp [hi])]
    exact h.zero i hi
  · rw [if_pos (by simp [hi])]
    exact h.pos i hi

theorem StartsWell.live {x : Disc K N F M × Cont K F S M nG} (h : StartsWell m x) : x ∈ Live m := by
  refine ⟨⟨h.clusters, fun n f => ?_⟩, ⟨fun f => ?_, fun k f => (h.effects k f).row, fun i g f => (h.confEffects i g f).row⟩⟩
  · unfold hasComponents
    rcases Fin.eq_zero_or_eq_succ (x.1.2 (n, f)) with h0 | ⟨c, hc⟩
    · rw [h0, Fin.cons_zero, anyGroup_iff]
      exact h.fromCluster n f h0
    · rw [hc, Fin.cons_succ, anyGroup_iff]
      exact h.fromConfounder n f c hc
  · have := (h.weights f).row
    simpa using this

theorem startsWell_of_live {x : Disc K N F M × Cont K F S M nG} (h : x ∈ Live m) : StartsWell m x where
  clusters := h.1.1
  fromCluster n f h0 := by
    have := h.1.2 n f
    rw [h0, hasComponents, Fin.cons_zero, anyGroup_iff] at this
    exact this
  fromConfounder n f c hc := by
    have := h.1.2 n f
    rw [hc, hasComponents, Fin.cons_succ, anyGroup_iff] at this
    exact this
  weights f := ⟨fun i _ => (h.2.w f).pos (Finset.mem_univ i), (fun i hi => by cases hi), (h.2.w f).2⟩
  effects k f := ⟨fun i hi => (h.2.e k f).pos (by simp [states, hi]), fun i hi => by
    have := (h.2.e k f).1 i
    rwa [if_neg (by simp [states, hi])] at this, (h.2.e k f).2⟩
  confEffects c g f := ⟨fun i hi => (h.2.ce c g f).pos (by simp [states, hi]), fun i hi => by
    have := (h.2.ce c g f).1 i
    rwa [if_neg (by simp [states, hi])] at this, (h.2.ce c g f).2⟩

/-- **C88.** Whatever state a run with sources is started from (as long as the model allows it): it can be continued for any number `n` of
steps without an exception, logs one sample every `s` steps, and every logged sample is a state from which a run could be started. -/
theorem C88_runs_from_any_start (hm : WellPosed m) (hs : m.cfg.sampleSource = true)
    (cfg : OpConfig) (ops : List (OpKind M × ℝ)) (hops : getOperators true M cfg = .ok ops) (hpos : ∀ o ∈ ops, 0 < o.2)
    (x : Disc K N F M × Cont K F S M nG) (hx : StartsWell m x) (s n : ℕ) :
    (sampleLoop (chainStep (post m) (propose m) (normalizeOperatorWeights ops)) s n 0 x).prob
      {l | l.length = ((Finset.range n).filter fun i => i % s = 0).card ∧ ∀ y ∈ l, StartsWell m y} = 1 := by
  obtain ⟨hne, -⟩ := getOperators_source hops
  have hd := weights_dist (fun o ho => (hpos o ho).le) (total_pos hpos hne)
  obtain ⟨κ, hκ, hR⟩ := chain_rep hm hs hd
  refine loop_event hR s n 0 _ (fun l hl hlen => ?_) x hx.live
  refine Set.indicator_of_mem (a := l) ?_ 1
  simp only [Nat.zero_add] at hlen
  exact ⟨by rw [hlen, Nat.count_eq_card_filter_range], fun y hy => startsWell_of_live (hl y hy)⟩

theorem any_start (hm : WellPosed m) (hs : m.cfg.sampleSource = true) (hN : K * m.cl.minSize < N)
    (cfg : OpConfig) (ops : List (OpKind M × ℝ)) (hops : getOperators true M cfg = .ok ops) (hpos : ∀ o ∈ ops, 0 < o.2)
    (hv : ∃ z : Clus K N, Valid m.cl.minSize m.cl.maxSize z)
    (s : ℕ) (hs0 : 0 < s) (f : Disc K N F M × Cont K F S M nG → ℝ) (hf : Measurable f) (B : ℝ) (hB : ∀ x, |f x| ≤ B) (ε : ℝ) (hε : 0 < ε) :
    ∃ q : ℕ → Disc K N F M × Cont K F S M nG → ℝ≥0∞, (∀ n, Measurable (q n)) ∧ (∀ n x, q n x ≤ 1) ∧
      (∀ n, ∀ x ∈ Live m, 0 < n → (sampleLoop (chainStep (post m) (propose m) (normalizeOperatorWeights ops)) s n 0 x).prob
        {l | |(l.map f).sum / (l.length : ℝ) -
          (∫ y, f y ∂target m Prod.fst (post m)) / (target m Prod.fst (post m) Set.univ).toReal| < ε} = q n x) ∧
      ∀ x ∈ Live m, Tendsto (fun n => q n x) atTop (𝓝 1) := by
  obtain ⟨hne, hall⟩ := getOperators_source hops
  have ht := total_pos hpos hne
  have hd := weights_dist (fun o ho => (hpos o ho).le) ht
  have hfin : IsFiniteMeasure (target m Prod.fst (post m)) :=
    ⟨target_finite hm (meas_post m) fun d hd c hc => post_le hm hs hd hc⟩
  have h0 := ((C81_posterior_is_proper hm hv).1 hs).1
  obtain ⟨κ', hκ', hR'⟩ := chain_kernel hm hs hd
  obtain ⟨κ, hκ, hR⟩ := chain_rep hm hs hd
  have hmem : ∀ op : OpKind M, ∃ p, (op, p) ∈ normalizeOperatorWeights ops ∧ 0 < p := by
    intro op
    obtain ⟨o, ho, rfl⟩ := hall op
    exact ⟨_, List.mem_map.mpr ⟨o, ho, rfl⟩, div_pos (hpos o ho) ht⟩
  obtain ⟨E, w, hlazy⟩ : ∃ E w, Lazy (target m Prod.fst (post m)) (chainStep (post m) (propose m) (normalizeOperatorWeights ops)) E w := by
    obtain ⟨p, hp, hp0⟩ := hmem .clusterEffect
    exact chain_lazy hm hs hp hp0
  have hno := chain_noEscape hm hs hd (hmem _) (hmem _) (fun i => hmem _) hR
  have hL := live_meas m
  have htriv : ∀ A, MeasurableSet A → Splits (target m Prod.fst (post m)) (run (chainStep (post m) (propose m) (normalizeOperatorWeights ops)) s) A →
      (∀ᵐ x ∂target m Prod.fst (post m), x ∈ A) ∨ ∀ᵐ x ∂target m Prod.fst (post m), x ∉ A := by
    intro A hA hsp
    have hsp1 := splits_of_run hR' (keeps_chain hm hs hd) (super_chain _) hlazy hs0 hA hsp
    have hop : ∀ op, Splits (target m Prod.fst (post m)) (mhStep (post m) (propose m op)) A := by
      intro op
      obtain ⟨p, hp, hp0⟩ := hmem op
      exact Splits.of_mix (T := fun op x => mhStep (post m) (propose m op) x) (l := normalizeOperatorWeights ops) hsp1 hp hp0
    exact ops_triv hm hs hN hA (hop _) (hop _) (hop _) (hop _) fun i => hop _
  refine ⟨fun n x => ∫⁻ y, near (kpow κ s) f ((∫ y, f y ∂target m Prod.fst (post m)) / (target m Prod.fst (post m) Set.univ).toReal) ε
    ((n - 1) / s) y ∂κ x, fun n => ?_, fun n x => ?_, fun n x hx hn => loop_all hL hR hs0 hf _ ε hn x hx, fun x hx => ?_⟩
  · exact Measurable.lintegral_kernel (near_meas hf _ ε _)
  · calc _ ≤ ∫⁻ y, 1 ∂κ x := lintegral_mono fun y => near_le hf _ ε _ y
      _ = 1 := by rw [lintegral_one, measure_univ]
  · exact (lln_on h0 (keeps_chain hm hs hd) hL (live_ae hm hs) hR hno hs0 htriv ⟨hf, hB⟩ hε x hx).comp (div_tendsto hs0)

/-- **C88.** From every single state that the model allows (not only from almost every one): the longer the run, the closer is the average
of any bounded function over the logged samples to its posterior mean, with probability tending to one. -/
theorem C88_averages_converge_from_any_start (hm : WellPosed m) (hs : m.cfg.sampleSource = true) (hN : K * m.cl.minSize < N)
    (cfg : OpConfig) (ops : List (OpKind M × ℝ)) (hops : getOperators true M cfg = .ok ops) (hpos : ∀ o ∈ ops, 0 < o.2)
    (x : Disc K N F M × Cont K F S M nG) (hx : StartsWell m x)
    (s : ℕ) (hs0 : 0 < s) (f : Disc K N F M × Cont K F S M nG → ℝ) (hf : Measurable f) (B : ℝ) (hB : ∀ x, |f x| ≤ B)
    (ε : ℝ) (hε : 0 < ε) :
    Tendsto (fun n : ℕ => (sampleLoop (chainStep (post m) (propose m) (normalizeOperatorWeights ops)) s n 0 x).prob
      {l | |(l.map f).sum / (l.length : ℝ) -
        (∫ y, f y ∂target m Prod.fst (post m)) / (target m Prod.fst (post m) Set.univ).toReal| < ε}) atTop (𝓝 1) := by
  obtain ⟨q, -, -, h3, h4⟩ := any_start hm hs hN cfg ops hops hpos ⟨_, hx.clusters⟩ s hs0 f hf B hB ε hε
  refine (h4 x hx.live).congr' ?_
  filter_upwards [eventually_gt_atTop 0] with n hn using (h3 n x hx.live hn).symm

/-- **C88.** A whole run: initial samples for all chains, warm-up, choice of the best chain, main run. Whatever the random numbers used for
the initial clusters are (as long as they could be generated), and whatever the number of chains and steps of the warm-up: the
average of any bounded function over the logged samples converges to its posterior mean, with probability tending to one. -/
theorem C88_whole_run_converges (hm : WellPosed m) (hs : m.cfg.sampleSource = true) (hN : K * m.cl.minSize < N)
    (hadj : ∀ i j, m.cl.adj i j = m.cl.adj j i)
    (cfg : OpConfig) (ops : List (OpKind M × ℝ)) (hops : getOperators true M cfg = .ok ops) (hpos : ∀ o ∈ ops, 0 < o.2)
    (sz nChains warmSteps : ℕ) (hsz : 1 ≤ sz) (hlo : m.cl.minSize ≤ sz) (hhi : sz ≤ m.cl.maxSize) (hchains : 0 < nChains)
    (garbage : Fin N × Fin F → Fin (M + 1)) (rnd : Fin nChains → ℕ → ℕ) (rnd' : ℕ → ℕ) (blank : Fin nChains → State K N F S M nG)
    (hrnd : ∀ c, (initialClusters (m := 0) m.cl.adj (rnd c) sz (fun k => k.elim0) : Option (Clus K N)).isSome)
    (s : ℕ) (hs0 : 0 < s) (f : Disc K N F M × Cont K F S M nG → ℝ) (hf : Measurable f) (B : ℝ) (hB : ∀ x, |f x| ≤ B)
    (ε : ℝ) (hε : 0 < ε) :
    Tendsto (fun n : ℕ => (wholeRun m (normalizeOperatorWeights ops) sz nChains warmSteps garbage rnd rnd' blank s n).prob
      {l | |(l.map f).sum / (l.length : ℝ) -
        (∫ y, f y ∂target m Prod.fst (post m)) / (target m Prod.fst (post m) Set.univ).toReal| < ε}) atTop (𝓝 1) := by
  have hval : ∀ c, ∃ z : Clus K N, initialClusters (m := 0) m.cl.adj (rnd c) sz (fun k => k.elim0) = some z ∧
      Valid m.cl.minSize m.cl.maxSize z := by
    intro c
    obtain ⟨z, hz⟩ := Option.isSome_iff_exists.mp (hrnd c)
    exact ⟨z, hz, C30_initial_clusters_valid _ hadj _ sz _ _ hsz hlo hhi z hz⟩
  obtain ⟨q, h1, h2, h3, h4⟩ := any_start hm hs hN cfg ops hops hpos ((hval ⟨0, hchains⟩).imp fun z h => h.2) s hs0 f hf B hB ε hε
  obtain ⟨hne, -⟩ := getOperators_source hops
  have hd := weights_dist (fun o ho => (hpos o ho).le) (total_pos hpos hne)
  obtain ⟨κ, hκ, hR⟩ := chain_rep hm hs hd
  obtain ⟨P, hP, hP0, hPd⟩ := lands_start hm hs hR.acts hchains sz warmSteps garbage rnd rnd' blank hval
  have hlim : Tendsto (fun n => ∫⁻ y, q n y ∂P) atTop (𝓝 (∫⁻ _, 1 ∂P)) :=
    tendsto_lintegral_of_dominated_convergence (fun _ => 1) h1 (fun n => ae_of_all _ (h2 n)) (by simp)
      ((ae_in hP0).mono fun y hy => h4 y hy)
  rw [lintegral_one, measure_univ] at hlim
  refine hlim.congr' ?_
  filter_upwards [eventually_gt_atTop 0] with n hn
  exact (hPd _ _ (h1 n) fun y hy => h3 n y hy hn).symm

/-- **C88.** In particular, the fraction of the logged samples of a whole run with any given feature converges to its posterior probability. -/
theorem C88_whole_run_frequencies (hm : WellPosed m) (hs : m.cfg.sampleSource = true) (hN : K * m.cl.minSize < N)
    (hadj : ∀ i j, m.cl.adj i j = m.cl.adj j i)
    (cfg : OpConfig) (ops : List (OpKind M × ℝ)) (hops : getOperators true M cfg = .ok ops) (hpos : ∀ o ∈ ops, 0 < o.2)
    (sz nChains warmSteps : ℕ) (hsz : 1 ≤ sz) (hlo : m.cl.minSize ≤ sz) (hhi : sz ≤ m.cl.maxSize) (hchains : 0 < nChains)
    (garbage : Fin N × Fin F → Fin (M + 1)) (rnd : Fin nChains → ℕ → ℕ) (rnd' : ℕ → ℕ) (blank : Fin nChains → State K N F S M nG)
    (hrnd : ∀ c, (initialClusters (m := 0) m.cl.adj (rnd c) sz (fun k => k.elim0) : Option (Clus K N)).isSome)
    (s : ℕ) (hs0 : 0 < s) (Q : Disc K N F M × Cont K F S M nG → Bool) (hQ : MeasurableSet {x | Q x = true}) (ε : ℝ) (hε : 0 < ε) :
    Tendsto (fun n : ℕ => (wholeRun m (normalizeOperatorWeights ops) sz nChains warmSteps garbage rnd rnd' blank s n).prob
      {l | |(l.countP Q : ℝ) / (l.length : ℝ) -
        (target m Prod.fst (post m) {x | Q x = true}).toReal / (target m Prod.fst (post m) Set.univ).toReal| < ε}) atTop (𝓝 1) := by
  have hmeas : Measurable fun x => if Q x = true then (1 : ℝ) else 0 := Measurable.ite hQ measurable_const measurable_const
  have h := C88_whole_run_converges hm hs hN hadj cfg ops hops hpos sz nChains warmSteps hsz hlo hhi hchains garbage rnd rnd' blank hrnd s hs0
    (fun x => if Q x = true then 1 else 0) hmeas 1 (fun x => by split <;> simp) ε hε
  have e1 : ∀ l : List (Disc K N F M × Cont K F S M nG), (l.map fun x => if Q x = true then (1 : ℝ) else 0).sum = (l.countP Q : ℝ) := by
    intro l
    induction l with
    | nil => simp
    | cons x l ih =>
      rw [List.map_cons, List.sum_cons, ih, List.countP_cons]
      split <;> simp [add_comm]
  have e2 : ∫ y, (if Q y = true then (1 : ℝ) else 0) ∂target m Prod.fst (post m) = (target m Prod.fst (post m) {x | Q x = true}).toReal := by
    have : (fun y => if Q y = true then (1 : ℝ) else 0) = Set.indicator {x | Q x = true} (1 : Disc K N F M × Cont K F S M nG → ℝ) := by
      funext y
      by_cases hy : Q y = true <;> simp [hy]
    rw [this, integral_indicator_one hQ]
    rfl
  simp only [e1, e2] at h
  exact h

/-- **C88.** And a whole run does not fail once the initial clusters have been generated: it logs one sample every `s` steps, and all
logged samples are states the model allows. -/
theorem C88_whole_run_succeeds (hm : WellPosed m) (hs : m.cfg.sampleSource = true)
    (hadj : ∀ i j, m.cl.adj i j = m.cl.adj j i)
    (cfg : OpConfig) (ops : List (OpKind M × ℝ)) (hops : getOperators true M cfg = .ok ops) (hpos : ∀ o ∈ ops, 0 < o.2)
    (sz nChains warmSteps : ℕ) (hsz : 1 ≤ sz) (hlo : m.cl.minSize ≤ sz) (hhi : sz ≤ m.cl.maxSize) (hchains : 0 < nChains)
    (garbage : Fin N × Fin F → Fin (M + 1)) (rnd : Fin nChains → ℕ → ℕ) (rnd' : ℕ → ℕ) (blank : Fin nChains → State K N F S M nG)
    (hrnd : ∀ c, (initialClusters (m := 0) m.cl.adj (rnd c) sz (fun k => k.elim0) : Option (Clus K N)).isSome) (s n : ℕ) :
    (wholeRun m (normalizeOperatorWeights ops) sz nChains warmSteps garbage rnd rnd' blank s n).prob
      {l | l.length = ((Finset.range n).filter fun i => i % s = 0).card ∧ ∀ y ∈ l, StartsWell m y} = 1 := by
  have hval : ∀ c, ∃ z : Clus K N, initialClusters (m := 0) m.cl.adj (rnd c) sz (fun k => k.elim0) = some z ∧
      Valid m.cl.minSize m.cl.maxSize z := by
    intro c
    obtain ⟨z, hz⟩ := Option.isSome_iff_exists.mp (hrnd c)
    exact ⟨z, hz, C30_initial_clusters_valid _ hadj _ sz _ _ hsz hlo hhi z hz⟩
  obtain ⟨hne, -⟩ := getOperators_source hops
  have hd := weights_dist (fun o ho => (hpos o ho).le) (total_pos hpos hne)
  obtain ⟨κ, hκ, hR⟩ := chain_rep hm hs hd
  obtain ⟨P, hP, hP0, hPd⟩ := lands_start hm hs hR.acts hchains sz warmSteps garbage rnd rnd' blank hval
  refine (hPd _ (fun _ => 1) measurable_const fun y hy =>
    C88_runs_from_any_start hm hs cfg ops hops hpos y (startsWell_of_live hy) s n).trans ?_
  rw [lintegral_one, measure_univ]

/-- **C88.** The main run continues where the warm-up ended: with the clusters, weights and effects of the returned sample; only the sources
are drawn again. -/
theorem C88_main_run_continues (hm : WellPosed m) (hs : m.cfg.sampleSource = true) (x : State K N F S M nG) (hx : StartsWell m x) (sz : ℕ)
    (garbage : Fin N × Fin F → Fin (M + 1)) (rnd : ℕ → ℕ) :
    (initialSample m sz garbage (some x) rnd).prob {y | y.1.1 = x.1.1 ∧ y.2 = x.2 ∧ StartsWell m y} = 1 := by
  have hpre : (((x.1.1, garbage), x.2) : State K N F S M nG) ∈ Pre m := ⟨hx.live.1.1, hx.live.2⟩
  obtain ⟨r, h1, h2, h3, -⟩ := drawSources_eq hm hs hpre
  rw [initialSample_some x hx.live.2 sz garbage rnd]
  have hone : drawSources m ((x.1.1, garbage), x.2) 1 = 1 := by rw [h1]; simpa [Law.ofRand] using ofRand_one h2
  have hsub : drawSources m ((x.1.1, garbage), x.2) ({y | y.1.1 = x.1.1 ∧ y.2 = x.2 ∧ StartsWell m y}.indicator 1) =
      drawSources m ((x.1.1, garbage), x.2) ({y | StartsWell m y}.indicator 1) := by
    unfold drawSources
    refine congrArg (Law.ofRand _) (funext fun t => ?_)
    show Set.indicator _ _ _ = Set.indicator _ _ _
    by_cases h : StartsWell m ((x.1.1, t.new), x.2)
    · exact (Set.indicator_of_mem (show (((x.1.1, t.new), x.2) : State K N F S M nG) ∈ {y : State K N F S M nG | y.1.1 = x.1.1 ∧ y.2 = x.2 ∧ StartsWell m y} from ⟨rfl, rfl, h⟩)
        _).trans (Set.indicator_of_mem (show (((x.1.1, t.new), x.2) : State K N F S M nG) ∈ {y : State K N F S M nG | StartsWell m y} from h) _).symm
    · exact (Set.indicator_of_notMem (show (((x.1.1, t.new), x.2) : State K N F S M nG) ∉ {y : State K N F S M nG | y.1.1 = x.1.1 ∧ y.2 = x.2 ∧ StartsWell m y} from fun h' => h h'.2.2)
        _).trans (Set.indicator_of_notMem (show (((x.1.1, t.new), x.2) : State K N F S M nG) ∉ {y : State K N F S M nG | StartsWell m y} from h) _).symm
  unfold Law.prob
  rw [hsub, ← hone, h1]
  exact ofRand_local (φ := fun y => y) h3 _ _ fun y hy => Set.indicator_of_mem (show y ∈ {y | StartsWell m y} from startsWell_of_live hy) _

section Best
variable {σ : Type} {n : ℕ}

theorem forChains_ret (φ : Fin n → σ → σ) (l : List (Fin n)) (hl : l.Nodup) (x : Fin n → σ) :
    forChains (fun c y => Law.ret (φ c y)) l x = Law.ret fun c => if c ∈ l then φ c (x c) else x c := by
  induction l generalizing x with
  | nil => simp [forChains]
  | cons c l ih =>
    show forChains _ l (Function.update x c (φ c (x c))) = _
    rw [ih (List.nodup_cons.mp hl).2]
    congr 1
    funext c'
    by_cases h : c' = c
    · subst h
      simp [(List.nodup_cons.mp hl).1]
    · simp [h]

theorem firstBest_iff (v : Fin n → ℝ) (c : Fin n) : firstBest v = some c ↔ (∀ c', v c' ≤ v c) ∧ ∀ c' < c, v c' < v c := by
  classical
  unfold firstBest
  constructor
  · intro h
    rw [List.find?_eq_some_iff_getElem] at h
    obtain ⟨h1, i, hi, h2, h3⟩ := h
    have h1 : ∀ c', v c' ≤ v c := by simpa using h1
    refine ⟨h1, fun c' hc' => lt_of_le_of_ne (h1 c') fun he => ?_⟩
    have hci : c.val = i := by simpa using (congrArg Fin.val h2).symm
    have := h3 c'.val (by have : c'.val < c.val := hc'; omega)
    simp only [List.getElem_finRange, Bool.not_eq_true', decide_eq_false_iff_not] at this
    exact this fun c'' => by
      have := h1 c''
      rw [← he] at this
      simpa using this
  · rintro ⟨h1, h2⟩
    rw [List.find?_eq_some_iff_getElem]
    refine ⟨by simpa using h1, c.val, by simp, by simp, fun j hj => ?_⟩
    simp only [List.getElem_finRange, Bool.not_eq_true', decide_eq_false_iff_not]
    intro h
    have := h2 ⟨j, by omega⟩ hj
    exact absurd (h c) (not_le.mpr (by simpa using this))

/-- **C88.** The warm-up takes every chain `steps` steps further and returns the sample of the chain with the highest posterior, the
first one if there are several (shown for steps without randomness, where this is simple to say). -/
theorem C88_warm_up_returns_the_best (post : σ → ℝ) (x : Fin n → σ) (φ : σ → σ) (steps : ℕ) (blank : Fin n → σ) (c : Fin n)
    (hc : ∀ c', post (φ^[steps] (x c')) ≤ post (φ^[steps] (x c))) (hfirst : ∀ c' < c, post (φ^[steps] (x c')) < post (φ^[steps] (x c))) :
    warmUp post (fun c => Law.ret (x c)) (fun y => Law.ret (φ y)) steps blank = Law.ret (φ^[steps] (x c)) := by
  have h1 := forChains_ret (fun c (_ : σ) => x c) (List.finRange n) (List.nodup_finRange n) blank
  have h2 : ∀ k (y : Fin n → σ), run (forChains (fun _ y => Law.ret (φ y)) (List.finRange n)) k y = Law.ret fun c => φ^[k] (y c) := by
    intro k
    induction k with
    | zero => exact fun y => rfl
    | succ k ih =>
      intro y
      have h3 := forChains_ret (fun _ : Fin n => φ) (List.finRange n) (List.nodup_finRange n) y
      show Law.bind (forChains _ _ y) _ = _
      rw [h3]
      show run _ k _ = _
      rw [ih]
      simp
  unfold warmUp
  rw [h1]
  show Law.bind (run _ _ _) _ = _
  rw [h2]
  simp only [List.mem_finRange, if_true]
  show (match firstBest fun c => post (φ^[steps] (x c)) with
      | none => fun _ => 0
      | some c => Law.ret (φ^[steps] (x c))) = _
  rw [(firstBest_iff _ c).mpr ⟨hc, hfirst⟩]

/-- Three chains, one step: the second and the third have the highest value. -/
example : warmUp (n := 3) (fun y : ℕ => (y : ℝ)) (fun c => Law.ret (![0, 4, 4] c)) (fun y => Law.ret (y + 1)) 1 (fun _ => 0) = Law.ret 5 := by
  have := C88_warm_up_returns_the_best (fun y : ℕ => (y : ℝ)) ![0, 4, 4] (fun y => y + 1) 1 (fun _ => 0) 1
    (fun c' => by fin_cases c' <;> norm_num) (fun c' h => by fin_cases c' <;> simp_all)
  simpa using this

end Best

/-- A state of the run with one cluster and two objects: the first object is in the cluster. -/
noncomputable def exampleState : State 1 2 1 2 1 (fun _ => 1) :=
  ((fun _ n => n == 0, fun p => if p.1 = 0 then 0 else 1), fun _ _ => 1 / 2, fun _ _ _ => 1 / 2, fun _ _ _ _ => 1 / 2)

theorem exampleState_starts : StartsWell (exampleSetup true) exampleState where
  clusters := ⟨fun i j n _ _ => Subsingleton.elim i j, fun k => show 1 ≤ size (fun n : Fin 2 => n == 0) by decide, fun k => show size (fun n : Fin 2 => n == 0) ≤ 1 by decide⟩
  fromCluster n f h := by
    refine ⟨0, ?_⟩
    by_cases hn : n = 0
    · simp [exampleState, hn]
    · simp [exampleState, hn] at h
  fromConfounder n f c _ := ⟨0, rfl⟩
  weights f := ⟨fun i _ => by norm_num [exampleState], (fun i hi => by cases hi), by norm_num [exampleState, Fin.sum_univ_two]⟩
  effects k f := ⟨fun i _ => by norm_num [exampleState], (fun i hi => by cases hi), by norm_num [exampleState, Fin.sum_univ_two]⟩
  confEffects c g f := ⟨fun i _ => by norm_num [exampleState], (fun i hi => by cases hi), by norm_num [exampleState, Fin.sum_univ_two]⟩

theorem exampleSetup_initial (rnd : ℕ → ℕ) :
    (initialClusters (m := 0) (exampleSetup true).cl.adj rnd 1 (fun k => k.elim0) : Option (Clus 1 2)).isSome :=
  C30_succeeds_among_neighbours _ (fun _ _ => rfl) rnd 1 le_rfl (by norm_num)

/-- The requirements are met by a run with one cluster and two objects, where all operators are in use. -/
example : ∃ ops : List (OpKind 1 × ℝ), WellPosed (exampleSetup true) ∧ (exampleSetup true).cfg.sampleSource = true ∧
    1 * (exampleSetup true).cl.minSize < 2 ∧ (∀ i j, (exampleSetup true).cl.adj i j = (exampleSetup true).cl.adj j i) ∧
    getOperators true 1 { clusters := 45, weights := 15, clusterEffect := 10, confoundingEffects := 10, source := 10 } = .ok ops ∧
    (∀ o ∈ ops, 0 < o.2) ∧ StartsWell (exampleSetup true) exampleState ∧ (exampleSetup true).cl.minSize ≤ 1 ∧
    1 ≤ (exampleSetup true).cl.maxSize ∧
    ∀ rnd, (initialClusters (m := 0) (exampleSetup true).cl.adj rnd 1 (fun k => k.elim0) : Option (Clus 1 2)).isSome := by
  refine ⟨_, exampleSetup_wellPosed true, rfl, by simp [exampleSetup], fun _ _ => rfl, rfl, ?_, exampleState_starts, le_rfl, le_rfl,
    exampleSetup_initial⟩
  intro o ho
  simp [List.finRange] at ho
  rcases ho with rfl | rfl | rfl | rfl | rfl | rfl <;> norm_num

end SBayes.Kernel
