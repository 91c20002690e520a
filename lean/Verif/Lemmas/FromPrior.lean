import Verif.Model.FromPrior
import Verif.Props.StartAlter
/- Sampling from the prior is sampling from the posterior of a data set without observations. -/
namespace SBayes.Meas
open SBayes.Lik SBayes.Clusters SBayes.MH SBayes.Source SBayes.Effects SBayes.Posterior SBayes.Draws SBayes.Kernel SBayes.MCMC SBayes.Init MeasureTheory
open Filter Topology
open scoped BigOperators ENNReal

variable {K N F S M : ℕ} {nG : Fin M → ℕ} {m : Setup K N F S M nG}

/-- The run without observations. -/
def emptied (m : Setup K N F S M nG) : Setup K N F S M nG :=
  { m with d := { m.d with features := fun _ _ _ => false }, flat := true }

theorem emptied_wellPosed (hm : WellPosed m) : WellPosed (emptied m) :=
  { hm with observed := fun _ _ => Or.inl fun _ => rfl }

theorem isNA_empty (n : Fin N) (f : Fin F) : isNA (fun _ _ _ => false : Features N F S) n f = true := by
  unfold isNA
  simp

theorem components_empty (p : Params ℝ K N F S M nG) (clO : List (Fin K)) (cfO : (c : Fin M) → List (Fin (nG c)))
    (empty : Fin N → Fin F → Fin (M + 1) → ℝ) (n : Fin N) (f : Fin F) (i : Fin (M + 1)) :
    updateComponents (emptied m).d p clO cfO empty n f i = 1 := by
  unfold updateComponents
  refine Fin.cases ?_ (fun c => ?_) i
  · simp only [Fin.cons_zero]
    unfold overwriteNA
    exact if_pos (isNA_empty n f)
  · simp only [Fin.cons_succ]
    unfold overwriteNA
    exact if_pos (isNA_empty n f)

theorem componentLh_empty (e : Fin K → Fin F → Fin S → ℝ) (ce : (c : Fin M) → Fin (nG c) → Fin F → Fin S → ℝ) (z : Clus K N)
    (n : Fin N) (f : Fin F) (i : Fin (M + 1)) : componentLh (emptied m).d e ce z n f i = 1 := by
  unfold componentLh
  refine Fin.cases ?_ (fun c => ?_) i
  · rw [Fin.cons_zero]
    unfold overwriteNA
    exact if_pos (isNA_empty n f)
  · rw [Fin.cons_succ]
    unfold confLh overwriteNA
    exact if_pos (isNA_empty n f)

theorem sum_normalizeWeights (w : Fin F → Fin (M + 1) → ℝ) (has : Fin N → Fin (M + 1) → Bool) (n : Fin N) (f : Fin F) :
    (∑ i, normalizeWeights w has n f i = 1) ∨ ∀ i, normalizeWeights w has n f i = 0 := by
  unfold normalizeWeights
  by_cases h : ∑ c', w f c' * b2n ℝ (has n c') = 0
  · right
    intro i
    rw [h, div_zero]
  · left
    rw [← Finset.sum_div, div_self h]

theorem sourcePosterior_empty (w : Fin F → Fin (M + 1) → ℝ) (e : Fin K → Fin F → Fin S → ℝ) (ce : (c : Fin M) → Fin (nG c) → Fin F → Fin S → ℝ)
    (z : Clus K N) : sourcePosterior (emptied m).d w e ce z = normalizeWeights w (hasComponents m.d z) := by
  funext n f i
  unfold sourcePosterior
  simp only [componentLh_empty, one_mul]
  show normalizeWeights w (hasComponents m.d z) n f i / _ = _
  rcases sum_normalizeWeights w (hasComponents m.d z) n f with h | h
  · have : ∑ c, normalizeWeights w (hasComponents (emptied m).d z) n f c = 1 := h
    rw [this, div_one]
  · rw [h i, zero_div]

theorem counts_empty {C : ℕ} (src : Fin N → Fin F → Fin C → Bool) (c : Fin C) (g : Fin N → Bool) :
    attributedCounts (emptied m).d.features src c g = fun _ _ => 0 := by
  funext f s
  unfold attributedCounts
  refine Finset.sum_eq_zero fun n _ => ?_
  show (if _ then (if false = true then (1 : ℝ) else 0) else 0) = 0
  simp

theorem clusterProb_empty (c : Cont K F S M nG) : clusterProb (emptied m) c = fun _ _ _ => 1 / 2 := rfl

theorem propose_emptied (m : Setup K N F S M nG) : propose (emptied m) = proposePrior m := by
  funext op x
  have hs : ∀ w e ce, (sourcePosterior (emptied m).d w e ce : Clus K N → _) = fun z => normalizeWeights w (hasComponents m.d z) := fun w e ce =>
    funext fun z => sourcePosterior_empty w e ce z
  unfold propose proposePrior
  cases op with
  | cluster v =>
    cases v
    · dsimp only
      rw [hs]
      rfl
    · dsimp only
      rw [hs]
      rfl
  | weights => rfl
  | clusterEffect =>
    dsimp only
    simp only [counts_empty]
    rfl
  | source =>
    dsimp only
    rw [sourcePosterior_empty]
  | confounding c =>
    dsimp only
    simp only [counts_empty]
    rfl

theorem drawSources_emptied (m : Setup K N F S M nG) : drawSources (emptied m) = drawSourcesPrior m := by
  funext x
  unfold drawSources drawSourcesPrior
  rw [sourcePosterior_empty]

theorem post_emptied (m : Setup K N F S M nG) : Kernel.post (emptied m) = priorOnly m := by
  funext x
  unfold Kernel.post priorOnly posterior
  have hl : likelihood (freshObservationLhs (emptied m).d (params x) (emptied m).clOrder (emptied m).confOrder (emptied m).empty) = 1 := by
    unfold likelihood freshObservationLhs params
    dsimp only [observationLhs]
    simp only [components_empty]
    exact List.prod_eq_one fun y hy => by
      obtain ⟨t, -, rfl⟩ := List.mem_map.mp hy
      rfl
  rw [hl]
  simp only [one_mul]
  rw [Option.map_id']
  rfl

theorem post0_emptied {z : Clus K N} (hm : WellPosed m) {c : Cont K F S M nG} (hw : ∀ f i, 0 < c.1 f i) :
    post0 (emptied m) (z, c) = priorOnly0 m (z, c) := by
  unfold post0 priorOnly0 posterior
  have hl : likelihood (freshObservationLhs (emptied m).d (params0 (z, c)) (emptied m).clOrder (emptied m).confOrder (emptied m).empty) = 1 := by
    unfold likelihood freshObservationLhs params0
    dsimp only [observationLhs]
    simp only [components_empty, mul_one]
    refine List.prod_eq_one fun y hy => ?_
    obtain ⟨n, -, hy⟩ := List.mem_flatMap.mp hy
    obtain ⟨f, -, rfl⟩ := List.mem_map.mp hy
    rcases sum_normalizeWeights c.1 (hasComponents m.d z) n f with h | h
    · exact h
    · exfalso
      obtain ⟨i, hi⟩ := has_some hm z n
      have h := h i
      unfold normalizeWeights at h
      have hpos : 0 < ∑ c', c.1 f c' * b2n ℝ (hasComponents m.d z n c') := by
        refine Finset.sum_pos' (fun j _ => mul_nonneg (hw f j).le (by unfold b2n; split <;> norm_num)) ⟨i, Finset.mem_univ i, ?_⟩
        rw [hi]
        simpa [b2n] using hw f i
      rw [hi] at h
      have := div_pos (show 0 < c.1 f i * b2n ℝ true by simpa [b2n] using hw f i) hpos
      linarith
  rw [hl]
  simp only [one_mul]
  rw [Option.map_id']
  rfl

/-! ### Without sources -/

theorem ofRand_congr {α : Type} {l : Rand α} {g h : α → ℝ≥0∞} (H : ∀ p ∈ l, g p.1 = h p.1) : Law.ofRand l g = Law.ofRand l h := by
  unfold Law.ofRand
  congr 1
  exact List.map_congr_left fun p hp => congrArg (ENNReal.ofReal p.2 * ·) (H p hp)

/-- The step after the proposal. -/
noncomputable def afterwards {σ : Type} (post : σ → ℝ) (x : σ) (g : σ → ℝ≥0∞) (r : Result σ) : ℝ≥0∞ :=
  let a := acceptProb (post x) (post r.new) r.q r.qBack
  Law.ofRand [(r.new, a), (x, 1 - a)] g

theorem mhStep_afterwards {σ : Type} (post : σ → ℝ) (propose : σ → Law (Result σ)) (x : σ) (g : σ → ℝ≥0∞) :
    mhStep post propose x g = propose x (afterwards post x g) := rfl

theorem afterwards_congr {σ : Type} {post post' : σ → ℝ} {x : σ} {r : Result σ} (hx : post x = post' x) (hr : post r.new = post' r.new)
    (g : σ → ℝ≥0∞) : afterwards post x g r = afterwards post' x g r := by
  unfold afterwards
  rw [hx, hr]

theorem propose0_emptied (m : Setup K N F S M nG) (op : OpKind M) : propose0 (emptied m) op = propose0 m op := by
  funext x
  cases op <;> rfl

/-- Without sources, only states with positive weights are proposed. -/
theorem propose0_congr {x : Clus K N × Cont K F S M nG} (hx : ∀ f, Row Finset.univ (x.2.1 f)) (op : OpKind M)
    {A B : Result (Clus K N × Cont K F S M nG) → ℝ≥0∞} (h : ∀ r, (∀ f i, 0 < r.new.2.1 f i) → A r = B r) :
    propose0 m op x A = propose0 m op x B := by
  have hw : ∀ f i, 0 < x.2.1 f i := fun f i => (hx f).pos (Finset.mem_univ i)
  cases op with
  | cluster v =>
    unfold propose0 Law.bind Law.ret
    exact ofRand_congr fun p _ => h _ hw
  | source => rfl
  | clusterEffect =>
    unfold propose0 Law.bind Law.ret
    refine ofRand_congr fun k _ => ofRand_congr fun f _ => ofRand_congr fun ij _ => ?_
    dsimp only
    rw [drawShare_eq, drawShare_eq]
    exact lintegral_congr fun t => h _ hw
  | confounding c =>
    unfold propose0 Law.bind Law.ret
    refine ofRand_congr fun k _ => ofRand_congr fun f _ => ofRand_congr fun ij _ => ?_
    dsimp only
    rw [drawShare_eq, drawShare_eq]
    exact lintegral_congr fun t => h _ hw
  | weights =>
    unfold propose0 Law.bind Law.ret
    refine ofRand_congr fun f _ => ofRand_congr fun ij hij => ?_
    obtain ⟨-, -, hne⟩ := samplePair_mem hij
    dsimp only
    rw [drawShare_eq, drawShare_eq]
    refine lintegral_congr_ae ((share_ae fun k => shareAlpha_pos (by norm_num) (hw _ _) (hw _ _) k).mono fun t ht => h _ fun f' i => ?_)
    show 0 < Function.update x.2.1 f.1 (alterPair 30 (x.2.1 f.1) ij.1.1 ij.1.2 t).new f' i
    by_cases hf : f' = f.1
    · rw [hf, Function.update_self, ht.2, along_alterPair]
      exact ((hx f.1).along (Finset.mem_univ _) (Finset.mem_univ _) hne ht.1).pos (Finset.mem_univ i)
    · rw [Function.update_of_ne hf]
      exact hw f' i

theorem step0_emptied (hm : WellPosed m) {x : Clus K N × Cont K F S M nG} (hx : ∀ f, Row Finset.univ (x.2.1 f)) (op : OpKind M) :
    mhStep (priorOnly0 m) (propose0 m op) x = mhStep (post0 (emptied m)) (propose0 (emptied m) op) x := by
  funext g
  rw [mhStep_afterwards, mhStep_afterwards, propose0_emptied]
  refine propose0_congr hx op fun r hr => afterwards_congr ?_ ?_ g
  · exact (post0_emptied (z := x.1) (c := x.2) hm fun f i => (hx f).pos (Finset.mem_univ i)).symm
  · exact (post0_emptied (z := r.new.1) (c := r.new.2) hm hr).symm

theorem chain0_emptied (hm : WellPosed m) {x : Clus K N × Cont K F S M nG} (hx : x ∈ Live0 m) (ops : List (OpKind M × ℝ)) :
    chainStep (priorOnly0 m) (propose0 m) ops x = chainStep (post0 (emptied m)) (propose0 (emptied m)) ops x := by
  funext g
  exact ofRand_congr (g := fun op => mhStep (priorOnly0 m) (propose0 m op) x g)
    (h := fun op => mhStep (post0 (emptied m)) (propose0 (emptied m) op) x g) fun p _ => congrFun (step0_emptied hm hx.2.w p.1) g

/-- Loops whose steps agree where they stay agree. -/
theorem loop_congr {X : Type} [MeasurableSpace X] {G : Set X} {T U : X → Law X} {κ : ProbabilityTheory.Kernel X X} (hT : RepOn G T κ)
    (h : ∀ x ∈ G, U x = T x) (s : ℕ) (n i : ℕ) (x : X) (hx : x ∈ G) : sampleLoop U s n i x = sampleLoop T s n i x := by
  induction n generalizing i x with
  | zero => rfl
  | succ n ih =>
    funext g
    show U x (fun y => sampleLoop U s n (i + 1) y fun l => g (if i % s = 0 then y :: l else l)) =
      T x (fun y => sampleLoop T s n (i + 1) y fun l => g (if i % s = 0 then y :: l else l))
    rw [h x hx]
    exact hT.loc x hx _ _ fun y hy => by rw [ih (i + 1) y hy]

theorem priorOnly0_meas (m : Setup K N F S M nG) : Measurable (priorOnly0 m) := by
  refine measurable_from_prod_countable_right fun z => ?_
  have hconf : Measurable fun c : Cont K F S M nG => ∏ i, ∏ g, confEffectPrior m.cfg.app (m.cfg.conf i g) (c.2.2 i g) := by
    refine Finset.measurable_fun_prod _ fun c _ => Finset.measurable_fun_prod _ fun g _ => ?_
    unfold confEffectPrior
    rcases m.cfg.conf c g with _ | conc
    · exact measurable_const
    · exact Finset.measurable_fun_prod _ fun f _ => meas_dirichletPdf _ _ fun s => by fun_prop
  unfold priorOnly0 prior params0
  dsimp only
  rcases geoTerm m.cfg.geo z with _ | geo
  · simp
  · rcases m.cfg.sampleSource with _ | _
    · simp only [sourceTerm, Option.bind_eq_bind, Option.bind_some, Option.getD_some]
      exact (measurable_const.mul hconf).mul measurable_const
    · simp [sourceTerm]

/-! ### The start of a run -/

theorem initialPrior_some (x : State K N F S M nG) (hx : Interior m.cfg.app x.2) (sz : ℕ) (garbage : Fin N × Fin F → Fin (M + 1)) (rnd : ℕ → ℕ) :
    initialSamplePrior m sz garbage (some x) rnd = drawSources (emptied m) ((x.1.1, garbage), x.2) := by
  rw [← initialSample_some (m := emptied m) x hx sz garbage rnd]
  unfold initialSamplePrior initialSample
  rw [drawSources_emptied]
  have h3 : ∀ (y : Features N F S) (z : Clus K N), initialClusterEffect y m.cfg.app x.2.2.1 z = x.2.2.1 := fun y z => by
    funext k
    unfold initialClusterEffect
    rw [dif_pos k.2]
  dsimp only
  simp only [h3]
  have h4 : ∀ y : Features N F S, initialClusterEffect y (emptied m).cfg.app x.2.2.1 = fun _ => x.2.2.1 := fun y => funext fun z => h3 y z
  simp only [h4]
  rfl

/-- The start of the main run. -/
theorem lands_startPrior (hm : WellPosed m) (hs : m.cfg.sampleSource = true) {step : State K N F S M nG → Law (State K N F S M nG)}
    (hstep : Acts (Live m) (Live m) step) {n : ℕ} (hn : 0 < n) (sz w : ℕ) (garbage : Fin N × Fin F → Fin (M + 1))
    (rnd : Fin n → ℕ → ℕ) (rnd' : ℕ → ℕ) (blank : Fin n → State K N F S M nG)
    (hrnd : ∀ c, ∃ z : Clus K N, initialClusters (m := 0) m.cl.adj (rnd c) sz (fun k => k.elim0) = some z ∧ Valid m.cl.minSize m.cl.maxSize z) :
    Lands (Live m) (Law.bind (warmUp (priorOnly m) (fun c => initialSamplePrior m sz garbage none (rnd c)) step w blank) fun x =>
      initialSamplePrior m sz garbage (some x) rnd') := by
  have hL := live_meas m
  have hm' := emptied_wellPosed hm
  have hinit : ∀ c, ∃ r : Rand (State K N F S M nG), initialSamplePrior m sz garbage none (rnd c) = Law.ofRand r ∧ IsDist r ∧
      ∀ p ∈ r, p.2 ≠ 0 → p.1 ∈ Live m := by
    intro c
    obtain ⟨z, hz, hv⟩ := hrnd c
    obtain ⟨r, h1, h2, h3, -⟩ := drawSources_eq (m := emptied m) hm' hs (initial_pre hm hv garbage)
    refine ⟨r, ?_, h2, h3⟩
    rw [← h1, drawSources_emptied]
    unfold initialSamplePrior
    dsimp only
    rw [hz]
  choose r hr1 hr2 hr3 using hinit
  have hmeas : Measurable (priorOnly m) := by
    rw [← post_emptied]
    exact measurable_from_prod_countable_right (meas_post (emptied m))
  have hwarm : Lands (Live m) (warmUp (priorOnly m) (fun c => initialSamplePrior m sz garbage none (rnd c)) step w blank) := by
    unfold warmUp
    refine Lands.bind hL (lands_initial hL hr1 hr2 hr3 blank) ?_
    exact Acts.comp hL (Acts.run (allIn_meas hL n) (acts_forChains hL (fun _ => hstep) _) w) (acts_best hL hn hmeas)
  refine Lands.bind hL hwarm ?_
  have hφ : Measurable fun x : State K N F S M nG => (((x.1.1, garbage), x.2) : State K N F S M nG) :=
    ((measurable_fst.comp measurable_fst).prodMk measurable_const).prodMk measurable_snd
  have hacts : Acts (Live m) (Live m) fun x : State K N F S M nG => Law.bind (Law.ret ((x.1.1, garbage), x.2)) (drawSources (emptied m)) :=
    Acts.comp hL (Acts.ret (pre_meas m) hφ fun x hx => ⟨hx.1.1, hx.2⟩) (acts_drawSources hm' hs)
  exact hacts.congr fun x hx => initialPrior_some x hx.2 sz garbage rnd'

end SBayes.Meas
