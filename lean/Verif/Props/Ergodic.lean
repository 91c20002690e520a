import Verif.Lemmas.ErgoTotal
import Verif.Props.Sampler
/- C83, C84: the posterior is the only limit of the sampler, and the sampler never fails. -/
namespace SBayes.Kernel
open SBayes.Lik SBayes.Clusters SBayes.MH SBayes.Effects SBayes.Posterior SBayes.Draws SBayes.Meas SBayes.MCMC SBayes.Prior MeasureTheory
open scoped BigOperators ENNReal

variable {K N F S M : ℕ} {nG : Fin M → ℕ} {m : Setup K N F S M nG}

theorem total_pos {ops : List (OpKind M × ℝ)} (hpos : ∀ o ∈ ops, 0 < o.2) (hne : ops ≠ []) : 0 < (ops.map Prod.snd).sum :=
  List.sum_pos _ (fun a ha => by
    obtain ⟨o, ho, rfl⟩ := List.mem_map.mp ha
    exact hpos o ho) (by simpa using hne)

theorem getOperators_source {cfg : OpConfig} {ops : List (OpKind M × ℝ)} (h : getOperators true M cfg = .ok ops) :
    ops ≠ [] ∧ ∀ op : OpKind M, ∃ o ∈ ops, o.1 = op := by
  unfold getOperators at h
  split at h
  · cases h
  · simp only [if_true, Except.ok.injEq] at h
    subst h
    refine ⟨by simp, fun op => ?_⟩
    cases op with
    | cluster v => cases v <;> simp
    | weights => simp
    | clusterEffect => simp
    | source => simp
    | confounding c => simp

theorem keeps_chain (hm : WellPosed m) (hs : m.cfg.sampleSource = true) {ops : List (OpKind M × ℝ)} (hd : IsDist ops) :
    Keeps (target m Prod.fst (post m)) (chainStep (post m) (propose m) ops) := by
  have key := Keeps.mix ops (ofRand_one hd)
    (fun op x => mhStep (post m) (propose m op) x) (π := target m Prod.fst (post m)) ?_
  · exact key
  · intro o _
    rcases o with ⟨op, p⟩
    cases op with
    | cluster v => exact keeps_gibbsish hm hs v
    | weights => exact keeps_weights hm hs
    | clusterEffect => exact keeps_clusterEffect hm hs
    | source => exact keeps_source hm hs
    | confounding c => exact keeps_confounding hm hs c

theorem super_chain (ops : List (OpKind M × ℝ)) (x : Disc K N F M × Cont K F S M nG) :
    Super (chainStep (post m) (propose m) ops x) := (Super.ofRand _).bind fun op => (super_propose m op x).mhStep

theorem chain_mass (hm : WellPosed m) (hs : m.cfg.sampleSource = true) {ops : List (OpKind M × ℝ)} (hd : IsDist ops) :
    ∀ᵐ x ∂target m Prod.fst (post m), chainStep (post m) (propose m) ops x 1 = 1 := by
  have h : ∀ᵐ x ∂target m Prod.fst (post m), ∀ o ∈ ops, mhStep (post m) (propose m o.1) x 1 = 1 := by
    have := fun op => op_mass hm hs op
    induction ops with
    | nil => exact ae_of_all _ fun x o ho => absurd ho (by simp)
    | cons o l _ =>
      have hall : ∀ l : List (OpKind M × ℝ), ∀ᵐ x ∂target m Prod.fst (post m), ∀ o ∈ l, mhStep (post m) (propose m o.1) x 1 = 1 := by
        intro l
        induction l with
        | nil => exact ae_of_all _ fun x o ho => absurd ho (by simp)
        | cons o l ih =>
          filter_upwards [this o.1, ih] with x h1 h2 o' ho'
          rcases List.mem_cons.mp ho' with rfl | h'
          · exact h1
          · exact h2 o' h'
      exact hall _
  filter_upwards [h] with x hx
  exact mix_mass hd (T := fun op => mhStep (post m) (propose m op) x) hx

/-- **C83.** Sampling with sources: the posterior is the only distribution with a density that the sampler leaves invariant.
Hence the chain has no other equilibrium that a run could be stuck in. All operators must be in use, and not all clusters
may be forced to their minimal size by the number of objects. -/
theorem C83_posterior_is_the_only_equilibrium (hm : WellPosed m) (hs : m.cfg.sampleSource = true) (hN : K * m.cl.minSize < N)
    (cfg : OpConfig) (ops : List (OpKind M × ℝ)) (hops : getOperators true M cfg = .ok ops) (hpos : ∀ o ∈ ops, 0 < o.2)
    (P : Measure (Disc K N F M × Cont K F S M nG)) (hP : IsProbabilityMeasure P) (hac : P ≪ target m Prod.fst (post m))
    (hinv : LeavesInvariant P (chainStep (post m) (propose m) (normalizeOperatorWeights ops))) :
    P = (target m Prod.fst (post m) Set.univ)⁻¹ • target m Prod.fst (post m) := by
  obtain ⟨hne, hall⟩ := getOperators_source hops
  have ht := total_pos hpos hne
  have hd := weights_dist (fun o ho => (hpos o ho).le) ht
  have hfin : IsFiniteMeasure (target m Prod.fst (post m)) :=
    ⟨target_finite hm (meas_post m) fun d hd c hc => post_le hm hs hd hc⟩
  refine unique_invariant (keeps_chain hm hs hd) (fun x => (super_chain _ x).add) (chain_mass hm hs hd) (fun A hA hsp => ?_) hac
    fun B hB => (hinv B hB).2
  have hop : ∀ op, Splits (target m Prod.fst (post m)) (mhStep (post m) (propose m op)) A := by
    intro op
    obtain ⟨o, ho, rfl⟩ := hall op
    exact Splits.of_mix (T := fun op x => mhStep (post m) (propose m op) x) (l := normalizeOperatorWeights ops) hsp
      (List.mem_map.mpr ⟨o, ho, rfl⟩) (div_pos (hpos o ho) ht)
  exact ops_triv hm hs hN hA (hop _) (hop _) (hop _) (hop _) fun i => hop _

/-- What holds almost everywhere, holds almost surely after a step. -/
theorem keeps_sure {X : Type} [MeasurableSpace X] {π : Measure X} [IsFiniteMeasure π] {T : X → Law X} (hT : Keeps π T)
    (hmono : ∀ x, Super (T x)) (hone : ∀ᵐ x ∂π, T x 1 = 1) {h : X → ℝ≥0∞} (hm : Measurable h) (h1 : ∀ᵐ x ∂π, h x = 1) :
    ∀ᵐ x ∂π, T x h = 1 := by
  have hm' : Measurable fun x => min (h x) 1 := hm.min measurable_const
  have i1 : ∫⁻ x, T x (fun y => min (h y) 1) ∂π = π Set.univ := by
    rw [(hT _ hm').2, lintegral_congr_ae (g := fun _ => 1) (h1.mono fun x hx => by simp [hx]), lintegral_one]
  have i2 : ∫⁻ x, T x h ∂π = π Set.univ := by
    rw [(hT _ hm).2, lintegral_congr_ae (g := fun _ => 1) h1, lintegral_one]
  have le1 : ∀ᵐ x ∂π, T x (fun y => min (h y) 1) ≤ 1 := hone.mono fun x hx =>
    ((hmono x).mono _ 1 fun y => min_le_right _ _).trans_eq hx
  have e1 : ∀ᵐ x ∂π, T x (fun y => min (h y) 1) = 1 :=
    ae_eq_of_ae_le_of_lintegral_le le1 (by rw [i1]; exact measure_ne_top _ _) aemeasurable_const (by rw [i1, lintegral_one])
  have le2 : ∀ᵐ x ∂π, (1 : ℝ≥0∞) ≤ T x h := e1.mono fun x hx =>
    hx.symm.trans_le ((hmono x).mono _ _ fun y => min_le_left _ _)
  have e2 : (fun _ => (1 : ℝ≥0∞)) =ᵐ[π] fun x => T x h :=
    ae_eq_of_ae_le_of_lintegral_le le2 (by rw [lintegral_one]; exact measure_ne_top _ _) (hT _ hm).1.aemeasurable
      (by rw [i2, lintegral_one])
  exact e2.symm

theorem keeps_sure_run {X : Type} [MeasurableSpace X] {π : Measure X} [IsFiniteMeasure π] {T : X → Law X} (hT : Keeps π T)
    (hmono : ∀ x, Super (T x)) (hone : ∀ᵐ x ∂π, T x 1 = 1) {h : X → ℝ≥0∞} (hm : Measurable h) (h1 : ∀ᵐ x ∂π, h x = 1) (n : ℕ) :
    ∀ᵐ x ∂π, run T n x h = 1 := by
  induction n with
  | zero => exact h1
  | succ n ih => exact keeps_sure hT hmono hone (Keeps.run hT n h hm).1 ih

/-- **C84.** Sampling with sources never fails: from almost every state with positive posterior (almost every choice of the
continuous parameters), with probability one, the run is not interrupted by an exception, and after any number of iterations
(with the operators in any proportions) the clusters satisfy the size limits, do not overlap, and the posterior can be evaluated and is positive. -/
theorem C84_sampling_never_fails (hm : WellPosed m) (hs : m.cfg.sampleSource = true)
    (ops : List (OpKind M × ℝ)) (hnn : ∀ o ∈ ops, 0 ≤ o.2)
    (hpos : 0 < (ops.map Prod.snd).sum) :
    ∀ᵐ x ∂target m Prod.fst (post m), ∀ n, (run (chainStep (post m) (propose m) (normalizeOperatorWeights ops)) n x).prob
      {y | Valid m.cl.minSize m.cl.maxSize y.1.1 ∧
        ∃ p, posterior m.d m.cfg m.clOrder m.confOrder m.empty (params y) = some p ∧ 0 < p} = 1 := by
  classical
  have hd := weights_dist hnn hpos
  have hfin : IsFiniteMeasure (target m Prod.fst (post m)) :=
    ⟨target_finite hm (meas_post m) fun d hd c hc => post_le hm hs hd hc⟩
  have hset : {y : Disc K N F M × Cont K F S M nG | Valid m.cl.minSize m.cl.maxSize y.1.1 ∧
        ∃ p, posterior m.d m.cfg m.clOrder m.confOrder m.empty (params y) = some p ∧ 0 < p} =
      {y | Valid m.cl.minSize m.cl.maxSize y.1.1 ∧ 0 < post m y} := by
    ext y
    rw [Set.mem_ofPred_eq, Set.mem_ofPred_eq]
    refine and_congr_right fun _ => ?_
    unfold post
    cases posterior m.d m.cfg m.clOrder m.confOrder m.empty (params y) with
    | none => simp
    | some p => simp
  rw [hset]
  have hmeas : MeasurableSet {y : Disc K N F M × Cont K F S M nG | Valid m.cl.minSize m.cl.maxSize y.1.1 ∧ 0 < post m y} := by
    have hp : Measurable (post m) := measurable_from_prod_countable_right (meas_post m)
    have h1 : MeasurableSet {y : Disc K N F M × Cont K F S M nG | 0 < post m y} := measurableSet_lt measurable_const hp
    have h2 : MeasurableSet {y : Disc K N F M × Cont K F S M nG | Valid m.cl.minSize m.cl.maxSize y.1.1} :=
      measurable_fst (MeasurableSet.of_discrete (s := {d : Disc K N F M | Valid m.cl.minSize m.cl.maxSize d.1}))
    exact h2.inter h1
  rw [ae_all_iff]
  intro n
  refine keeps_sure_run (keeps_chain hm hs hd) (fun x => super_chain _ x) (chain_mass hm hs hd) (measurable_one.indicator hmeas) ?_ n
  rw [ae_target hm hs]
  intro d hd
  filter_upwards [interior_ae hm.hasState] with c hc
  have : (d, c) ∈ {y : Disc K N F M × Cont K F S M nG | Valid m.cl.minSize m.cl.maxSize y.1.1 ∧ 0 < post m y} :=
    ⟨hd.1, hd.post_pos hm hs hc⟩
  rw [Set.indicator_of_mem this]
  rfl

/-- The requirements are met by a run with one cluster and two objects, where all operators are in use. -/
example : ∃ ops : List (OpKind 1 × ℝ), WellPosed (exampleSetup true) ∧ (exampleSetup true).cfg.sampleSource = true ∧
    1 * (exampleSetup true).cl.minSize < 2 ∧
    getOperators true 1 { clusters := 45, weights := 15, clusterEffect := 10, confoundingEffects := 10, source := 10 } = .ok ops ∧
    (∀ o ∈ ops, 0 < o.2) := by
  refine ⟨_, exampleSetup_wellPosed true, rfl, by simp [exampleSetup], rfl, ?_⟩
  intro o ho
  simp [List.finRange] at ho
  rcases ho with rfl | rfl | rfl | rfl | rfl | rfl <;> norm_num

end SBayes.Kernel
