import Verif.Spec.FreeParams
import Verif.Props.FromPrior
/- C119: a run that samples from the prior samples weights and cluster effects uniformly. -/
namespace SBayes.Kernel
open SBayes.Lik SBayes.Clusters SBayes.MH SBayes.Effects SBayes.Posterior SBayes.Draws SBayes.Meas SBayes.MCMC SBayes.Prior MeasureTheory
open SBayes.Init
open Filter Topology
open scoped BigOperators ENNReal

variable {K N F S M : ℕ} {nG : Fin M → ℕ} {m : Setup K N F S M nG}

open Classical in
/-- The prior density as a function of clusters and confounding effects. -/
noncomputable def rest (m : Setup K N F S M nG) (z : Clus K N) (q : (i : Fin M) → Fin (nG i) → Fin F → Fin S → ℝ) : ℝ≥0∞ :=
  if Valid m.cl.minSize m.cl.maxSize z then ENNReal.ofReal (Real.exp (sizePrior m.cfg.size z) * Real.exp ((geoTerm m.cfg.geo z).getD 0) *
    ∏ i, ∏ g, confEffectPrior m.cfg.app (m.cfg.conf i g) (q i g)) else 0

theorem dens_rest (hm : WellPosed m) (hs : m.cfg.sampleSource = false) (z : Clus K N) (c : Cont K F S M nG) :
    dens m id (priorOnly0 m) z c = rest m z c.2.2 := by
  classical
  unfold rest
  by_cases hz : Valid m.cl.minSize m.cl.maxSize z
  · obtain ⟨geo, hg, h⟩ := C91_density_without_sources hm hs z hz c
    rw [dens_valid (m := m) (clusters := id) (d := z) hz, if_pos hz, h, hg, Option.getD_some]
  · rw [dens_invalid (m := m) (clusters := id) (d := z) hz, if_neg hz]

theorem measurable_rest (hm : WellPosed m) (hs : m.cfg.sampleSource = false) (z : Clus K N) : Measurable (rest m z) := by
  have hp : ∀ z, Measurable fun c => priorOnly0 m (z, c) := fun z => (priorOnly0_meas m).comp (measurable_const.prodMk measurable_id)
  have h := measurable_dens (m := m) (clusters := id) hp z
  have h2 : Measurable fun q : (i : Fin M) → Fin (nG i) → Fin F → Fin S → ℝ => ((0, 0, q) : Cont K F S M nG) :=
    measurable_const.prodMk (measurable_const.prodMk measurable_id)
  have h3 := h.comp h2
  have e : (dens m id (priorOnly0 m) z ∘ fun q : (i : Fin M) → Fin (nG i) → Fin F → Fin S → ℝ => ((0, 0, q) : Cont K F S M nG)) = rest m z := by
    funext q
    exact dens_rest hm hs z (0, 0, q)
  rwa [e] at h3

theorem mass_free (hm : WellPosed m) (hs : m.cfg.sampleSource = false)
    (B : Set ((Fin F → Fin (M + 1) → ℝ) × (Fin K → Fin F → Fin S → ℝ))) (hB : MeasurableSet B) :
    target m id (priorOnly0 m) {x | (x.2.1, x.2.2.1) ∈ B} = uniformParams K M m.cfg.app B * target m id (priorOnly0 m) Set.univ := by
  have hp : ∀ z, Measurable fun c => priorOnly0 m (z, c) := fun z => (priorOnly0_meas m).comp (measurable_const.prodMk measurable_id)
  have := rows_prob (app := m.cfg.app) hm.hasState
  have : IsProbabilityMeasure (uniformSimplex (Finset.univ : Finset (Fin (M + 1)))) := uniformSimplex_prob Finset.univ_nonempty
  have hpr : IsProbabilityMeasure (uniformParams K M m.cfg.app) := by unfold uniformParams; infer_instance
  have key : ∀ B : Set ((Fin F → Fin (M + 1) → ℝ) × (Fin K → Fin F → Fin S → ℝ)), MeasurableSet B →
      target m id (priorOnly0 m) {x | (x.2.1, x.2.2.1) ∈ B} = uniformParams K M m.cfg.app B *
        ∑ z : Clus K N, ∫⁻ q, rest m z q ∂(Measure.pi fun c => Measure.pi fun _ : Fin (nG c) => Measure.pi fun f => uniformSimplex (states m.cfg.app f)) := by
    intro B hB
    have hpair : Measurable fun x : Clus K N × Cont K F S M nG => (x.2.1, x.2.2.1) :=
      (measurable_fst.comp measurable_snd).prodMk (measurable_fst.comp (measurable_snd.comp measurable_snd))
    have hE : MeasurableSet {x : Clus K N × Cont K F S M nG | (x.2.1, x.2.2.1) ∈ B} := hpair hB
    rw [← lintegral_indicator_one hE, lintegral_target hp (measurable_one.indicator hE), Finset.mul_sum]
    refine Finset.sum_congr rfl fun z _ => ?_
    have e1 : ∀ c : Cont K F S M nG, dens m id (priorOnly0 m) z c *
        Set.indicator {x : Clus K N × Cont K F S M nG | (x.2.1, x.2.2.1) ∈ B} 1 (z, c) =
        rest m z c.2.2 * B.indicator (fun _ => 1) (c.1, c.2.1) := by
      intro c
      rw [dens_rest hm hs]
      rfl
    simp only [e1]
    have hr := measurable_rest hm hs z
    have hi : Measurable (B.indicator fun _ => (1 : ℝ≥0∞)) := measurable_const.indicator hB
    have hcont : Measurable fun c : Cont K F S M nG => rest m z c.2.2 * B.indicator (fun _ => 1) (c.1, c.2.1) :=
      (hr.comp (measurable_snd.comp measurable_snd)).mul (hi.comp (measurable_fst.prodMk (measurable_fst.comp measurable_snd)))
    rw [contRef, lintegral_prod _ hcont.aemeasurable]
    have e2 : ∀ w : Fin F → Fin (M + 1) → ℝ,
        ∫⁻ y : (Fin K → Fin F → Fin S → ℝ) × ((i : Fin M) → Fin (nG i) → Fin F → Fin S → ℝ), rest m z y.2 * B.indicator (fun _ => 1) (w, y.1)
          ∂((Measure.pi fun _ : Fin K => Measure.pi fun f => uniformSimplex (states m.cfg.app f)).prod
            (Measure.pi fun c => Measure.pi fun _ : Fin (nG c) => Measure.pi fun f => uniformSimplex (states m.cfg.app f))) =
        (∫⁻ e, B.indicator (fun _ => 1) (w, e) ∂(Measure.pi fun _ : Fin K => Measure.pi fun f => uniformSimplex (states m.cfg.app f))) *
          ∫⁻ q, rest m z q ∂(Measure.pi fun c => Measure.pi fun _ : Fin (nG c) => Measure.pi fun f => uniformSimplex (states m.cfg.app f)) := by
      intro w
      have hw : Measurable fun e : Fin K → Fin F → Fin S → ℝ => B.indicator (fun _ => (1 : ℝ≥0∞)) (w, e) :=
        hi.comp (measurable_const.prodMk measurable_id)
      rw [← lintegral_prod_mul hw.aemeasurable hr.aemeasurable]
      exact lintegral_congr fun y => mul_comm _ _
    simp only [e2]
    have hm1 : Measurable fun w : Fin F → Fin (M + 1) → ℝ => ∫⁻ e, B.indicator (fun _ => (1 : ℝ≥0∞)) (w, e)
        ∂(Measure.pi fun _ : Fin K => Measure.pi fun f => uniformSimplex (states m.cfg.app f)) := hi.lintegral_prod_right'
    rw [lintegral_mul_const _ hm1, ← lintegral_prod _ hi.aemeasurable, lintegral_indicator hB, setLIntegral_one]
    rfl
  have hu := key Set.univ MeasurableSet.univ
  rw [measure_univ, one_mul] at hu
  rw [key B hB, ← hu]
  rfl

open Classical in
/-- **C119.** With `sample_from_prior`, a whole run without sources samples the weights and the cluster effects uniformly and independently: the
fraction of the samples with weights and effects in `B` converges to the probability of `B` under the uniform distribution on probability
vectors, whatever the data, the prior of the clusters and the priors of the confounding effects are. -/
theorem C119_weights_and_effects_are_uniform_without_sources (hm : WellPosed m) (hs : m.cfg.sampleSource = false) (hf : CanMove m)
    (hadj : ∀ i j, m.cl.adj i j = m.cl.adj j i)
    (cfg : OpConfig) (ops : List (OpKind M × ℝ)) (hops : getOperators false M cfg = .ok ops) (hpos : ∀ o ∈ ops, 0 < o.2)
    (sz nChains warmSteps : ℕ) (hsz : 1 ≤ sz) (hlo : m.cl.minSize ≤ sz) (hhi : sz ≤ m.cl.maxSize) (hchains : 0 < nChains)
    (rnd : Fin nChains → ℕ → ℕ) (rnd' : ℕ → ℕ) (blank : Fin nChains → State0 K N F S M nG)
    (hrnd : ∀ c, (initialClusters (m := 0) m.cl.adj (rnd c) sz (fun k => k.elim0) : Option (Clus K N)).isSome)
    (s : ℕ) (hs0 : 0 < s) (B : Set ((Fin F → Fin (M + 1) → ℝ) × (Fin K → Fin F → Fin S → ℝ))) (hB : MeasurableSet B) (ε : ℝ) (hε : 0 < ε) :
    Tendsto (fun n : ℕ => (wholeRunPrior0 m (normalizeOperatorWeights ops) sz nChains warmSteps rnd rnd' blank s n).prob
      {l | |(l.countP (fun x => decide ((x.2.1, x.2.2.1) ∈ B)) : ℝ) / (l.length : ℝ) - (uniformParams K M m.cfg.app B).toReal| < ε})
        atTop (𝓝 1) := by
  have hset : {x : Clus K N × Cont K F S M nG | decide ((x.2.1, x.2.2.1) ∈ B) = true} = {x | (x.2.1, x.2.2.1) ∈ B} := by
    ext x
    simp
  have hQ : MeasurableSet {x : Clus K N × Cont K F S M nG | decide ((x.2.1, x.2.2.1) ∈ B) = true} := by
    rw [hset]
    exact ((measurable_fst.comp measurable_snd).prodMk (measurable_fst.comp (measurable_snd.comp measurable_snd))) hB
  have hmeas : Measurable fun x : Clus K N × Cont K F S M nG => if decide ((x.2.1, x.2.2.1) ∈ B) = true then (1 : ℝ) else 0 :=
    Measurable.ite hQ measurable_const measurable_const
  have h := C91_whole_run_converges_without_sources hm hs hf hadj cfg ops hops hpos sz nChains warmSteps hsz hlo hhi hchains rnd rnd' blank hrnd
    s hs0 _ hmeas 1 (fun x => by split <;> simp) ε hε
  have hv := (priorRun0 hm hs hf.feature hf.twoStates hadj cfg ops hops hpos sz nChains warmSteps hsz hlo hhi hchains rnd rnd' blank hrnd).1
  obtain ⟨h0, h1⟩ := (C81_posterior_is_proper (m := emptied m) (emptied_wellPosed hm) hv).2 hs
  rw [target0_emptied hm] at h0 h1
  rw [mean_count _ _ hQ, hset, mass_free hm hs B hB, ENNReal.toReal_mul, mul_div_cancel_right₀ _ (ENNReal.toReal_pos h0 h1).ne'] at h
  simp only [count_mean] at h
  exact h

open Classical in
/-- **C119.** The same with sources. -/
theorem C119_weights_and_effects_are_uniform (hm : WellPosed m) (hs : m.cfg.sampleSource = true) (hN : K * m.cl.minSize < N)
    (hadj : ∀ i j, m.cl.adj i j = m.cl.adj j i)
    (cfg : OpConfig) (ops : List (OpKind M × ℝ)) (hops : getOperators true M cfg = .ok ops) (hpos : ∀ o ∈ ops, 0 < o.2)
    (sz nChains warmSteps : ℕ) (hsz : 1 ≤ sz) (hlo : m.cl.minSize ≤ sz) (hhi : sz ≤ m.cl.maxSize) (hchains : 0 < nChains)
    (garbage : Fin N × Fin F → Fin (M + 1)) (rnd : Fin nChains → ℕ → ℕ) (rnd' : ℕ → ℕ) (blank : Fin nChains → State K N F S M nG)
    (hrnd : ∀ c, (initialClusters (m := 0) m.cl.adj (rnd c) sz (fun k => k.elim0) : Option (Clus K N)).isSome)
    (s : ℕ) (hs0 : 0 < s) (B : Set ((Fin F → Fin (M + 1) → ℝ) × (Fin K → Fin F → Fin S → ℝ))) (hB : MeasurableSet B) (ε : ℝ) (hε : 0 < ε) :
    Tendsto (fun n : ℕ => (wholeRunPrior m (normalizeOperatorWeights ops) sz nChains warmSteps garbage rnd rnd' blank s n).prob
      {l | |(l.countP (fun x => decide ((x.2.1, x.2.2.1) ∈ B)) : ℝ) / (l.length : ℝ) - (uniformParams K M m.cfg.app B).toReal| < ε})
        atTop (𝓝 1) := by
  have hset : {x : Disc K N F M × Cont K F S M nG | decide ((x.2.1, x.2.2.1) ∈ B) = true} = {x | (x.2.1, x.2.2.1) ∈ B} := by
    ext x
    simp
  have hQ : MeasurableSet {x : Disc K N F M × Cont K F S M nG | decide ((x.2.1, x.2.2.1) ∈ B) = true} := by
    rw [hset]
    exact ((measurable_fst.comp measurable_snd).prodMk (measurable_fst.comp (measurable_snd.comp measurable_snd))) hB
  have hmeas : Measurable fun x : Disc K N F M × Cont K F S M nG => if decide ((x.2.1, x.2.2.1) ∈ B) = true then (1 : ℝ) else 0 :=
    Measurable.ite hQ measurable_const measurable_const
  have h := C91_whole_run_converges hm hs hN hadj cfg ops hops hpos sz nChains warmSteps hsz hlo hhi hchains garbage rnd rnd' blank hrnd
    s hs0 _ hmeas 1 (fun x => by split <;> simp) ε hε
  have hv := (priorRun hm hs hadj cfg ops hops hpos sz nChains warmSteps hsz hlo hhi hchains garbage rnd rnd' blank hrnd).1
  have hB' : MeasurableSet {x : Clus K N × Cont K F S M nG | (x.2.1, x.2.2.1) ∈ B} :=
    ((measurable_fst.comp measurable_snd).prodMk (measurable_fst.comp (measurable_snd.comp measurable_snd))) hB
  have e1 := marginal_prior hm hs {x | (x.2.1, x.2.2.1) ∈ B} hB'
  have e2 := marginal_prior hm hs Set.univ MeasurableSet.univ
  have e3 : {x : Disc K N F M × Cont K F S M nG | (x.1.1, x.2) ∈ (Set.univ : Set (Clus K N × Cont K F S M nG))} = Set.univ :=
    Set.eq_univ_of_forall fun _ => trivial
  rw [e3] at e2
  have e4 : {x : Disc K N F M × Cont K F S M nG | (x.1.1, x.2) ∈ ({x | (x.2.1, x.2.2.1) ∈ B} : Set (Clus K N × Cont K F S M nG))} =
      {x | (x.2.1, x.2.2.1) ∈ B} := rfl
  rw [e4] at e1
  have hm' := withSampling_wellPosed hm false
  obtain ⟨h0, h1⟩ := (C81_posterior_is_proper (m := emptied (withSampling m false)) (emptied_wellPosed hm') hv).2 rfl
  rw [target0_emptied hm'] at h0 h1
  rw [mean_count _ _ hQ, hset, e1, e2, mass_free (m := withSampling m false) hm' rfl B hB, ENNReal.toReal_mul,
    mul_div_cancel_right₀ _ (ENNReal.toReal_pos h0 h1).ne'] at h
  simp only [count_mean] at h
  exact h

/-- The distribution of the weights of one feature. -/
theorem uniformParams_weights (app : Fin F → Fin S → Bool) (happ : ∀ f, ∃ s, app f s = true) (f : Fin F) (A : Set (Fin (M + 1) → ℝ))
    (hA : MeasurableSet A) : uniformParams K M app {p | p.1 f ∈ A} = uniformSimplex Finset.univ A := by
  have := rows_prob (app := app) happ
  have : IsProbabilityMeasure (uniformSimplex (Finset.univ : Finset (Fin (M + 1)))) := uniformSimplex_prob Finset.univ_nonempty
  have h : {p : (Fin F → Fin (M + 1) → ℝ) × (Fin K → Fin F → Fin S → ℝ) | p.1 f ∈ A} = (Function.eval f ⁻¹' A) ×ˢ Set.univ := by
    ext p
    simp
  rw [h, uniformParams, Measure.prod_prod, measure_univ, mul_one]
  exact (measurePreserving_eval (fun _ : Fin F => uniformSimplex (Finset.univ : Finset (Fin (M + 1)))) f).measure_preimage hA.nullMeasurableSet

theorem quarter : uniformSimplex (Finset.univ : Finset (Fin 2)) {u | u 0 ≤ 1 / 4} = ENNReal.ofReal (1 / 4) := by
  have hA : MeasurableSet {u : Fin 2 → ℝ | u 0 ≤ 1 / 4} := measurableSet_le (measurable_pi_apply 0) measurable_const
  rw [← lintegral_indicator_one hA, uniformSimplex_two (measurable_one.indicator hA)]
  have e : ∀ t : ℝ, Set.indicator {u : Fin 2 → ℝ | u 0 ≤ 1 / 4} (1 : (Fin 2 → ℝ) → ℝ≥0∞) ![t, 1 - t] = Set.indicator (Set.Iic (1 / 4)) 1 t := by
    intro t
    rfl
  simp only [e]
  rw [lintegral_indicator_one measurableSet_Iic, Measure.restrict_apply measurableSet_Iic]
  have : Set.Iic (1 / 4 : ℝ) ∩ Set.Ioo 0 1 = Set.Ioc 0 (1 / 4) := by
    ext t
    simp only [Set.mem_inter_iff, Set.mem_Iic, Set.mem_Ioo, Set.mem_Ioc]
    constructor
    · rintro ⟨h1, h2, h3⟩
      exact ⟨h2, h1⟩
    · rintro ⟨h1, h2⟩
      exact ⟨h2, h1, by linarith⟩
  rw [this, Real.volume_Ioc, sub_zero]

open Classical in
/-- The requirements are met by a run without sources: with one confounder, the weight of the cluster effect is at most a quarter in a quarter
of the samples. -/
example : ∃ ops : List (OpKind 1 × ℝ),
    getOperators false 1 { clusters := 45, weights := 15, clusterEffect := 10, confoundingEffects := 10, source := 0 } = .ok ops ∧
    ∀ ε > 0, Tendsto (fun n : ℕ => (wholeRunPrior0 widerSetup (normalizeOperatorWeights ops) 1 3 10 (fun _ _ => 0) (fun _ => 0)
      (fun _ => widerState) 5 n).prob {l | |(l.countP (fun x => decide (x.2.1 0 0 ≤ 1 / 4)) : ℝ) / (l.length : ℝ) - 1 / 4| < ε}) atTop (𝓝 1) := by
  refine ⟨_, rfl, fun ε hε => ?_⟩
  have hA : MeasurableSet {u : Fin 2 → ℝ | u 0 ≤ 1 / 4} := measurableSet_le (measurable_pi_apply 0) measurable_const
  have h := C119_weights_and_effects_are_uniform_without_sources widerSetup_wellPosed rfl widerSetup_canMove (fun _ _ => rfl)
    { clusters := 45, weights := 15, clusterEffect := 10, confoundingEffects := 10, source := 0 } _ rfl (by
      intro o ho
      simp [List.finRange] at ho
      rcases ho with rfl | rfl | rfl | rfl <;> norm_num) 1 3 10 le_rfl le_rfl
    (by norm_num [widerSetup]) (by norm_num) (fun _ _ => 0) (fun _ => 0) (fun _ => widerState) (fun _ => widerSetup_initial _) 5 (by norm_num)
    {p | p.1 0 ∈ {u : Fin 2 → ℝ | u 0 ≤ 1 / 4}} (((measurable_pi_apply 0).comp measurable_fst) hA) ε hε
  rw [uniformParams_weights _ widerSetup_wellPosed.hasState 0 _ hA, quarter, ENNReal.toReal_ofReal (by norm_num)] at h
  exact h

open Classical in
/-- The same with sources. -/
example : ∃ ops : List (OpKind 1 × ℝ),
    getOperators true 1 { clusters := 45, weights := 15, clusterEffect := 10, confoundingEffects := 10, source := 10 } = .ok ops ∧
    ∀ ε > 0, Tendsto (fun n : ℕ => (wholeRunPrior (withSampling widerSetup true) (normalizeOperatorWeights ops) 1 3 10 (fun _ => 0) (fun _ _ => 0)
      (fun _ => 0) (fun _ => ((widerState.1, fun _ => 0), widerState.2)) 5 n).prob
        {l | |(l.countP (fun x => decide (x.2.1 0 0 ≤ 1 / 4)) : ℝ) / (l.length : ℝ) - 1 / 4| < ε}) atTop (𝓝 1) := by
  refine ⟨_, rfl, fun ε hε => ?_⟩
  have hA : MeasurableSet {u : Fin 2 → ℝ | u 0 ≤ 1 / 4} := measurableSet_le (measurable_pi_apply 0) measurable_const
  have h := C119_weights_and_effects_are_uniform (withSampling_wellPosed widerSetup_wellPosed true) rfl
    (by norm_num [withSampling, widerSetup]) (fun _ _ => rfl)
    { clusters := 45, weights := 15, clusterEffect := 10, confoundingEffects := 10, source := 10 } _ rfl (by
      intro o ho
      simp [List.finRange] at ho
      rcases ho with rfl | rfl | rfl | rfl | rfl | rfl <;> norm_num) 1 3 10 le_rfl le_rfl
    (by norm_num [withSampling, widerSetup]) (by norm_num) (fun _ => 0) (fun _ _ => 0) (fun _ => 0) (fun _ => ((widerState.1, fun _ => 0), widerState.2))
    (fun _ => widerSetup_initial _) 5 (by norm_num)
    {p | p.1 0 ∈ {u : Fin 2 → ℝ | u 0 ≤ 1 / 4}} (((measurable_pi_apply 0).comp measurable_fst) hA) ε hε
  rw [uniformParams_weights _ (withSampling_wellPosed widerSetup_wellPosed true).hasState 0 _ hA, quarter, ENNReal.toReal_ofReal (by norm_num)] at h
  exact h

end SBayes.Kernel
