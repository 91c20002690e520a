import Verif.Spec.FreeParams
import Verif.Props.Areas
import Verif.Props.Posterior
import Verif.Props.FreeParams
/- C120: a run that samples from the prior samples all parameters from the configured prior. -/
namespace SBayes.Kernel
open SBayes.Lik SBayes.Clusters SBayes.MH SBayes.Effects SBayes.Posterior SBayes.Draws SBayes.Meas SBayes.MCMC SBayes.Prior MeasureTheory
open SBayes.Init
open Filter Topology
open scoped BigOperators ENNReal

variable {K N F S M : ℕ} {nG : Fin M → ℕ} {m : Setup K N F S M nG}

/-- Positive parameters of the Dirichlet distributions. -/
theorem conc_pos (hm : WellPosed m) (i : Fin M) (g : Fin (nG i)) (f : Fin F) (s : Fin S) (h : m.cfg.app f s = true) :
    0 < (m.cfg.conf i g).getD (fun _ _ => 1) f s := by
  rcases hc : m.cfg.conf i g with _ | a
  · exact one_pos
  · exact hm.conc i g a hc f s h

/-- The prior of the confounding effects of a group is, up to a constant, the density of its distribution. -/
theorem confPrior_dens (hm : WellPosed m) (i : Fin M) (g : Fin (nG i)) : ∃ C : ℝ≥0∞, ∀ e : Fin F → Fin S → ℝ,
    (∀ f, Row (states m.cfg.app f) (e f)) →
    ENNReal.ofReal (confEffectPrior m.cfg.app (m.cfg.conf i g) e) = C * effDens m.cfg.app ((m.cfg.conf i g).getD fun _ _ => 1) e := by
  have hG : ∀ f, 0 < Real.Gamma (states m.cfg.app f).card := fun f => by
    obtain ⟨s, hs⟩ := hm.hasState f
    exact Real.Gamma_pos_of_pos (Nat.cast_pos.mpr (Finset.card_pos.mpr ⟨s, mem_states.mpr hs⟩))
  have hP : 0 < ∏ f, Real.Gamma (states m.cfg.app f).card := Finset.prod_pos fun f _ => hG f
  have ha := conc_pos hm i g
  rcases hc : m.cfg.conf i g with _ | a
  · rw [hc] at ha
    refine ⟨1, fun e he => ?_⟩
    rw [effDens_eq hm.hasState ha he, one_mul]
    congr 1
    simp only [confEffectPrior, gibbsEffectPdf, Option.getD_none, dirichletPdf_ones]
    rw [← Finset.prod_mul_distrib, Finset.prod_eq_one]
    exact fun f _ => mul_inv_cancel₀ (hG f).ne'
  · rw [hc] at ha
    refine ⟨ENNReal.ofReal (∏ f, Real.Gamma (states m.cfg.app f).card), fun e he => ?_⟩
    rw [effDens_eq hm.hasState ha he, ← ENNReal.ofReal_mul hP.le]
    congr 1
    simp only [confEffectPrior, gibbsEffectPdf, groupEffectPrior, Option.getD_some]
    rw [Finset.prod_inv_distrib]
    field_simp

/-- The distribution of the parameters has a density with respect to the uniform one. -/
theorem priorParams_dens (hm : WellPosed m) : priorParams K m.cfg.app m.cfg.conf =
    (contRef m.cfg.app : Measure (Cont K F S M nG)).withDensity fun c =>
      ∏ i, ∏ g, effDens m.cfg.app ((m.cfg.conf i g).getD fun _ _ => 1) (c.2.2 i g) := by
  have := rows_prob (app := m.cfg.app) hm.hasState
  have : IsProbabilityMeasure (uniformSimplex (Finset.univ : Finset (Fin (M + 1)))) := uniformSimplex_prob Finset.univ_nonempty
  have hprob : ∀ i (g : Fin (nG i)), IsProbabilityMeasure (Measure.pi fun f =>
      dirichletLaw (states m.cfg.app f) ((m.cfg.conf i g).getD (fun _ _ => 1) f)) := fun i g => by
    have : ∀ f, IsProbabilityMeasure (dirichletLaw (states m.cfg.app f) ((m.cfg.conf i g).getD (fun _ _ => 1) f)) := fun f => by
      obtain ⟨s, hs⟩ := hm.hasState f
      exact dirichletLaw_prob ⟨s, mem_states.mpr hs⟩ fun s hs => conc_pos hm i g f s (mem_states.mp hs)
    infer_instance
  have e1 : ∀ i (g : Fin (nG i)), (Measure.pi fun f => dirichletLaw (states m.cfg.app f) ((m.cfg.conf i g).getD (fun _ _ => 1) f)) =
      (Measure.pi fun f => uniformSimplex (states m.cfg.app f)).withDensity (effDens m.cfg.app ((m.cfg.conf i g).getD fun _ _ => 1)) :=
    fun i g => pi_dirichlet hm.hasState (conc_pos hm i g)
  have h1 : ∀ i (g : Fin (nG i)), IsProbabilityMeasure
      ((Measure.pi fun f => uniformSimplex (states m.cfg.app f)).withDensity (effDens m.cfg.app ((m.cfg.conf i g).getD fun _ _ => 1))) :=
    fun i g => by rw [← e1]; exact hprob i g
  have e2 : ∀ i, (Measure.pi fun g : Fin (nG i) => Measure.pi fun f =>
      dirichletLaw (states m.cfg.app f) ((m.cfg.conf i g).getD (fun _ _ => 1) f)) =
      (Measure.pi fun _ : Fin (nG i) => Measure.pi fun f => uniformSimplex (states m.cfg.app f)).withDensity fun x =>
        ∏ g, effDens m.cfg.app ((m.cfg.conf i g).getD fun _ _ => 1) (x g) := fun i => by
    simp only [e1]
    exact pi_withDensity (ν := fun _ : Fin (nG i) => Measure.pi fun f => uniformSimplex (states m.cfg.app f))
      (fun g => effDens m.cfg.app ((m.cfg.conf i g).getD fun _ _ => 1)) fun g => meas_effDens
  have h2 : ∀ i, IsProbabilityMeasure ((Measure.pi fun _ : Fin (nG i) => Measure.pi fun f => uniformSimplex (states m.cfg.app f)).withDensity fun x =>
        ∏ g, effDens m.cfg.app ((m.cfg.conf i g).getD fun _ _ => 1) (x g)) := fun i => by
    rw [← e2]; infer_instance
  have hm2 : ∀ i, Measurable fun x : Fin (nG i) → Fin F → Fin S → ℝ => ∏ g, effDens m.cfg.app ((m.cfg.conf i g).getD fun _ _ => 1) (x g) :=
    fun i => Finset.measurable_fun_prod _ fun g _ => meas_effDens.comp (measurable_pi_apply g)
  have hm3 : Measurable fun x : (i : Fin M) → Fin (nG i) → Fin F → Fin S → ℝ => ∏ i, ∏ g, effDens m.cfg.app ((m.cfg.conf i g).getD fun _ _ => 1) (x i g) :=
    Finset.measurable_fun_prod _ fun i _ => (hm2 i).comp (measurable_pi_apply i)
  unfold priorParams
  simp only [e2]
  rw [pi_withDensity (ν := fun i : Fin M => Measure.pi fun _ : Fin (nG i) => Measure.pi fun f => uniformSimplex (states m.cfg.app f)) _ hm2,
    prod_withDensity_right hm3]
  exact prod_withDensity_right (hm3.comp measurable_snd)

/-- The clusters and the continuous parameters are independent. -/
theorem mass_full (hm : WellPosed m) (hs : m.cfg.sampleSource = false) (A : Set (Clus K N)) (B : Set (Cont K F S M nG)) (hB : MeasurableSet B) :
    target m id (priorOnly0 m) {x | x.1 ∈ A ∧ x.2 ∈ B} =
      priorParams K m.cfg.app m.cfg.conf B * target m id (priorOnly0 m) {x | x.1 ∈ A} := by
  classical
  have hp : ∀ z, Measurable fun c => priorOnly0 m (z, c) := fun z => (priorOnly0_meas m).comp (measurable_const.prodMk measurable_id)
  have := rows_prob (app := m.cfg.app) hm.hasState
  have : IsProbabilityMeasure (uniformSimplex (Finset.univ : Finset (Fin (M + 1)))) := uniformSimplex_prob Finset.univ_nonempty
  have hpp : IsProbabilityMeasure (priorParams K m.cfg.app m.cfg.conf : Measure (Cont K F S M nG)) := by
    have : ∀ i (g : Fin (nG i)) f, IsProbabilityMeasure (dirichletLaw (states m.cfg.app f) ((m.cfg.conf i g).getD (fun _ _ => 1) f)) := fun i g f => by
      obtain ⟨s, hs⟩ := hm.hasState f
      exact dirichletLaw_prob ⟨s, mem_states.mpr hs⟩ fun s hs => conc_pos hm i g f s (mem_states.mp hs)
    unfold priorParams
    infer_instance
  choose C hC using confPrior_dens hm
  have hDm : Measurable fun c : Cont K F S M nG => ∏ i, ∏ g, effDens m.cfg.app ((m.cfg.conf i g).getD fun _ _ => 1) (c.2.2 i g) :=
    Finset.measurable_fun_prod _ fun i _ => Finset.measurable_fun_prod _ fun g _ =>
      meas_effDens.comp ((measurable_pi_apply g).comp ((measurable_pi_apply i).comp (measurable_snd.comp measurable_snd)))
  have key : ∀ B : Set (Cont K F S M nG), MeasurableSet B → target m id (priorOnly0 m) {x | x.1 ∈ A ∧ x.2 ∈ B} =
      priorParams K m.cfg.app m.cfg.conf B * ∑ z : Clus K N, (if z ∈ A then 1 else 0) * ((if Valid m.cl.minSize m.cl.maxSize z then
        ENNReal.ofReal (Real.exp (sizePrior m.cfg.size z) * Real.exp ((geoTerm m.cfg.geo z).getD 0)) else 0) * ∏ i, ∏ g, C i g) := by
    intro B hB
    have hE : MeasurableSet {x : Clus K N × Cont K F S M nG | x.1 ∈ A ∧ x.2 ∈ B} :=
      (measurable_fst (MeasurableSet.of_discrete (s := A))).inter (measurable_snd hB)
    rw [← lintegral_indicator_one hE, lintegral_target hp (measurable_one.indicator hE), Finset.mul_sum]
    refine Finset.sum_congr rfl fun z _ => ?_
    rw [priorParams_dens hm, withDensity_apply _ hB, ← lintegral_indicator hB, mul_comm, ← lintegral_const_mul _ (hDm.indicator hB)]
    refine lintegral_congr_ae ?_
    filter_upwards [interior_ae hm.hasState] with c hc
    rw [dens_rest hm hs]
    unfold rest
    by_cases hz : z ∈ A
    · by_cases hcB : c ∈ B
      · rw [Set.indicator_of_mem (show (z, c) ∈ {x : Clus K N × Cont K F S M nG | x.1 ∈ A ∧ x.2 ∈ B} from ⟨hz, hcB⟩),
          Set.indicator_of_mem hcB, if_pos hz, one_mul, Pi.one_apply, mul_one]
        by_cases hv : Valid m.cl.minSize m.cl.maxSize z
        · rw [if_pos hv, if_pos hv, ENNReal.ofReal_mul (by positivity), mul_assoc]
          congr 1
          rw [ENNReal.ofReal_prod_of_nonneg fun i _ => Finset.prod_nonneg fun g _ => (confPrior_pos hm hc i g).le, ← Finset.prod_mul_distrib]
          refine Finset.prod_congr rfl fun i _ => ?_
          rw [ENNReal.ofReal_prod_of_nonneg fun g _ => (confPrior_pos hm hc i g).le, ← Finset.prod_mul_distrib]
          exact Finset.prod_congr rfl fun g _ => hC i g _ fun f => hc.ce i g f
        · simp [hv]
      · rw [Set.indicator_of_notMem (show (z, c) ∉ {x : Clus K N × Cont K F S M nG | x.1 ∈ A ∧ x.2 ∈ B} from fun h => hcB h.2),
          Set.indicator_of_notMem hcB, mul_zero, mul_zero]
    · rw [Set.indicator_of_notMem (show (z, c) ∉ {x : Clus K N × Cont K F S M nG | x.1 ∈ A ∧ x.2 ∈ B} from fun h => hz h.1), if_neg hz,
        mul_zero, zero_mul, zero_mul]
  have hu := key Set.univ MeasurableSet.univ
  rw [measure_univ, one_mul] at hu
  rw [key B hB, ← hu]
  simp

open Classical in
/-- **C120.** A whole run without sources with `sample_from_prior` samples the configured prior of all parameters: the fraction of the samples
with clusters in `A` and weights and effects in `B` converges to the prior probability of the clusters times that of the parameters. -/
theorem C120_all_parameters_follow_the_prior_without_sources (hm : WellPosed m) (hs : m.cfg.sampleSource = false) (hf : CanMove m)
    (hadj : ∀ i j, m.cl.adj i j = m.cl.adj j i)
    (cfg : OpConfig) (ops : List (OpKind M × ℝ)) (hops : getOperators false M cfg = .ok ops) (hpos : ∀ o ∈ ops, 0 < o.2)
    (sz nChains warmSteps : ℕ) (hsz : 1 ≤ sz) (hlo : m.cl.minSize ≤ sz) (hhi : sz ≤ m.cl.maxSize) (hchains : 0 < nChains)
    (rnd : Fin nChains → ℕ → ℕ) (rnd' : ℕ → ℕ) (blank : Fin nChains → State0 K N F S M nG)
    (hrnd : ∀ c, (initialClusters (m := 0) m.cl.adj (rnd c) sz (fun k => k.elim0) : Option (Clus K N)).isSome)
    (s : ℕ) (hs0 : 0 < s) (A : Finset (Clus K N)) (B : Set (Cont K F S M nG)) (hB : MeasurableSet B) (ε : ℝ) (hε : 0 < ε) :
    Tendsto (fun n : ℕ => (wholeRunPrior0 m (normalizeOperatorWeights ops) sz nChains warmSteps rnd rnd' blank s n).prob
      {l | |(l.countP (fun x => decide (x.1 ∈ A ∧ x.2 ∈ B)) : ℝ) / (l.length : ℝ) -
        (∑ z ∈ A, clusterPrior m z) * (priorParams K m.cfg.app m.cfg.conf B).toReal| < ε}) atTop (𝓝 1) := by
  have hset : {x : Clus K N × Cont K F S M nG | decide (x.1 ∈ A ∧ x.2 ∈ B) = true} = {x | x.1 ∈ (A : Set (Clus K N)) ∧ x.2 ∈ B} := by
    ext x
    simp
  have hQ : MeasurableSet {x : Clus K N × Cont K F S M nG | decide (x.1 ∈ A ∧ x.2 ∈ B) = true} := by
    rw [hset]
    exact (measurable_fst (MeasurableSet.of_discrete (s := (A : Set (Clus K N))))).inter (measurable_snd hB)
  have hmeas : Measurable fun x : Clus K N × Cont K F S M nG => if decide (x.1 ∈ A ∧ x.2 ∈ B) = true then (1 : ℝ) else 0 :=
    Measurable.ite hQ measurable_const measurable_const
  have h := C91_whole_run_converges_without_sources hm hs hf hadj cfg ops hops hpos sz nChains warmSteps hsz hlo hhi hchains rnd rnd' blank hrnd
    s hs0 _ hmeas 1 (fun x => by split <;> simp) ε hε
  have hv := (priorRun0 hm hs hf.feature hf.twoStates hadj cfg ops hops hpos sz nChains warmSteps hsz hlo hhi hchains rnd rnd' blank hrnd).1
  rw [mean_count _ _ hQ, hset, mass_full hm hs _ B hB, ENNReal.toReal_mul, mul_div_assoc, mul_comm,
    show {x : Clus K N × Cont K F S M nG | x.1 ∈ (A : Set (Clus K N))} = {x | x.1 ∈ A} from rfl, mass_of_event hm hs hv A] at h
  simp only [count_mean] at h
  exact h

open Classical in
/-- **C120.** The same with sources. -/
theorem C120_all_parameters_follow_the_prior (hm : WellPosed m) (hs : m.cfg.sampleSource = true) (hN : K * m.cl.minSize < N)
    (hadj : ∀ i j, m.cl.adj i j = m.cl.adj j i)
    (cfg : OpConfig) (ops : List (OpKind M × ℝ)) (hops : getOperators true M cfg = .ok ops) (hpos : ∀ o ∈ ops, 0 < o.2)
    (sz nChains warmSteps : ℕ) (hsz : 1 ≤ sz) (hlo : m.cl.minSize ≤ sz) (hhi : sz ≤ m.cl.maxSize) (hchains : 0 < nChains)
    (garbage : Fin N × Fin F → Fin (M + 1)) (rnd : Fin nChains → ℕ → ℕ) (rnd' : ℕ → ℕ) (blank : Fin nChains → State K N F S M nG)
    (hrnd : ∀ c, (initialClusters (m := 0) m.cl.adj (rnd c) sz (fun k => k.elim0) : Option (Clus K N)).isSome)
    (s : ℕ) (hs0 : 0 < s) (A : Finset (Clus K N)) (B : Set (Cont K F S M nG)) (hB : MeasurableSet B) (ε : ℝ) (hε : 0 < ε) :
    Tendsto (fun n : ℕ => (wholeRunPrior m (normalizeOperatorWeights ops) sz nChains warmSteps garbage rnd rnd' blank s n).prob
      {l | |(l.countP (fun x => decide (x.1.1 ∈ A ∧ x.2 ∈ B)) : ℝ) / (l.length : ℝ) -
        (∑ z ∈ A, clusterPrior m z) * (priorParams K m.cfg.app m.cfg.conf B).toReal| < ε}) atTop (𝓝 1) := by
  have hset : {x : Disc K N F M × Cont K F S M nG | decide (x.1.1 ∈ A ∧ x.2 ∈ B) = true} = {x | x.1.1 ∈ (A : Set (Clus K N)) ∧ x.2 ∈ B} := by
    ext x
    simp
  have hQ : MeasurableSet {x : Disc K N F M × Cont K F S M nG | decide (x.1.1 ∈ A ∧ x.2 ∈ B) = true} := by
    rw [hset]
    exact (measurable_fst (MeasurableSet.of_discrete (s := {d : Disc K N F M | d.1 ∈ (A : Set (Clus K N))}))).inter (measurable_snd hB)
  have hmeas : Measurable fun x : Disc K N F M × Cont K F S M nG => if decide (x.1.1 ∈ A ∧ x.2 ∈ B) = true then (1 : ℝ) else 0 :=
    Measurable.ite hQ measurable_const measurable_const
  have h := C91_whole_run_converges hm hs hN hadj cfg ops hops hpos sz nChains warmSteps hsz hlo hhi hchains garbage rnd rnd' blank hrnd
    s hs0 _ hmeas 1 (fun x => by split <;> simp) ε hε
  have hv := (priorRun hm hs hadj cfg ops hops hpos sz nChains warmSteps hsz hlo hhi hchains garbage rnd rnd' blank hrnd).1
  have hB' : MeasurableSet {x : Clus K N × Cont K F S M nG | x.1 ∈ (A : Set (Clus K N)) ∧ x.2 ∈ B} :=
    (measurable_fst (MeasurableSet.of_discrete (s := (A : Set (Clus K N))))).inter (measurable_snd hB)
  have e1 := marginal_prior hm hs _ hB'
  have e2 := marginal_prior hm hs Set.univ MeasurableSet.univ
  have e3 : {x : Disc K N F M × Cont K F S M nG | (x.1.1, x.2) ∈ (Set.univ : Set (Clus K N × Cont K F S M nG))} = Set.univ :=
    Set.eq_univ_of_forall fun _ => trivial
  rw [e3] at e2
  have e4 : {x : Disc K N F M × Cont K F S M nG | (x.1.1, x.2) ∈ ({x | x.1 ∈ (A : Set (Clus K N)) ∧ x.2 ∈ B} : Set (Clus K N × Cont K F S M nG))} =
      {x | x.1.1 ∈ (A : Set (Clus K N)) ∧ x.2 ∈ B} := rfl
  rw [e4] at e1
  have hm' := withSampling_wellPosed hm false
  rw [mean_count _ _ hQ, hset, e1, e2, mass_full (m := withSampling m false) hm' rfl _ B hB, ENNReal.toReal_mul, mul_div_assoc, mul_comm,
    show {x : Clus K N × Cont K F S M nG | x.1 ∈ (A : Set (Clus K N))} = {x | x.1 ∈ A} from rfl,
    mass_of_event (m := withSampling m false) hm' rfl hv A] at h
  simp only [count_mean] at h
  exact h

theorem priorParams_weights (hm : WellPosed m) (f : Fin F) (A : Set (Fin (M + 1) → ℝ)) (hA : MeasurableSet A) :
    priorParams K m.cfg.app m.cfg.conf {c | c.1 f ∈ A} = uniformSimplex Finset.univ A := by
  have := rows_prob (app := m.cfg.app) hm.hasState
  have : IsProbabilityMeasure (uniformSimplex (Finset.univ : Finset (Fin (M + 1)))) := uniformSimplex_prob Finset.univ_nonempty
  have : ∀ i (g : Fin (nG i)) f, IsProbabilityMeasure (dirichletLaw (states m.cfg.app f) ((m.cfg.conf i g).getD (fun _ _ => 1) f)) := fun i g f => by
    obtain ⟨s, hs⟩ := hm.hasState f
    exact dirichletLaw_prob ⟨s, mem_states.mpr hs⟩ fun s hs => conc_pos hm i g f s (mem_states.mp hs)
  have h : {c : Cont K F S M nG | c.1 f ∈ A} = (Function.eval f ⁻¹' A) ×ˢ Set.univ := by
    ext p
    simp
  rw [h, priorParams, Measure.prod_prod, measure_univ, mul_one]
  exact (measurePreserving_eval (fun _ : Fin F => uniformSimplex (Finset.univ : Finset (Fin (M + 1)))) f).measure_preimage hA.nullMeasurableSet

/-- Both clusters have a single object. -/
def bothSingle : Finset (Clus 2 5) := Finset.univ.filter fun z => decide (size (z 0) = 1 ∧ size (z 1) = 1) = true

theorem bothSingle_prior (b : Bool) : ∑ z ∈ bothSingle, clusterPrior (withSampling widerSetup b) z = 2 / 11 := by
  classical
  have h := area_event (m := withSampling widerSetup b) rfl rfl fun z => decide (size (z 0) = 1 ∧ size (z 1) = 1)
  have e1 : (Finset.univ.filter fun z : Clus 2 5 => Valid (withSampling widerSetup b).cl.minSize (withSampling widerSetup b).cl.maxSize z).card = 110 := by
    rw [← count_110]
    exact congrArg _ (Finset.filter_congr fun z _ => valid_iff z)
  have e2 : (Finset.univ.filter fun z : Clus 2 5 => Valid (withSampling widerSetup b).cl.minSize (withSampling widerSetup b).cl.maxSize z ∧
      decide (size (z 0) = 1 ∧ size (z 1) = 1) = true).card = 20 := by
    rw [← count_20]
    exact congrArg _ (Finset.filter_congr fun z _ => and_congr_left' (valid_iff z))
  rw [e1, e2] at h
  refine (Finset.sum_congr ?_ fun _ _ => rfl).trans (h.trans (by norm_num))
  ext z
  simp [bothSingle]

open Classical in
/-- The requirements are met by a run without sources: both clusters have a single object and the weight of the cluster effect is at most a
quarter in one of 22 samples. -/
example : ∃ ops : List (OpKind 1 × ℝ),
    getOperators false 1 { clusters := 45, weights := 15, clusterEffect := 10, confoundingEffects := 10, source := 0 } = .ok ops ∧
    ∀ ε > 0, Tendsto (fun n : ℕ => (wholeRunPrior0 (withSampling widerSetup false) (normalizeOperatorWeights ops) 1 3 10 (fun _ _ => 0) (fun _ => 0)
      (fun _ => widerState) 5 n).prob {l | |(l.countP (fun x => decide (x.1 ∈ bothSingle ∧ x.2.1 0 0 ≤ 1 / 4)) : ℝ) / (l.length : ℝ) - 1 / 22| < ε})
        atTop (𝓝 1) := by
  refine ⟨_, rfl, fun ε hε => ?_⟩
  have hA : MeasurableSet {u : Fin 2 → ℝ | u 0 ≤ 1 / 4} := measurableSet_le (measurable_pi_apply 0) measurable_const
  have h := C120_all_parameters_follow_the_prior_without_sources (withSampling_wellPosed widerSetup_wellPosed false) rfl
    (show CanMove (withSampling widerSetup false) from { widerSetup_canMove with }) (fun _ _ => rfl)
    { clusters := 45, weights := 15, clusterEffect := 10, confoundingEffects := 10, source := 0 } _ rfl (by
      intro o ho
      simp [List.finRange] at ho
      rcases ho with rfl | rfl | rfl | rfl <;> norm_num) 1 3 10 le_rfl le_rfl
    (by norm_num [withSampling, widerSetup]) (by norm_num) (fun _ _ => 0) (fun _ => 0) (fun _ => widerState) (fun _ => widerSetup_initial _) 5 (by norm_num)
    bothSingle {c | c.1 0 ∈ {u : Fin 2 → ℝ | u 0 ≤ 1 / 4}} (((measurable_pi_apply 0).comp measurable_fst) hA) ε hε
  rw [priorParams_weights (withSampling_wellPosed widerSetup_wellPosed false) 0 _ hA, quarter, ENNReal.toReal_ofReal (by norm_num),
    bothSingle_prior, show (2 / 11 : ℝ) * (1 / 4) = 1 / 22 by norm_num] at h
  exact h

open Classical in
/-- The same with sources. -/
example : ∃ ops : List (OpKind 1 × ℝ),
    getOperators true 1 { clusters := 45, weights := 15, clusterEffect := 10, confoundingEffects := 10, source := 10 } = .ok ops ∧
    ∀ ε > 0, Tendsto (fun n : ℕ => (wholeRunPrior (withSampling widerSetup true) (normalizeOperatorWeights ops) 1 3 10 (fun _ => 0) (fun _ _ => 0)
      (fun _ => 0) (fun _ => ((widerState.1, fun _ => 0), widerState.2)) 5 n).prob
        {l | |(l.countP (fun x => decide (x.1.1 ∈ bothSingle ∧ x.2.1 0 0 ≤ 1 / 4)) : ℝ) / (l.length : ℝ) - 1 / 22| < ε}) atTop (𝓝 1) := by
  refine ⟨_, rfl, fun ε hε => ?_⟩
  have hA : MeasurableSet {u : Fin 2 → ℝ | u 0 ≤ 1 / 4} := measurableSet_le (measurable_pi_apply 0) measurable_const
  have h := C120_all_parameters_follow_the_prior (withSampling_wellPosed widerSetup_wellPosed true) rfl
    (by norm_num [withSampling, widerSetup]) (fun _ _ => rfl)
    { clusters := 45, weights := 15, clusterEffect := 10, confoundingEffects := 10, source := 10 } _ rfl (by
      intro o ho
      simp [List.finRange] at ho
      rcases ho with rfl | rfl | rfl | rfl | rfl | rfl <;> norm_num) 1 3 10 le_rfl le_rfl
    (by norm_num [withSampling, widerSetup]) (by norm_num) (fun _ => 0) (fun _ _ => 0) (fun _ => 0) (fun _ => ((widerState.1, fun _ => 0), widerState.2))
    (fun _ => widerSetup_initial _) 5 (by norm_num)
    bothSingle {c | c.1 0 ∈ {u : Fin 2 → ℝ | u 0 ≤ 1 / 4}} (((measurable_pi_apply 0).comp measurable_fst) hA) ε hε
  rw [priorParams_weights (withSampling_wellPosed widerSetup_wellPosed true) 0 _ hA, quarter, ENNReal.toReal_ofReal (by norm_num),
    bothSingle_prior, show (2 / 11 : ℝ) * (1 / 4) = 1 / 22 by norm_num] at h
  exact h

end SBayes.Kernel
