import Verif.Lemmas.SimRun
import Verif.Props.FromPrior
/- C101: a simulation draws from the model. -/
namespace SBayes.SimRun
open SBayes.Lik SBayes.Clusters SBayes.Effects SBayes.Kernel SBayes.Draws SBayes.Sim SBayes.Meas SBayes.Source SBayes.Prior SBayes.Posterior MeasureTheory
open scoped BigOperators ENNReal

variable {K N F S M : ℕ} {nG : Fin M → ℕ}

/-! ### For any positive settings -/

/-- The clusters and groups of a canvas: no site in two clusters or in two groups of a confounder, no site without any of them. -/
structure Canvas (conf : (c : Fin M) → Fin (nG c) → Fin N → Bool) (z : Clus K N) : Prop where
  clusters : DisjointGroups z
  groups : ∀ c, DisjointGroups (conf c)
  covered : ∀ n, (∃ k, z k n = true) ∨ ∃ c g, conf c g n = true

/-- **C101.** Parameters and data of a simulation: the parameters follow the Dirichlet distributions of the configuration, and given the
parameters every data set has the probability that the model's likelihood gives it. -/
theorem C101_joint_law {conf : (c : Fin M) → Fin (nG c) → Fin N → Bool} {z : Clus K N} (hz : Canvas conf z) {cfg : SimCfg F M}
    (h : Positive (S + 1) cfg) (clOrder : List (Fin K)) (hcl : VisitsAll clOrder) (confOrder : (c : Fin M) → List (Fin (nG c)))
    (hco : ∀ c, VisitsAll (confOrder c)) (empty : Fin N → Fin F → Fin (M + 1) → ℝ)
    (G : Cont K F (S + 1) M nG × (Fin N → Fin F → Fin (S + 1)) → ℝ≥0∞) (hG : Measurable G) :
    ∫⁻ y, G y ∂runSimulation conf z cfg = ∑ x, ∫⁻ c, ENNReal.ofReal (likelihood
      (freshObservationLhs (observedData conf x) (params0 (z, c)) clOrder confOrder empty)) * G (c, x) ∂simulateParams K (S + 1) nG cfg := by
  rw [lintegral_run hG]
  refine Finset.sum_congr rfl fun x _ => ?_
  refine lintegral_congr_ae ((interior_sim h).mono fun c hc => ?_)
  dsimp only
  have hB : MeasurableSet {u : Fin N → Fin F → ℝ | simulateFeatures conf (params0 (z, c)) u = x} :=
    (measurable_snd.comp ((meas_simulate (S := S) (F := F) (K := K) conf z).comp (measurable_const.prodMk measurable_id)))
      (measurableSet_singleton x)
  rw [draws_eq _ hB, ← C62_simulated_data_follow_likelihood conf (params0 (z, c)) (valid_of_interior hz.clusters hz.groups hz.covered hc) x clOrder
    hcl confOrder hco empty]
  congr 2
  ext u
  simp only [Set.mem_ofPred_eq, funext_iff]

theorem pos_prob {cfg : SimCfg F M} (h : Positive (S + 1) cfg) : IsProbabilityMeasure (simulateParams K (S + 1) nG cfg) := by
  have h1 : IsProbabilityMeasure (dirichletLaw (Finset.univ : Finset (Fin (M + 1))) cfg.intensity) :=
    dirichletLaw_prob Finset.univ_nonempty fun i _ => h.intensity i
  have h2 : ∀ a, 0 < a → ∀ f, IsProbabilityMeasure (dirichletLaw (states (usedStates (S + 1) cfg) f) fun _ => a) := fun a ha f =>
    dirichletLaw_prob (used_nonempty h.states f) fun _ _ => ha
  have h3 : ∀ G a, 0 < a → IsProbabilityMeasure (simulateEffects G (S + 1) cfg a) := fun G a ha => by
    have := h2 a ha
    unfold simulateEffects
    infer_instance
  have h4 := h3 K _ h.clusterConc
  have h5 := fun c => h3 (nG c) _ (h.confConc c)
  unfold simulateParams simulateWeights
  infer_instance

/-- **C101.** With positive concentrations a simulation does not fail: its outcomes have total probability one. -/
theorem C101_is_probability {cfg : SimCfg F M} (h : Positive (S + 1) cfg) (conf : (c : Fin M) → Fin (nG c) → Fin N → Bool) (z : Clus K N) :
    IsProbabilityMeasure (runSimulation (S := S) conf z cfg) := by
  have := pos_prob (S := S) (K := K) (nG := nG) h
  unfold runSimulation
  exact Measure.isProbabilityMeasure_map (meas_simulate (S := S) conf z).aemeasurable

/-! ### With the settings that the model assumes -/

/-- The analysis `m` of the data set `x` instead of its own data. -/
def withData (m : Setup K N F S M nG) (x : Fin N → Fin F → Fin S) : Setup K N F S M nG := { m with d := observedData m.d.confGroups x }

/-- The settings of the simulation are those of the model: uniform weights and cluster effects (the model knows no others), and for each group
a uniform prior or one with the concentration of the simulation. -/
structure Matches (m : Setup K N F S M nG) (cfg : SimCfg F M) : Prop where
  app : m.cfg.app = usedStates S cfg
  intensity : ∀ i, cfg.intensity i = 1
  clusterConc : cfg.clusterConc = 1
  uniform : ∀ c g, m.cfg.conf c g = none → cfg.confConc c = 1
  dirichlet : ∀ c g a, m.cfg.conf c g = some a → ∀ f s, m.cfg.app f s = true → a f s = cfg.confConc c

theorem pdf_one {n : ℕ} (A : Finset (Fin n)) (u : Fin n → ℝ) : dirichletPdf A (fun _ => 1) u = Real.Gamma A.card := by
  unfold dirichletPdf
  simp

theorem gamma_card_pos {n : ℕ} {A : Finset (Fin n)} (h : A.Nonempty) : 0 < Real.Gamma A.card :=
  Real.Gamma_pos_of_pos (by exact_mod_cast h.card_pos)

theorem rowDens_one {n : ℕ} {A : Finset (Fin n)} (h : A.Nonempty) (u : Fin n → ℝ) : rowDens A (fun _ => 1) u = 1 := by
  rw [rowDens, pdf_one, div_self (gamma_card_pos h).ne', ENNReal.ofReal_one]

theorem tableDens_one {cfg : SimCfg F M} (h : ∀ f, 0 < cfg.nStates f) (e : Fin F → Fin (S + 1) → ℝ) : tableDens cfg 1 e = 1 :=
  Finset.prod_eq_one fun f _ => rowDens_one (used_nonempty h f) _

/-- The factor between the density of a group's prior and that of the uniform distribution. -/
noncomputable def groupNorm (m : Setup K N F S M nG) (c : Fin M) (g : Fin (nG c)) : ℝ :=
  match m.cfg.conf c g with
  | none => 1
  | some _ => ∏ f, (Real.Gamma (states m.cfg.app f).card)⁻¹

theorem pdf_congr {n : ℕ} {A : Finset (Fin n)} {a b : Fin n → ℝ} (h : ∀ i ∈ A, a i = b i) (u : Fin n → ℝ) :
    dirichletPdf A a u = dirichletPdf A b u := by
  unfold dirichletPdf
  rw [Finset.sum_congr rfl h, Finset.prod_congr rfl fun i hi => by rw [h i hi],
    Finset.prod_congr (s₁ := A) rfl fun i hi => show u i ^ (a i - 1) = u i ^ (b i - 1) by rw [h i hi]]

variable {m : Setup K N F (S + 1) M nG} {cfg : SimCfg F M}

theorem confDens (hm : Matches m cfg) (h : Positive (S + 1) cfg) {c : Cont K F (S + 1) M nG} (hc : Interior m.cfg.app c) (i : Fin M) (g : Fin (nG i)) :
    tableDens cfg (cfg.confConc i) (c.2.2 i g) = ENNReal.ofReal (groupNorm m i g) *
      ENNReal.ofReal (confEffectPrior m.cfg.app (m.cfg.conf i g) (c.2.2 i g)) := by
  unfold groupNorm
  rcases hg : m.cfg.conf i g with _ | a
  · rw [hm.uniform i g hg, tableDens_one h.states]
    simp [confEffectPrior]
  · dsimp only [confEffectPrior]
    have hpos : ∀ f, 0 < Real.Gamma (states m.cfg.app f).card := fun f => by
      rw [hm.app]; exact gamma_card_pos (used_nonempty h.states f)
    rw [← ENNReal.ofReal_mul (Finset.prod_nonneg fun f _ => (inv_pos.mpr (hpos f)).le)]
    unfold groupEffectPrior tableDens rowDens
    rw [← Finset.prod_mul_distrib, ← hm.app, ENNReal.ofReal_prod_of_nonneg]
    · refine Finset.prod_congr rfl fun f _ => ?_
      rw [pdf_congr (a := a f) (b := fun _ => cfg.confConc i) (fun s hs => hm.dirichlet i g a hg f s (mem_states.mp hs)), div_eq_inv_mul]
    · intro f _
      refine mul_nonneg (inv_pos.mpr (hpos f)).le ?_
      rw [pdf_congr (a := a f) (b := fun _ => cfg.confConc i) (fun s hs => hm.dirichlet i g a hg f s (mem_states.mp hs))]
      unfold dirichletPdf
      refine mul_nonneg (div_nonneg ?_ ?_) (Finset.prod_nonneg fun s _ => Real.rpow_nonneg ?_ _)
      · exact Real.Gamma_nonneg_of_nonneg (Finset.sum_nonneg fun _ _ => (h.confConc i).le)
      · exact Finset.prod_nonneg fun _ _ => Real.Gamma_nonneg_of_nonneg (h.confConc i).le
      · exact ((hc.ce i g f).pos ‹_›).le

/-- The factor between the law of the simulated parameters and the prior. -/
noncomputable def priorNorm (m : Setup K N F (S + 1) M nG) : ℝ≥0∞ := ∏ i, ∏ g, ENNReal.ofReal (groupNorm m i g)

theorem paramDens_eq (hm : Matches m cfg) (h : Positive (S + 1) cfg) {c : Cont K F (S + 1) M nG} (hc : Interior m.cfg.app c) :
    paramDens cfg c = priorNorm m * ∏ i, ∏ g, ENNReal.ofReal (confEffectPrior m.cfg.app (m.cfg.conf i g) (c.2.2 i g)) := by
  unfold paramDens priorNorm
  rw [show cfg.intensity = fun _ => 1 from funext hm.intensity, hm.clusterConc]
  rw [Finset.prod_eq_one fun f _ => rowDens_one Finset.univ_nonempty _, Finset.prod_eq_one fun k _ => tableDens_one h.states _, one_mul, one_mul]
  simp only [confDens hm h hc, Finset.prod_mul_distrib]

theorem priorNorm_pos (hm : Matches m cfg) (h : Positive (S + 1) cfg) : priorNorm m ≠ 0 ∧ priorNorm m ≠ ⊤ := by
  unfold priorNorm
  have hpos : ∀ i g, 0 < groupNorm m i g := by
    intro i g
    unfold groupNorm
    split
    · exact one_pos
    · refine Finset.prod_pos fun f _ => inv_pos.mpr ?_
      rw [hm.app]; exact gamma_card_pos (used_nonempty h.states f)
  constructor
  · exact Finset.prod_ne_zero_iff.mpr fun i _ => Finset.prod_ne_zero_iff.mpr fun g _ => (ENNReal.ofReal_pos.mpr (hpos i g)).ne'
  · exact ENNReal.prod_ne_top fun i _ => ENNReal.prod_ne_top fun g _ => ENNReal.ofReal_ne_top

/-- The posterior of the parameters for the data `x`. -/
theorem post0_withData (hm : WellPosed m) (hs : m.cfg.sampleSource = false) {z : Clus K N} (hz : Clusters.Valid m.cl.minSize m.cl.maxSize z)
    (x : Fin N → Fin F → Fin (S + 1)) (c : Cont K F (S + 1) M nG) :
    post0 (withData m x) (z, c) = likelihood (freshObservationLhs (observedData m.d.confGroups x) (params0 (z, c)) m.clOrder m.confOrder m.empty) *
      (clusterTerm m z * ∏ i, ∏ g, confEffectPrior m.cfg.app (m.cfg.conf i g) (c.2.2 i g)) := by
  obtain ⟨geo, hgeo⟩ := Option.isSome_iff_exists.mp (hm.geo z hz)
  unfold post0 posterior prior params0 clusterTerm withData
  dsimp only
  rw [hgeo, hs]
  simp only [sourceTerm, Option.bind_eq_bind, Option.bind_some, Option.map_some, Option.getD_some]
  rw [mul_one]

theorem canvas_of_valid (hm : WellPosed m) {z : Clus K N} (hz : Clusters.Valid m.cl.minSize m.cl.maxSize z) : Canvas m.d.confGroups z where
  clusters := valid_disjoint hz
  groups := hm.disjoint
  covered n := Or.inr (hm.covered n)

theorem confPrior_nonneg (hm : WellPosed m) {c : Cont K F (S + 1) M nG} (hc : Interior m.cfg.app c) :
    0 ≤ ∏ i, ∏ g, confEffectPrior m.cfg.app (m.cfg.conf i g) (c.2.2 i g) :=
  Finset.prod_nonneg fun i _ => Finset.prod_nonneg fun g _ => (confPrior_pos hm hc i g).le

theorem meas_lik (conf : (c : Fin M) → Fin (nG c) → Fin N → Bool) (x : Fin N → Fin F → Fin (S + 1)) (z : Clus K N) (clO : List (Fin K))
    (cfO : (c : Fin M) → List (Fin (nG c))) (empty : Fin N → Fin F → Fin (M + 1) → ℝ) :
    Measurable fun c : Cont K F (S + 1) M nG => likelihood (freshObservationLhs (observedData conf x) (params0 (z, c)) clO cfO empty) := by
  have hup : ∀ n f i, Measurable fun c : Cont K F (S + 1) M nG => updateComponents (observedData conf x) (params0 (z, c)) clO cfO empty n f i :=
    fun n f i => meas_cons (meas_compute _ (fun k f s => by unfold params0; fun_prop) _ _ _ n f)
      (fun c => meas_compute _ (fun k f s => by unfold params0; fun_prop) _ _ _ n f) i
  unfold freshObservationLhs
  have hn : ∀ c : Cont K F (S + 1) M nG, (params0 (z, c)).source = (none : Option (Fin N → Fin F → Fin (M + 1) → Bool)) := fun _ => rfl
  simp only [hn, likelihood_none]
  exact Finset.measurable_fun_prod _ fun n _ => Finset.measurable_fun_prod _ fun f _ =>
    Finset.measurable_fun_sum _ fun i _ => (meas_normalizeWeights (w := fun c : Cont K F (S + 1) M nG => c.1) (fun f i => by fun_prop)
      (hasComponents (observedData conf x) z) n f i).mul (hup n f i)

/-- For one canvas: simulated parameters together with the data `x` are distributed as the posterior for `x` and these clusters. -/
theorem simulated_posterior (hm : WellPosed m) (hs : m.cfg.sampleSource = false) (hmatch : Matches m cfg) (h : Positive (S + 1) cfg)
    {z : Clus K N} (hz : Clusters.Valid m.cl.minSize m.cl.maxSize z) (x : Fin N → Fin F → Fin (S + 1)) (B : Set (Cont K F (S + 1) M nG))
    (hB : MeasurableSet B) :
    ENNReal.ofReal (clusterTerm m z) * runSimulation m.d.confGroups z cfg {y | y.2 = x ∧ y.1 ∈ B} =
      priorNorm m * ∫⁻ c in B, ENNReal.ofReal (post0 (withData m x) (z, c)) ∂contRef m.cfg.app := by
  classical
  have hset : MeasurableSet {y : Cont K F (S + 1) M nG × (Fin N → Fin F → Fin (S + 1)) | y.2 = x ∧ y.1 ∈ B} :=
    (measurable_snd (measurableSet_singleton x)).inter (measurable_fst hB)
  have hcan := canvas_of_valid hm hz
  rw [← lintegral_indicator_one hset, C101_joint_law hcan h m.clOrder hm.clOrder m.confOrder hm.confOrder m.empty _ (measurable_one.indicator hset),
    Finset.sum_eq_single x]
  · rw [params_density h, lintegral_withDensity_eq_lintegral_mul _ (meas_paramDens cfg), ← hmatch.app,
      ← lintegral_const_mul' _ _ ENNReal.ofReal_ne_top, ← lintegral_const_mul' _ _ (priorNorm_pos hmatch h).2, ← lintegral_indicator hB]
    · refine lintegral_congr_ae ((interior_ae hm.hasState).mono fun c hc => ?_)
      dsimp only [Pi.mul_apply]
      rw [paramDens_eq hmatch h hc]
      by_cases hcB : c ∈ B
      · rw [Set.indicator_of_mem (show (c, x) ∈ {y : Cont K F (S + 1) M nG × (Fin N → Fin F → Fin (S + 1)) | y.2 = x ∧ y.1 ∈ B} from ⟨rfl, hcB⟩),
          Set.indicator_of_mem hcB, post0_withData hm hs hz]
        rw [ENNReal.ofReal_mul' (mul_nonneg (clusterTerm_pos m z).le (confPrior_nonneg hm hc)), ENNReal.ofReal_mul (clusterTerm_pos m z).le,
          ENNReal.ofReal_prod_of_nonneg fun i _ => Finset.prod_nonneg fun g _ => (confPrior_pos hm hc i g).le]
        simp only [ENNReal.ofReal_prod_of_nonneg fun g _ => (confPrior_pos hm hc _ g).le, Pi.one_apply]
        ring
      · rw [Set.indicator_of_notMem (show (c, x) ∉ {y : Cont K F (S + 1) M nG × (Fin N → Fin F → Fin (S + 1)) | y.2 = x ∧ y.1 ∈ B} from fun h => hcB h.2),
          Set.indicator_of_notMem hcB]
        simp
    · exact (meas_lik m.d.confGroups x z m.clOrder m.confOrder m.empty).ennreal_ofReal.mul
        ((measurable_one.indicator hset).comp (measurable_id.prodMk measurable_const))
  · intro x' _ hne
    refine (lintegral_congr fun c => ?_).trans lintegral_zero
    rw [Set.indicator_of_notMem (show (c, x') ∉ {y : Cont K F (S + 1) M nG × (Fin N → Fin F → Fin (S + 1)) | y.2 = x ∧ y.1 ∈ B} from fun h => hne h.1),
      mul_zero]
  · exact fun h => absurd (Finset.mem_univ x) h

theorem clusterPrior_eq (hz : ∃ z : Clus K N, Clusters.Valid m.cl.minSize m.cl.maxSize z) :
    ∃ Z : ℝ, 0 < Z ∧ (∑ z, clusterPrior m z = 1) ∧ (∀ z, 0 ≤ clusterPrior m z) ∧
      (∀ z, Clusters.Valid m.cl.minSize m.cl.maxSize z → clusterPrior m z = clusterTerm m z / Z) ∧
      ∀ z, ¬ Clusters.Valid m.cl.minSize m.cl.maxSize z → clusterPrior m z = 0 := by
  classical
  have hnn : ∀ z : Clus K N, 0 ≤ if Clusters.Valid m.cl.minSize m.cl.maxSize z then Real.exp (sizePrior m.cfg.size z + (geoTerm m.cfg.geo z).getD 0) else 0 :=
    fun z => by split <;> positivity
  have hZ : 0 < ∑ z' : Clus K N, if Clusters.Valid m.cl.minSize m.cl.maxSize z' then Real.exp (sizePrior m.cfg.size z' + (geoTerm m.cfg.geo z').getD 0) else 0 := by
    obtain ⟨z, hz⟩ := hz
    refine Finset.sum_pos' (fun z _ => hnn z) ⟨z, Finset.mem_univ z, ?_⟩
    rw [if_pos hz]
    positivity
  refine ⟨_, hZ, ?_, ?_, ?_, ?_⟩
  · unfold clusterPrior
    rw [← Finset.sum_div]
    exact div_self hZ.ne'
  · intro z
    exact div_nonneg (hnn z) hZ.le
  · intro z hz
    unfold clusterPrior clusterTerm
    rw [if_pos hz, Real.exp_add]
  · intro z hz
    unfold clusterPrior
    rw [if_neg hz, zero_div]

/-- The simulation of clusters, parameters and data, if the clusters of the canvas are drawn from the model's prior: the probability of `E`. -/
noncomputable def fromPrior (m : Setup K N F (S + 1) M nG) (cfg : SimCfg F M)
    (E : Set ((Clus K N × Cont K F (S + 1) M nG) × (Fin N → Fin F → Fin (S + 1)))) : ℝ≥0∞ :=
  ∑ z, ENNReal.ofReal (clusterPrior m z) * runSimulation m.d.confGroups z cfg {y | ((z, y.1), y.2) ∈ E}

theorem target0_apply (m : Setup K N F (S + 1) M nG) (B : Set (Clus K N × Cont K F (S + 1) M nG)) (hB : MeasurableSet B) :
    target m id (post0 m) B = ∑ z, ∫⁻ c in {c | (z, c) ∈ B}, dens m id (post0 m) z c ∂contRef m.cfg.app := by
  rw [← lintegral_indicator_one hB, lintegral_target (meas_post0 m) (measurable_one.indicator hB)]
  refine Finset.sum_congr rfl fun z _ => ?_
  have hBz : MeasurableSet {c : Cont K F (S + 1) M nG | (z, c) ∈ B} := measurable_prodMk_left hB
  rw [← lintegral_indicator hBz]
  refine lintegral_congr fun c => ?_
  by_cases h : (z, c) ∈ B
  · rw [Set.indicator_of_mem h, Set.indicator_of_mem (show c ∈ {c : Cont K F (S + 1) M nG | (z, c) ∈ B} from h)]
    simp
  · rw [Set.indicator_of_notMem h, Set.indicator_of_notMem (show c ∉ {c : Cont K F (S + 1) M nG | (z, c) ∈ B} from h), mul_zero]

/-- **C101.** If the settings of the simulation are those of the model and the clusters are drawn from the model's prior, then the simulated
clusters and parameters that come with a data set `x` are distributed as the posterior of the analysis of `x`: the probability of getting `x`
and parameters in `B` is a constant times the posterior mass of `B`, with the same constant for all data sets. -/
theorem C101_simulation_is_the_model (hm : WellPosed m) (hs : m.cfg.sampleSource = false) (hv : ∃ z : Clus K N, Clusters.Valid m.cl.minSize m.cl.maxSize z)
    (hmatch : Matches m cfg) (h : Positive (S + 1) cfg) :
    ∃ C : ℝ≥0∞, C ≠ 0 ∧ C ≠ ⊤ ∧ ∀ (x : Fin N → Fin F → Fin (S + 1)) (B : Set (Clus K N × Cont K F (S + 1) M nG)), MeasurableSet B →
      fromPrior m cfg {y | y.2 = x ∧ y.1 ∈ B} = C * target (withData m x) id (post0 (withData m x)) B := by
  classical
  obtain ⟨Z, hZ, -, -, h1, h2⟩ := clusterPrior_eq hv
  obtain ⟨c0, c1⟩ := priorNorm_pos hmatch h
  refine ⟨(ENNReal.ofReal Z)⁻¹ * priorNorm m, mul_ne_zero (ENNReal.inv_ne_zero.mpr ENNReal.ofReal_ne_top) c0,
    ENNReal.mul_ne_top (ENNReal.inv_ne_top.mpr (ENNReal.ofReal_pos.mpr hZ).ne') c1, fun x B hB => ?_⟩
  rw [target0_apply _ _ hB, Finset.mul_sum]
  refine Finset.sum_congr rfl fun z _ => ?_
  by_cases hz : Clusters.Valid m.cl.minSize m.cl.maxSize z
  · have hBz : MeasurableSet {c : Cont K F (S + 1) M nG | (z, c) ∈ B} := measurable_prodMk_left hB
    have key := simulated_posterior hm hs hmatch h hz x _ hBz
    have e : ∀ c, dens (withData m x) id (post0 (withData m x)) z c = ENNReal.ofReal (post0 (withData m x) (z, c)) := fun c =>
      dens_valid (m := withData m x) (clusters := id) (d := z) hz c
    simp only [e]
    rw [h1 z hz, mul_assoc (ENNReal.ofReal Z)⁻¹]
    refine Eq.trans ?_ (congrArg (fun t => (ENNReal.ofReal Z)⁻¹ * t) key)
    rw [div_eq_inv_mul, ENNReal.ofReal_mul (inv_pos.mpr hZ).le, ENNReal.ofReal_inv_of_pos hZ, mul_assoc]
    rfl
  · have e : ∀ c, dens (withData m x) id (post0 (withData m x)) z c = 0 := fun c =>
      dens_invalid (m := withData m x) (clusters := id) (d := z) hz c
    simp only [e, lintegral_zero, mul_zero]
    rw [h2 z hz, ENNReal.ofReal_zero, zero_mul]

/-- The simulation with random clusters, summed over the data. -/
theorem fromPrior_sum (m : Setup K N F (S + 1) M nG) (cfg : SimCfg F M) (B : (Fin N → Fin F → Fin (S + 1)) → Set (Clus K N × Cont K F (S + 1) M nG))
    (hB : ∀ x, MeasurableSet (B x)) :
    fromPrior m cfg {y | y.1 ∈ B y.2} = ∑ x, fromPrior m cfg {y | y.2 = x ∧ y.1 ∈ B x} := by
  unfold fromPrior
  rw [Finset.sum_comm]
  refine Finset.sum_congr rfl fun z _ => ?_
  rw [← Finset.mul_sum]
  congr 1
  rw [← measure_biUnion_finset]
  · congr 1
    ext y
    simp only [Set.mem_ofPred_eq, Set.mem_iUnion, Finset.mem_univ, exists_true_left]
    constructor
    · exact fun h => ⟨y.2, rfl, h⟩
    · rintro ⟨x, rfl, h⟩
      exact h
  · intro x _ x' _ hne
    exact Set.disjoint_left.mpr fun y h1 h2 => hne (h1.1.symm.trans h2.1)
  · intro x _
    exact (measurable_snd (measurableSet_singleton x)).inter (measurable_fst ((measurable_prodMk_left (x := z)) (hB x)))

theorem fromPrior_univ (hv : ∃ z : Clus K N, Clusters.Valid m.cl.minSize m.cl.maxSize z) (h : Positive (S + 1) cfg) :
    fromPrior m cfg Set.univ = 1 := by
  obtain ⟨Z, hZ, h0, hn, -⟩ := clusterPrior_eq hv
  unfold fromPrior
  have : ∀ z, runSimulation m.d.confGroups z cfg {y : Cont K F (S + 1) M nG × (Fin N → Fin F → Fin (S + 1)) | ((z, y.1), y.2) ∈ (Set.univ : Set ((Clus K N × Cont K F (S + 1) M nG) × (Fin N → Fin F → Fin (S + 1))))} = 1 := fun z => by
    have := C101_is_probability (S := S) h m.d.confGroups z
    exact (congrArg _ (by ext; simp)).trans (measure_univ (μ := runSimulation m.d.confGroups z cfg))
  simp only [this, mul_one]
  rw [← ENNReal.ofReal_sum_of_nonneg fun z _ => hn z, h0, ENNReal.ofReal_one]

/-- A data set is possible if every value is among the states of its feature. -/
def Possible (m : Setup K N F S M nG) (x : Fin N → Fin F → Fin S) : Prop := ∀ n f, m.cfg.app f (x n f) = true

theorem wellPosed_withData (hm : WellPosed m) {x : Fin N → Fin F → Fin (S + 1)} (hx : Possible m x) : WellPosed (withData m x) :=
  { hm with observed := fun n f => Or.inr ⟨x n f, observedData_observed m.d.confGroups x n f, hx n f⟩ }

theorem impossible_zero (hm : WellPosed m) (hs : m.cfg.sampleSource = false) {x : Fin N → Fin F → Fin (S + 1)} (hx : ¬ Possible m x) :
    target (withData m x) id (post0 (withData m x)) Set.univ = 0 := by
  rw [target0_apply _ _ MeasurableSet.univ]
  refine Finset.sum_eq_zero fun z _ => ?_
  by_cases hz : Clusters.Valid m.cl.minSize m.cl.maxSize z
  · have e : ∀ c, dens (withData m x) id (post0 (withData m x)) z c = ENNReal.ofReal (post0 (withData m x) (z, c)) := fun c =>
      dens_valid (m := withData m x) (clusters := id) (d := z) hz c
    simp only [e]
    refine (lintegral_congr_ae (ae_restrict_of_ae ((interior_ae (app := m.cfg.app) hm.hasState).mono fun c hc => ?_))).trans lintegral_zero
    have hcan := canvas_of_valid hm hz
    rw [post0_withData hm hs hz, likelihood_eq_prod (valid_of_interior hcan.clusters hcan.groups hcan.covered hc) x m.clOrder hm.clOrder
      m.confOrder hm.confOrder m.empty]
    unfold Possible at hx
    push Not at hx
    obtain ⟨n, f, hnf⟩ := hx
    have hnot : x n f ∉ states m.cfg.app f := fun h => hnf (mem_states.mp h)
    have h0 : lhFeature m.d.confGroups (params0 (z, c)) n f (x n f) = 0 := by
      have h1 : ∀ k, c.2.1 k f (x n f) = 0 := fun k => (hc.e k f).zero hnot
      have h2 : ∀ i g, c.2.2 i g f (x n f) = 0 := fun i g => (hc.ce i g f).zero hnot
      unfold lhFeature groupDot
      simp only [params0, h1, h2, mul_zero, Finset.sum_const_zero, add_zero]
    rw [Finset.prod_eq_zero (Finset.mem_univ n) (Finset.prod_eq_zero (Finset.mem_univ f) h0), zero_mul, ENNReal.ofReal_zero]
  · have e : ∀ c, dens (withData m x) id (post0 (withData m x)) z c = 0 := fun c =>
      dens_invalid (m := withData m x) (clusters := id) (d := z) hz c
    simp only [e, lintegral_zero]

/-- **C101.** Calibration: choose for every possible data set a region `B x` that has posterior probability `q` in the analysis of `x` (a
credible set, say). Then the clusters and parameters from which a data set was simulated lie in the region for this data set with probability
`q`. -/
theorem C101_credible_sets_are_calibrated (hm : WellPosed m) (hs : m.cfg.sampleSource = false)
    (hv : ∃ z : Clus K N, Clusters.Valid m.cl.minSize m.cl.maxSize z) (hmatch : Matches m cfg) (h : Positive (S + 1) cfg) (q : ℝ≥0∞)
    (B : (Fin N → Fin F → Fin (S + 1)) → Set (Clus K N × Cont K F (S + 1) M nG)) (hB : ∀ x, MeasurableSet (B x))
    (hq : ∀ x, Possible m x → target (withData m x) id (post0 (withData m x)) (B x) = q * target (withData m x) id (post0 (withData m x)) Set.univ) :
    fromPrior m cfg {y | y.1 ∈ B y.2} = q := by
  obtain ⟨C, -, -, hC⟩ := C101_simulation_is_the_model hm hs hv hmatch h
  have h1 := fromPrior_sum m cfg (fun _ => Set.univ) fun _ => MeasurableSet.univ
  rw [show {y : (Clus K N × Cont K F (S + 1) M nG) × (Fin N → Fin F → Fin (S + 1)) | y.1 ∈ (Set.univ : Set (Clus K N × Cont K F (S + 1) M nG))} = Set.univ from by
    ext; simp, fromPrior_univ hv h] at h1
  rw [fromPrior_sum m cfg B hB]
  calc ∑ x, fromPrior m cfg {y | y.2 = x ∧ y.1 ∈ B x} = ∑ x, q * fromPrior m cfg {y | y.2 = x ∧ y.1 ∈ Set.univ} := by
        refine Finset.sum_congr rfl fun x _ => ?_
        rw [hC x _ (hB x), hC x _ MeasurableSet.univ]
        by_cases hx : Possible m x
        · rw [hq x hx, mul_left_comm]
        · have h0 := impossible_zero hm hs hx
          rw [measure_mono_null (Set.subset_univ _) h0, h0, mul_zero, mul_zero]
    _ = q := by rw [← Finset.mul_sum, ← h1, mul_one]

/-- **C101.** The same if the analysis samples sources. -/
theorem C101_calibrated_with_sources (hm : WellPosed m) (hs : m.cfg.sampleSource = true)
    (hv : ∃ z : Clus K N, Clusters.Valid m.cl.minSize m.cl.maxSize z) (hmatch : Matches m cfg) (h : Positive (S + 1) cfg) (q : ℝ≥0∞)
    (B : (Fin N → Fin F → Fin (S + 1)) → Set (Clus K N × Cont K F (S + 1) M nG)) (hB : ∀ x, MeasurableSet (B x))
    (hq : ∀ x, Possible m x → target (withData m x) Prod.fst (Kernel.post (withData m x)) {y | (y.1.1, y.2) ∈ B x} =
      q * target (withData m x) Prod.fst (Kernel.post (withData m x)) Set.univ) :
    fromPrior m cfg {y | y.1 ∈ B y.2} = q := by
  refine C101_credible_sets_are_calibrated (m := withSampling m false) (withSampling_wellPosed hm false) rfl hv { hmatch with } h q B hB fun x hx => ?_
  have hw := wellPosed_withData hm (x := x) hx
  have e1 : withSampling (withData m x) true = withData m x := by
    rcases m with ⟨d, ⟨app, conf, size, geo, src⟩, cl, clO, cfO, e, fl⟩
    cases hs
    rfl
  have h1 := C92_same_posterior hw (B x) (hB x)
  have h2 := C92_same_posterior hw Set.univ MeasurableSet.univ
  rw [e1] at h1 h2
  have h3 := hq x hx
  rw [h1, show (Set.univ : Set (Disc K N F M × Cont K F (S + 1) M nG)) = {y | (y.1.1, y.2) ∈ (Set.univ : Set (Clus K N × Cont K F (S + 1) M nG))} from by
    ext; simp, h2] at h3
  exact h3

/-! ### The canvas -/

/-- The clusters of the canvas. -/
def canvasClusters (N : ℕ) (cluster : ℕ → ℤ) : Clus (SBayes.Data.assignToCluster N cluster).1.length N :=
  fun k n => (SBayes.Data.assignToCluster N cluster).2 k n

/-- The groups of the canvas. -/
def canvasGroups (N : ℕ) {M : ℕ} (conf : Fin M → ℕ → SBayes.Data.Str) (c : Fin M) : Fin (SBayes.Data.assignToConfounder N (conf c)).1.length → Fin N → Bool :=
  fun g n => (SBayes.Data.assignToConfounder N (conf c)).2 g n

/-- **C101.** Whatever the canvas says, its clusters and groups are as the simulation needs them, if there is at least one confounder. -/
theorem C101_every_canvas_works (N : ℕ) {M : ℕ} (hM : 0 < M) (cluster : ℕ → ℤ) (conf : Fin M → ℕ → SBayes.Data.Str) :
    Canvas (canvasGroups N conf) (canvasClusters N cluster) where
  clusters := by
    intro i j n h1 h2
    by_cases h0 : cluster n = 0
    · exact absurd (h1.symm.trans ((SBayes.Data.C56_clusters N cluster).2.1 n n.isLt h0 i)) (by simp)
    · exact Fin.ext (((SBayes.Data.C56_clusters N cluster).1 n n.isLt h0).unique ⟨i.isLt, h1⟩ ⟨j.isLt, h2⟩)
  groups := by
    intro c i j n h1 h2
    exact Fin.ext (((SBayes.Data.C56_groups_partial N (conf c)).1 n n.isLt).unique ⟨i.isLt, h1⟩ ⟨j.isLt, h2⟩)
  covered := by
    intro n
    obtain ⟨q, ⟨h1, h2⟩, -⟩ := (SBayes.Data.C56_groups_partial N (conf ⟨0, hM⟩)).1 n n.isLt
    exact Or.inr ⟨⟨0, hM⟩, ⟨q, h1⟩, h2⟩

/-! ### A simulation that meets the requirements -/

/-- Two features with three and two states, one confounder with concentration 2. -/
def exampleCfg : SimCfg 2 1 := { intensity := fun _ => 1, clusterConc := 1, confConc := fun _ => 2, nStates := fun f => 3 - f.val }

theorem exampleCfg_positive : Positive 3 exampleCfg where
  intensity _ := one_pos
  clusterConc := one_pos
  confConc _ := two_pos
  states f := by show 0 < 3 - f.val; omega

theorem exampleCfg_matches : Matches widerSetup exampleCfg where
  app := rfl
  intensity _ := rfl
  clusterConc := rfl
  uniform c g h := by cases (show (some fun _ _ => (2 : ℝ)) = none from h)
  dirichlet c g a h f s _ := by
    rw [← Option.some.inj (show (some fun _ _ => (2 : ℝ)) = some a from h)]
    rfl

theorem widerSetup_valid : ∃ z : Clus 2 5, Clusters.Valid widerSetup.cl.minSize widerSetup.cl.maxSize z := by
  refine ⟨fun k n => decide (n.val = k.val), ?_⟩
  refine ⟨fun i j n h1 h2 => Fin.ext ((of_decide_eq_true h1).symm.trans (of_decide_eq_true h2)), fun k => ?_, fun k => ?_⟩
  · have : ∀ k : Fin 2, 1 ≤ size (fun n : Fin 5 => decide (n.val = k.val)) := by decide
    exact this k
  · have : ∀ k : Fin 2, size (fun n : Fin 5 => decide (n.val = k.val)) ≤ 2 := by decide
    exact this k

/-- The requirements are met; the whole parameter space is a region with posterior probability one, the empty one a region with probability
zero. -/
example : WellPosed widerSetup ∧ widerSetup.cfg.sampleSource = false ∧ WellPosed (withSampling widerSetup true) ∧
    Matches widerSetup exampleCfg ∧ Matches (withSampling widerSetup true) exampleCfg ∧ Positive 3 exampleCfg ∧
    (∃ z : Clus 2 5, Clusters.Valid widerSetup.cl.minSize widerSetup.cl.maxSize z) ∧ ∃ x, Possible widerSetup x :=
  ⟨widerSetup_wellPosed, rfl, withSampling_wellPosed widerSetup_wellPosed true, exampleCfg_matches, { exampleCfg_matches with }, exampleCfg_positive,
    widerSetup_valid, fun _ _ => 0, fun _ f => by show decide (0 < 3 - f.val) = true; simp; omega⟩

end SBayes.SimRun
