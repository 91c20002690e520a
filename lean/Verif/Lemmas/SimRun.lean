import Verif.Model.SimRun
import Verif.Lemmas.ChainOn
import Verif.Props.Simulation
/- Laws of a simulation. -/
namespace SBayes.SimRun
open SBayes.Lik SBayes.Clusters SBayes.Effects SBayes.Kernel SBayes.Draws SBayes.Sim SBayes.Meas SBayes.Source SBayes.Prior SBayes.Posterior MeasureTheory
open scoped BigOperators ENNReal

variable {K N F S M : ℕ} {nG : Fin M → ℕ}

theorem meas_sampleCategorical {Θ : Type} [MeasurableSpace Θ] {p : Θ → Fin (M + 1) → ℝ} {z : Θ → ℝ} (hp : ∀ k, Measurable fun θ => p θ k)
    (hz : Measurable z) : Measurable fun θ => sampleCategorical (p θ) (z θ) := by
  have h : Measurable fun θ (k : Fin (M + 1)) => decide (z θ < Source.cumsum (p θ) k) := by
    rw [measurable_pi_iff]
    intro k
    have hc : Measurable fun θ => Source.cumsum (p θ) k := by
      unfold Source.cumsum
      exact Finset.measurable_fun_sum _ fun i _ => hp i
    refine measurable_to_bool ?_
    have : (fun θ => decide (z θ < Source.cumsum (p θ) k)) ⁻¹' {true} = {θ | z θ < Source.cumsum (p θ) k} := by
      ext θ; simp
    rw [this]
    exact measurableSet_lt hz hc
  exact (measurable_of_finite argmaxBool).comp h

theorem meas_lhFeature (conf : (c : Fin M) → Fin (nG c) → Fin N → Bool) (z : Clus K N) (n : Fin N) (f : Fin F) (s : Fin S) :
    Measurable fun c : Cont K F S M nG => lhFeature conf (params0 (z, c)) n f s := by
  have hw : ∀ i, Measurable fun c : Cont K F S M nG => normalizeWeights c.1 (assignment z conf) n f i := fun i =>
    meas_normalizeWeights (fun f i => by fun_prop) _ n f i
  unfold lhFeature groupDot
  refine ((hw 0).mul (Finset.measurable_fun_sum _ fun g _ => ?_)).add (Finset.measurable_fun_sum _ fun c _ => (hw c.succ).mul
    (Finset.measurable_fun_sum _ fun g _ => ?_))
  · show Measurable fun c : Cont K F S M nG => b2n ℝ (z g n) * c.2.1 g f s
    fun_prop
  · show Measurable fun c' : Cont K F S M nG => b2n ℝ (conf c g n) * c'.2.2 c g f s
    fun_prop

theorem meas_simulate (conf : (c : Fin M) → Fin (nG c) → Fin N → Bool) (z : Clus K N) :
    Measurable fun y : Cont K F (S + 1) M nG × (Fin N → Fin F → ℝ) => (y.1, simulateFeatures conf (params0 (z, y.1)) y.2) := by
  refine measurable_fst.prodMk ?_
  rw [measurable_pi_iff]
  intro n
  rw [measurable_pi_iff]
  intro f
  unfold simulateFeatures
  refine meas_sampleCategorical (fun k => (meas_lhFeature conf z n f k).comp measurable_fst) ?_
  fun_prop

instance : IsProbabilityMeasure uniform01 := ⟨by simp [uniform01]⟩

/-- The uniform draws of all sites and features. -/
theorem draws_eq (B : Set (Fin N → Fin F → ℝ)) (hB : MeasurableSet B) :
    (Measure.pi fun _ : Fin N => Measure.pi fun _ : Fin F => uniform01) B = volume {z | (∀ n f, 0 ≤ z n f ∧ z n f < 1) ∧ z ∈ B} := by
  have h1 : (Measure.pi fun _ : Fin N => Measure.pi fun _ : Fin F => uniform01) =
      (volume : Measure (Fin N → Fin F → ℝ)).restrict (Set.univ.pi fun _ => Set.univ.pi fun _ => Set.Ico 0 1) := by
    unfold uniform01
    rw [show (Measure.pi fun _ : Fin F => (volume : Measure ℝ).restrict (Set.Ico 0 1)) =
      (volume : Measure (Fin F → ℝ)).restrict (Set.univ.pi fun _ => Set.Ico 0 1) from (Measure.restrict_pi_pi _ _).symm]
    exact (Measure.restrict_pi_pi _ _).symm
  rw [h1, Measure.restrict_apply hB]
  congr 1
  ext z
  simp only [Set.mem_inter_iff, Set.mem_pi, Set.mem_univ, forall_true_left, Set.mem_Ico, Set.mem_ofPred_eq]
  exact and_comm

instance (G S : ℕ) (cfg : SimCfg F M) (a : ℝ) : IsFiniteMeasure (simulateEffects G S cfg a) := by
  unfold simulateEffects; infer_instance

instance (K S : ℕ) (nG : Fin M → ℕ) (cfg : SimCfg F M) : IsFiniteMeasure (simulateParams K S nG cfg) := by
  unfold simulateParams simulateWeights; infer_instance

/-- The joint law of parameters and data: the law of the parameters, weighted with the probability of the data. -/
theorem lintegral_run {conf : (c : Fin M) → Fin (nG c) → Fin N → Bool} {z : Clus K N} {cfg : SimCfg F M}
    {G : Cont K F (S + 1) M nG × (Fin N → Fin F → Fin (S + 1)) → ℝ≥0∞} (hG : Measurable G) :
    ∫⁻ y, G y ∂runSimulation conf z cfg = ∑ x, ∫⁻ c, (Measure.pi fun _ : Fin N => Measure.pi fun _ : Fin F => uniform01)
      {u | simulateFeatures conf (params0 (z, c)) u = x} * G (c, x) ∂simulateParams K (S + 1) nG cfg := by
  have hm := meas_simulate (S := S) (F := F) (K := K) conf z
  unfold runSimulation
  rw [lintegral_map hG hm, lintegral_prod (fun y => G (y.1, simulateFeatures conf (params0 (z, y.1)) y.2)) (hG.comp hm).aemeasurable]
  have hx : ∀ (x : Fin N → Fin F → Fin (S + 1)), MeasurableSet {y : Cont K F (S + 1) M nG × (Fin N → Fin F → ℝ) |
      simulateFeatures conf (params0 (z, y.1)) y.2 = x} := fun x => (measurable_snd.comp hm) (measurableSet_singleton x)
  rw [← lintegral_finsetSum _ fun x _ => ?_]
  · refine lintegral_congr fun c => ?_
    have hs : ∀ x, MeasurableSet {u : Fin N → Fin F → ℝ | simulateFeatures conf (params0 (z, c)) u = x} := fun x => (measurable_prodMk_left (x := c)) (hx x)
    have h1 : ∀ u, G (c, simulateFeatures conf (params0 (z, c)) u) =
        ∑ x, {u : Fin N → Fin F → ℝ | simulateFeatures conf (params0 (z, c)) u = x}.indicator (fun _ => G (c, x)) u := by
      intro u
      rw [Finset.sum_eq_single (simulateFeatures conf (params0 (z, c)) u)]
      · exact (Set.indicator_of_mem (f := fun _ => G (c, simulateFeatures conf (params0 (z, c)) u)) (show u ∈ {u' : Fin N → Fin F → ℝ | simulateFeatures conf (params0 (z, c)) u' = simulateFeatures conf (params0 (z, c)) u} from rfl)).symm
      · intro x _ hne
        exact Set.indicator_of_notMem (f := fun _ => G (c, x)) (fun h : u ∈ {u : Fin N → Fin F → ℝ | simulateFeatures conf (params0 (z, c)) u = x} => hne h.symm)
      · intro h; exact absurd (Finset.mem_univ _) h
    calc _ = ∫⁻ u, ∑ x, {u : Fin N → Fin F → ℝ | simulateFeatures conf (params0 (z, c)) u = x}.indicator (fun _ => G (c, x)) u
          ∂(Measure.pi fun _ : Fin N => Measure.pi fun _ : Fin F => uniform01) := lintegral_congr h1
      _ = _ := by
        rw [lintegral_finsetSum _ fun x _ => measurable_const.indicator (hs x)]
        refine Finset.sum_congr rfl fun x _ => ?_
        rw [lintegral_indicator_const (hs x), mul_comm]
  · exact (measurable_measure_prodMk_left (hx x)).mul (hG.comp (measurable_id.prodMk measurable_const))

/-- Interior parameters are what `simulate_features` asks for. -/
theorem valid_of_interior {conf : (c : Fin M) → Fin (nG c) → Fin N → Bool} {z : Clus K N} (hz : DisjointGroups z)
    (hc : ∀ c, DisjointGroups (conf c)) (hcov : ∀ n, (∃ k, z k n = true) ∨ ∃ c g, conf c g n = true) {app : Fin F → Fin S → Bool} {c : Cont K F S M nG}
    (h : Interior app c) : Sim.Valid conf (params0 (z, c)) where
  clusters := hz
  groups := hc
  weights f i := (h.w f).pos (Finset.mem_univ i)
  clNonneg k f s := by have := (h.e k f).1 s; split at this <;> [exact this.le; exact this.ge]
  clSum k f := (h.e k f).2
  confNonneg c g f s := by have := (h.ce c g f).1 s; split at this <;> [exact this.le; exact this.ge]
  confSum c g f := (h.ce c g f).2
  covered := hcov
  noSource := rfl

/-- The density of one simulated distribution. -/
noncomputable def rowDens {n : ℕ} (A : Finset (Fin n)) (alpha : Fin n → ℝ) (u : Fin n → ℝ) : ℝ≥0∞ :=
  ENNReal.ofReal (dirichletPdf A alpha u / Real.Gamma A.card)

theorem meas_rowDens {n : ℕ} (A : Finset (Fin n)) (alpha : Fin n → ℝ) : Measurable (rowDens A alpha) :=
  ((measurable_dirichletPdf A alpha).div_const _).ennreal_ofReal

/-- A positive choice of the settings. -/
structure Positive (S : ℕ) (cfg : SimCfg F M) : Prop where
  intensity : ∀ i, 0 < cfg.intensity i
  clusterConc : 0 < cfg.clusterConc
  confConc : ∀ c, 0 < cfg.confConc c
  states : ∀ f, 0 < cfg.nStates f

theorem used_nonempty {cfg : SimCfg F M} (h : ∀ f, 0 < cfg.nStates f) (f : Fin F) : (states (usedStates (S + 1) cfg) f).Nonempty :=
  ⟨0, mem_states.mpr (decide_eq_true (h f))⟩

theorem weights_density {cfg : SimCfg F M} (h : ∀ i, 0 < cfg.intensity i) :
    simulateWeights cfg = (Measure.pi fun _ : Fin F => uniformSimplex (Finset.univ : Finset (Fin (M + 1)))).withDensity
      fun w => ∏ f, rowDens Finset.univ cfg.intensity (w f) := by
  unfold simulateWeights
  have e : dirichletLaw (Finset.univ : Finset (Fin (M + 1))) cfg.intensity =
      (uniformSimplex Finset.univ).withDensity (rowDens Finset.univ cfg.intensity) :=
    dirichletLaw_density Finset.univ_nonempty fun i _ => h i
  have : SigmaFinite ((uniformSimplex (Finset.univ : Finset (Fin (M + 1)))).withDensity (rowDens Finset.univ cfg.intensity)) := by
    rw [← e]; infer_instance
  simp only [e]
  exact pi_withDensity (fun _ => rowDens Finset.univ cfg.intensity) fun _ => meas_rowDens _ _

/-- The density of simulated effects of one cluster or group. -/
noncomputable def tableDens (cfg : SimCfg F M) (a : ℝ) (e : Fin F → Fin S → ℝ) : ℝ≥0∞ :=
  ∏ f, rowDens (states (usedStates S cfg) f) (fun _ => a) (e f)

theorem meas_tableDens (cfg : SimCfg F M) (a : ℝ) : Measurable (tableDens (S := S) cfg a) :=
  Finset.measurable_prod _ fun f _ => (meas_rowDens _ _).comp (measurable_pi_apply f)

theorem table_density {cfg : SimCfg F M} (hs : ∀ f, 0 < cfg.nStates f) {a : ℝ} (ha : 0 < a) :
    (Measure.pi fun f => dirichletLaw (states (usedStates (S + 1) cfg) f) fun _ => a) =
      (Measure.pi fun f => uniformSimplex (states (usedStates (S + 1) cfg) f)).withDensity (tableDens cfg a) := by
  have e : ∀ f, dirichletLaw (states (usedStates (S + 1) cfg) f) (fun _ => a) =
      (uniformSimplex (states (usedStates (S + 1) cfg) f)).withDensity (rowDens (states (usedStates (S + 1) cfg) f) fun _ => a) :=
    fun f => dirichletLaw_density (used_nonempty hs f) fun _ _ => ha
  have : ∀ f, SigmaFinite ((uniformSimplex (states (usedStates (S + 1) cfg) f)).withDensity
      (rowDens (states (usedStates (S + 1) cfg) f) fun _ => a)) := fun f => by rw [← e]; infer_instance
  simp only [e]
  exact pi_withDensity _ fun _ => meas_rowDens _ _

theorem effects_density {cfg : SimCfg F M} (hs : ∀ f, 0 < cfg.nStates f) {a : ℝ} (ha : 0 < a) (G : ℕ) :
    simulateEffects G (S + 1) cfg a =
      (Measure.pi fun _ : Fin G => Measure.pi fun f => uniformSimplex (states (usedStates (S + 1) cfg) f)).withDensity
        fun e => ∏ g, tableDens cfg a (e g) := by
  unfold simulateEffects
  have e := table_density (S := S) hs ha
  have : SigmaFinite ((Measure.pi fun f => uniformSimplex (states (usedStates (S + 1) cfg) f)).withDensity (tableDens cfg a)) := by
    rw [← e]; infer_instance
  simp only [e]
  exact pi_withDensity (fun _ => tableDens cfg a) fun _ => meas_tableDens cfg a

/-- The density of the simulated parameters. -/
noncomputable def paramDens (cfg : SimCfg F M) (c : Cont K F S M nG) : ℝ≥0∞ :=
  (∏ f, rowDens Finset.univ cfg.intensity (c.1 f)) * ((∏ k, tableDens cfg cfg.clusterConc (c.2.1 k)) *
    ∏ i, ∏ g, tableDens cfg (cfg.confConc i) (c.2.2 i g))

theorem meas_paramDens (cfg : SimCfg F M) : Measurable (paramDens (K := K) (S := S) (nG := nG) cfg) := by
  refine Measurable.mul (Finset.measurable_fun_prod _ fun f _ => (meas_rowDens _ _).comp (by fun_prop)) (Measurable.mul
    (Finset.measurable_fun_prod _ fun k _ => (meas_tableDens _ _).comp (by fun_prop))
    (Finset.measurable_fun_prod _ fun i _ => Finset.measurable_fun_prod _ fun g _ => (meas_tableDens _ _).comp (by fun_prop)))

theorem params_density {cfg : SimCfg F M} (h : Positive (S + 1) cfg) :
    simulateParams K (S + 1) nG cfg = (contRef (usedStates (S + 1) cfg)).withDensity (paramDens cfg) := by
  have e : ∀ c, simulateEffects (nG c) (S + 1) cfg (cfg.confConc c) = _ := fun c => effects_density (S := S) h.states (h.confConc c) (nG c)
  have m2 : ∀ G a, Measurable fun e : Fin G → Fin F → Fin (S + 1) → ℝ => ∏ g, tableDens cfg a (e g) := fun G a =>
    Finset.measurable_fun_prod _ fun g _ => (meas_tableDens cfg a).comp (measurable_pi_apply g)
  have s2 : ∀ c, SigmaFinite ((Measure.pi fun _ : Fin (nG c) => Measure.pi fun f => uniformSimplex (states (usedStates (S + 1) cfg) f)).withDensity
        fun e => ∏ g, tableDens cfg (cfg.confConc c) (e g)) := fun c => by rw [← e]; infer_instance
  have e3 : (Measure.pi fun c => simulateEffects (nG c) (S + 1) cfg (cfg.confConc c)) = (Measure.pi fun c => Measure.pi fun _ : Fin (nG c) =>
      Measure.pi fun f => uniformSimplex (states (usedStates (S + 1) cfg) f)).withDensity
        fun e => ∏ i, ∏ g, tableDens cfg (cfg.confConc i) (e i g) := by
    simp only [e]
    exact pi_withDensity _ fun i => m2 _ _
  unfold simulateParams contRef
  rw [e3, weights_density h.intensity, effects_density (S := S) h.states h.clusterConc K]
  have m1 : Measurable fun w : Fin F → Fin (M + 1) → ℝ => ∏ f, rowDens Finset.univ cfg.intensity (w f) :=
    Finset.measurable_fun_prod _ fun f _ => (meas_rowDens _ _).comp (measurable_pi_apply f)
  have m3 : Measurable fun e : (c : Fin M) → Fin (nG c) → Fin F → Fin (S + 1) → ℝ => ∏ i, ∏ g, tableDens cfg (cfg.confConc i) (e i g) :=
    Finset.measurable_fun_prod _ fun i _ => (m2 (nG i) (cfg.confConc i)).comp (measurable_pi_apply i)
  rw [prod_withDensity (m2 K cfg.clusterConc) m3]
  exact prod_withDensity m1 (((m2 K cfg.clusterConc).comp measurable_fst).mul (m3.comp measurable_snd))

theorem interior_sim {cfg : SimCfg F M} (h : Positive (S + 1) cfg) :
    ∀ᵐ c ∂simulateParams K (S + 1) nG cfg, Interior (usedStates (S + 1) cfg) c := by
  rw [params_density h]
  refine (withDensity_absolutelyContinuous _ _).ae_le (interior_ae fun f => ?_)
  obtain ⟨s, hs⟩ := used_nonempty (S := S) h.states f
  exact ⟨s, mem_states.mp hs⟩

end SBayes.SimRun
