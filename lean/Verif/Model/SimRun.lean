import Verif.Model.Simulation
import Verif.Model.Sampler
/-
Model of a whole simulation: `Simulation.run_simulation` (sbayes/simulation.py:131-152), with `simulate_weights` and
`simulate_assignment_probabilities` (sbayes/preprocessing.py:308-322, 325-379). The random draws (`np.random.dirichlet`,
`np.random.random`) are independent with the laws of `Verif/Model/Draws.lean`; numbers are real.
-/
namespace SBayes.SimRun
open SBayes.Lik SBayes.Clusters SBayes.Effects SBayes.Kernel SBayes.Draws SBayes.Sim MeasureTheory

variable {K N F S M : ℕ} {nG : Fin M → ℕ}

/-- The settings of a simulation that concern the parameters: `config['cluster_effect']`, `config['confounding_effects']` in the order of the
confounders, and `n_states_per_feature` after the shuffle (preprocessing.py:333-345). -/
structure SimCfg (F M : ℕ) where
  intensity : Fin (M + 1) → ℝ
  clusterConc : ℝ
  confConc : Fin M → ℝ
  nStates : Fin F → ℕ

/-- `range(states_f)`: the states that a feature can have, preprocessing.py:357, 370. -/
def usedStates (S : ℕ) (cfg : SimCfg F M) (f : Fin F) (s : Fin S) : Bool := decide (s.val < cfg.nStates f)

/-- `simulate_weights`, preprocessing.py:308-322: one Dirichlet draw for every feature. -/
noncomputable def simulateWeights (cfg : SimCfg F M) : Measure (Fin F → Fin (M + 1) → ℝ) :=
  Measure.pi fun _ => dirichletLaw Finset.univ cfg.intensity

/-- The two double loops of `simulate_assignment_probabilities`, preprocessing.py:353-361 and 368-376: one Dirichlet draw for every cluster or
group and feature, zeros for the other states. -/
noncomputable def simulateEffects (G S : ℕ) (cfg : SimCfg F M) (conc : ℝ) : Measure (Fin G → Fin F → Fin S → ℝ) :=
  Measure.pi fun _ => Measure.pi fun f => dirichletLaw (states (usedStates S cfg) f) fun _ => conc

/-- The simulated parameters, simulation.py:142-147: weights, cluster effects, confounding effects. -/
noncomputable def simulateParams (K S : ℕ) (nG : Fin M → ℕ) (cfg : SimCfg F M) : Measure (Cont K F S M nG) :=
  (simulateWeights cfg).prod ((simulateEffects K S cfg cfg.clusterConc).prod (Measure.pi fun c => simulateEffects (nG c) S cfg (cfg.confConc c)))

/-- `Simulation.run_simulation`, simulation.py:131-152, for the clusters and confounders of the canvas: the parameters are drawn, then one uniform
number for every site and feature (preprocessing.py:231), which gives the features (`simulate_features`). -/
noncomputable def runSimulation (conf : (c : Fin M) → Fin (nG c) → Fin N → Bool) (clusters : Clus K N) (cfg : SimCfg F M) :
    Measure (Cont K F (S + 1) M nG × (Fin N → Fin F → Fin (S + 1))) :=
  ((simulateParams K (S + 1) nG cfg).prod (Measure.pi fun _ : Fin N => Measure.pi fun _ : Fin F => uniform01)).map fun y =>
    (y.1, simulateFeatures conf (params0 (clusters, y.1)) y.2)

end SBayes.SimRun
