import Verif.Model.Source
import Verif.Model.Tools
import Verif.Model.Log
/-
Model of the simulation of data: sbayes/simulation.py (simulate_features 206-256, Simulation.write_to_csv 154-203), and
of the simulated parameters in sbayes/preprocessing.py (simulate_assignment_probabilities
325-379). Random draws are explicit arguments. Floats are real numbers.
-/
namespace SBayes.Sim
open SBayes.Lik SBayes.Source SBayes.Data
open scoped BigOperators

variable {K N F S M : ℕ} {nG : Fin M → ℕ}

/-- One entry of `membership.T.dot(probabilities[:, feat, :])`, simulation.py:246, 250. -/
noncomputable def groupDot {G : ℕ} (membership : Fin G → Fin N → Bool) (probs : Fin G → Fin F → Fin S → ℝ)
    (n : Fin N) (f : Fin F) (s : Fin S) : ℝ := ∑ g, b2n ℝ (membership g n) * probs g f s

/-- `assignment`, simulation.py:226-235. -/
def assignment (clusters : Fin K → Fin N → Bool) (conf : (c : Fin M) → Fin (nG c) → Fin N → Bool) :
    Fin N → Fin (M + 1) → Bool :=
  fun n => Fin.cons (anyGroup clusters n) (fun c => anyGroup (conf c) n)

/-- `lh_feature` for one feature and site, simulation.py:238-251. -/
noncomputable def lhFeature (conf : (c : Fin M) → Fin (nG c) → Fin N → Bool) (p : Params ℝ K N F S M nG)
    (n : Fin N) (f : Fin F) (s : Fin S) : ℝ :=
  normalizeWeights p.weights (assignment p.clusters conf) n f 0 * groupDot p.clusters p.clusterEffect n f s +
    ∑ c, normalizeWeights p.weights (assignment p.clusters conf) n f c.succ * groupDot (conf c) (p.confEffect c) n f s

/-- `simulate_features`, simulation.py:206-256, with the uniform draws `z` of `sample_categorical`. -/
noncomputable def simulateFeatures (conf : (c : Fin M) → Fin (nG c) → Fin N → Bool) (p : Params ℝ K N F (S + 1) M nG)
    (z : Fin N → Fin F → ℝ) (n : Fin N) (f : Fin F) : Fin (S + 1) :=
  sampleCategorical (lhFeature conf p n f) (z n f)

/-! ### Simulated parameters -/

/-- `n_states_per_feature` before the shuffle, preprocessing.py:333-343: for each number of states its share of the
features (`int(n_features * v)`), then `missing` more, drawn from the list (`draws` are the drawn indices). `none`:
`np.random.choice` of an empty list raises. -/
def nStatesPerFeature (nFeatures : ℕ) (share : List (ℕ × ℕ)) (draws : ℕ → ℕ) : Option (List ℕ) :=
  let base := share.flatMap (fun kv => List.replicate kv.2 kv.1)
  if base.length < nFeatures then
    if base = [] then none
    else some (base ++ (List.range (nFeatures - base.length)).map (fun i => base.getD (draws i % base.length) 0))
  else some base

/-- One row of the simulated probabilities, preprocessing.py:353-361 and 368-376: a Dirichlet draw for the states of the
feature, zero elsewhere (`np.zeros`). -/
def effectRow (statesF : ℕ) (draw : ℕ → ℝ) : ℕ → ℝ := fun s => if s < statesF then draw s else 0

/-! ### Written files -/

/-- The feature name in the written file: `"f" + str(i)` with `i` from 1, simulation.py:167-175. -/
def featureName (j : ℕ) : Str := SBayes.Log.lit "f" ++ SBayes.Log.num (j + 1)

/-- The written features, simulation.py:155-189. `fixed` are the columns id, x, y and the confounders. -/
def featuresFile (n nFeatures : ℕ) (fixed : List (Str × (ℕ → Str))) (values : ℕ → ℕ → ℕ) : CsvFile where
  nRows := n
  header := fixed.map (fun p => p.1) ++ (List.range nFeatures).map featureName
  cell := fun i j => if h : j < fixed.length then fixed[j].2 i else SBayes.Log.num (values i (j - fixed.length))

/-- The written states, simulation.py:170 and 195-203: the distinct values of each feature, in the order `order f` in
which Python happens to iterate over the set, filled up with empty cells (`zip_longest`, `None` is written as an empty
cell). -/
def statesCsv (nFeatures : ℕ) (order : ℕ → List ℕ) : CsvFile where
  nRows := ((List.range nFeatures).map (fun f => (order f).length)).foldr max 0
  header := (List.range nFeatures).map featureName
  cell := fun i j => if j < nFeatures then ((order j).map SBayes.Log.num).getD i [] else []

end SBayes.Sim
