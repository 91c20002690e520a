import Verif.Model.Init
import Verif.Spec.Effects
import Verif.Spec.Source
/-
A whole run as a transition system on samples: `generate_initial_sample` (sbayes_sampling.py:302-345) followed
by steps of the operators that `get_operators` (353-453) sets up, each accepted or rejected (mcmc.py:321-364).
All random draws are free; Dirichlet and Beta draws are positive, as numpy's and scipy's (up to underflow).
-/
namespace SBayes.Run
open SBayes.Lik SBayes.Clusters SBayes.MH SBayes.Source SBayes.Effects SBayes.Init

variable {K N F S M : ℕ} {nG : Fin M → ℕ}

/-- The fixed inputs of a run. -/
structure Setup (N F S M : ℕ) (nG : Fin M → ℕ) where
  data : ModelData N F S M nG
  app : Fin F → Fin S → Bool
  cfg : Cfg N
  initialSize : ℕ
  fromPrior : Bool

/-- Effect operators on one parameter: `AlterClusterEffect`/`AlterConfoundingEffects` (operators.py:184-266)
and `GibbsSampleClusterEffect`/`GibbsSampleConfoundingEffects` (429-549). -/
inductive EffectMove {G : ℕ} (app : Fin F → Fin S → Bool) :
    (Fin G → Fin F → Fin S → ℝ) → (Fin G → Fin F → Fin S → ℝ) → Prop
  | alter {e} (prec : ℝ) (g : Fin G) (f : Fin F) (i j : Fin S) (t : Fin 2 → ℝ) : i ≠ j →
      app f i = true → app f j = true → OpenSimplex t → EffectMove app e (alterEffect prec e g f i j t).new
  | gibbs {e} (g : Fin G) (draw : Fin F → Fin S → ℝ) :
      (∀ f, (∀ s ∈ states app f, 0 < draw f s) ∧ ∑ s ∈ states app f, draw f s = 1) →
      EffectMove app e (writeEffect app e g draw)

/-- The cluster posterior used by the Gibbs-ish operators: `compute_cluster_posterior`, operators.py:699-743,
`0.5` everywhere when sampling from the prior (709-710). -/
noncomputable def clusterProbs (u : Setup N F S M nG) (s : St K N F S M nG) : Clus K N → Fin K → Fin N → ℝ :=
  if u.fromPrior then fun _ _ _ => 1 / 2
  else clusterPosterior u.data s.weights s.clusterEffect s.confEffect

/-- One step of the chain. -/
inductive Step (u : Setup N F S M nG) : St K N F S M nG → St K N F S M nG → Prop
  | rejected (s) : Step u s s
  | alterCluster (s) (r : Result (Clus K N)) (w : ℝ) (z : Fin N → Fin F → ℝ) : Unit01 z →
      (r, w) ∈ alterCluster u.cfg s.clusters → w ≠ 0 → r.qBack ≠ 0 →
      Step u s (moveCluster u.data u.fromPrior r.new z s)
  | gibbsish (s) (r : Result (Clus K N)) (w : ℝ) (z : Fin N → Fin F → ℝ) : Unit01 z →
      (r, w) ∈ gibbsish u.cfg (clusterProbs u s) s.clusters → w ≠ 0 → r.qBack ≠ 0 →
      Step u s (moveCluster u.data u.fromPrior r.new z s)
  | gibbsish2 (s) (r : Result (Clus K N)) (w : ℝ) (z : Fin N → Fin F → ℝ) : Unit01 z →
      (r, w) ∈ gibbsish2 u.cfg (clusterProbs u s) s.clusters → w ≠ 0 → r.qBack ≠ 0 →
      Step u s (moveCluster u.data u.fromPrior r.new z s)
  | source (s) (subset : Fin N → Bool) (z : Fin N → Fin F → ℝ) : Unit01 z →
      Step u s (if u.fromPrior then resampleSourcePrior u.data subset z s else resampleSource u.data subset z s)
  | weights (s) (w : Fin F → Fin (M + 1) → ℝ) : WStepPos s.weights w → Step u s { s with weights := w }
  | clusterEffect (s) (e : Fin K → Fin F → Fin S → ℝ) : EffectMove u.app s.clusterEffect e →
      Step u s { s with clusterEffect := e }
  | confEffect (s) (c : Fin M) (e : Fin (nG c) → Fin F → Fin S → ℝ) : EffectMove u.app (s.confEffect c) e →
      Step u s { s with confEffect := Function.update s.confEffect c e }

/-- `generate_initial_sample` without a previous run, for the generated clusters `cl`; `garbage` is the content
of the uninitialised source array (330-331). -/
noncomputable def initialSample (u : Setup N F S M nG) (cl : Clus K N) (garbage : Fin N → Fin F → Fin (M + 1) → Bool)
    (z : Fin N → Fin F → ℝ) : St K N F S M nG :=
  let s : St K N F S M nG :=
    { clusters := cl, source := garbage, weights := initialWeights none
      clusterEffect := initialClusterEffect u.data.features u.app (m := 0) (fun k => k.elim0) cl
      confEffect := fun c => initialConfEffect u.data.features u.app none (u.data.confGroups c) }
  if u.fromPrior then resampleSourcePrior u.data (fun _ => true) z s
  else resampleSource u.data (fun _ => true) z s

/-- The states of all runs. -/
inductive Reachable (u : Setup N F S M nG) : St K N F S M nG → Prop
  | init (rnd : ℕ → ℕ) (cl : Clus K N) (garbage : Fin N → Fin F → Fin (M + 1) → Bool) (z : Fin N → Fin F → ℝ) :
      initialClusters (m := 0) u.cfg.adj rnd u.initialSize (fun k => k.elim0) = some cl → Unit01 z →
      Reachable u (initialSample u cl garbage z)
  | step (s t) : Reachable u s → Step u s t → Reachable u t

end SBayes.Run
