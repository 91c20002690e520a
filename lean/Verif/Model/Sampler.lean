import Verif.Model.Draws
import Verif.Model.Posterior
import Verif.Model.MCMC
/-
The sampler as a whole: the operators of both modes (`get_operators`, sbayes/sampling/sbayes_sampling.py:353-453) on the
whole state, with all their draws, inside `MCMC.step` (sbayes/sampling/mcmc.py:311-386).

A random computation with continuous draws is represented by its expected values: a law gives for every non-negative
observable of the result its expected value. An exception has no outcome: its law gives 0 for every observable.
-/
namespace SBayes.Kernel
open SBayes.Lik SBayes.Clusters SBayes.MH SBayes.Source SBayes.Effects SBayes.Posterior SBayes.Draws MeasureTheory
open scoped BigOperators ENNReal

variable {α β : Type}

/-- The expected value of every observable. -/
abbrev Law (α : Type) := (α → ℝ≥0∞) → ℝ≥0∞

/-- No randomness. -/
def Law.ret (a : α) : Law α := fun g => g a

/-- Sequencing. -/
def Law.bind (d : Law α) (f : α → Law β) : Law β := fun g => d fun a => f a g

/-- A computation with finitely many outcomes. -/
noncomputable def Law.ofRand (d : Rand α) : Law α := fun g => (d.map fun a => ENNReal.ofReal a.2 * g a.1).sum

/-- A draw from a probability measure. -/
noncomputable def Law.draw [MeasurableSpace α] (μ : Measure α) : Law α := fun g => ∫⁻ a, g a ∂μ

/-- Probability of an event. -/
noncomputable def Law.prob (d : Law α) (B : Set α) : ℝ≥0∞ := d (B.indicator 1)

/-- `step` after the proposal, mcmc.py:339-364: accept the candidate with probability `acceptProb` (see `C19_accept_event`),
otherwise keep the sample. -/
noncomputable def mhStep {σ : Type} (post : σ → ℝ) (propose : σ → Law (Result σ)) (x : σ) : Law σ :=
  Law.bind (propose x) fun r =>
    let a := acceptProb (post x) (post r.new) r.q r.qBack
    Law.ofRand [(r.new, a), (x, 1 - a)]

/-- `random.sample(l, 2)`: two different entries in random order, all pairs equally likely. -/
noncomputable def samplePair {n : ℕ} (l : List (Fin n)) : Rand (Fin n × Fin n) :=
  uniform ((l.product l).filter fun p => decide (p.1 ≠ p.2))

variable {K N F S M : ℕ} {nG : Fin M → ℕ}

/-- The continuous parameters of a sample: weights, cluster effects, confounding effects. -/
abbrev Cont (K F S M : ℕ) (nG : Fin M → ℕ) :=
  (Fin F → Fin (M + 1) → ℝ) × (Fin K → Fin F → Fin S → ℝ) × ((c : Fin M) → Fin (nG c) → Fin F → Fin S → ℝ)

/-- What a run is configured with: data, priors, limits on cluster sizes and the neighbourhood graph. `clOrder`,
`confOrder`, `empty` are the traversal orders and the uninitialised buffer, see `posterior`. `flat` is the flag `sample_from_prior`
as far as `compute_cluster_posterior` is concerned (operators.py:706-708); for all else this flag changes see Model/FromPrior. -/
structure Setup (K N F S M : ℕ) (nG : Fin M → ℕ) where
  d : ModelData N F S M nG
  cfg : ModelCfg N F S M nG
  cl : Cfg N
  clOrder : List (Fin K)
  confOrder : (c : Fin M) → List (Fin (nG c))
  empty : Fin N → Fin F → Fin (M + 1) → ℝ
  flat : Bool := false

/-- `compute_cluster_posterior`, operators.py:699-743: 1/2 for all objects if `sample_from_prior` (706-708), otherwise see `clusterPosterior`. -/
noncomputable def clusterProb (m : Setup K N F S M nG) (c : Cont K F S M nG) : Clus K N → Fin K → Fin N → ℝ :=
  if m.flat then fun _ _ _ => 1 / 2 else clusterPosterior m.d c.1 c.2.1 c.2.2

/-! ### With source sampling -/

/-- The discrete parameters of a sample: clusters, and the component every observation is attributed to (a source array is
modelled by the index of its 1 in each row). -/
abbrev Disc (K N F M : ℕ) := Clus K N × (Fin N × Fin F → Fin (M + 1))

/-- A source array. -/
def sourceArray (s : Fin N × Fin F → Fin (M + 1)) : Fin N → Fin F → Fin (M + 1) → Bool := fun n f c => eye (s (n, f)) c

/-- The sample (state.py:385-403). -/
def params (x : Disc K N F M × Cont K F S M nG) : Params ℝ K N F S M nG :=
  { clusters := x.1.1, weights := x.2.1, clusterEffect := x.2.2.1, confEffect := x.2.2.2,
    source := some (sourceArray x.1.2) }

/-- `Model.__call__`, model.py:65-69; 0 if it fails. -/
noncomputable def post (m : Setup K N F S M nG) (x : Disc K N F M × Cont K F S M nG) : ℝ :=
  (posterior m.d m.cfg m.clOrder m.confOrder m.empty (params x)).getD 0

/-- A result of a move of the discrete parameters. -/
def withCont (c : Cont K F S M nG) {D : Type} (r : Result D) : Result (D × Cont K F S M nG) := ⟨(r.new, c), r.q, r.qBack⟩

/-- The proposals of the operators used with source sampling, sbayes_sampling.py:373-423: `AlterClusterGibbsish`,
`AlterClusterGibbsish2` (operators.py:686-914 with `propose_new_sources`, 601-667), `GibbsSampleSource` (269-323),
`GibbsSampleWeights` (326-426), `GibbsSampleClusterEffect` (429-477), `GibbsSampleConfoundingEffects` (480-549). -/
noncomputable def propose (m : Setup K N F S M nG) (op : MCMC.OpKind M) (x : Disc K N F M × Cont K F S M nG) :
    Law (Result (Disc K N F M × Cont K F S M nG)) :=
  let z := x.1.1
  let src := sourceArray x.1.2
  let w := x.2.1
  let e := x.2.2.1
  let ce := x.2.2.2
  match op with
  | .cluster false => Law.bind (Law.ofRand (withSource (sourcePosterior m.d w e ce)
      (gibbsish m.cl (clusterProb m x.2)) x.1)) fun r => Law.ret (withCont x.2 r)
  | .cluster true => Law.bind (Law.ofRand (withSource (sourcePosterior m.d w e ce)
      (gibbsish2 m.cl (clusterProb m x.2)) x.1)) fun r => Law.ret (withCont x.2 r)
  | .source => Law.bind (Law.ofRand (gibbsSource (sourcePosterior m.d w e ce z) (List.finRange N) x.1.2)) fun r =>
      Law.ret (withCont x.2 ⟨(z, r.new), r.q, r.qBack⟩)
  | .weights =>
      let has := hasComponents m.d z
      Law.bind (Law.ofRand (samplePair (List.finRange (M + 1)))) fun ij =>
        let c := pairCounts src has ij.1 ij.2
        Law.bind (Law.draw (Measure.pi fun f => betaLaw (1 + c f ij.2) (1 + c f ij.1))) fun a2 =>
          Law.bind (Law.draw (Measure.pi fun _ : Fin F => uniform01)) fun u =>
            let r := gibbsWeights src has w ij.1 ij.2 a2 u
            Law.ret ⟨(x.1, r.new, e, ce), r.q, r.qBack⟩
  | .clusterEffect =>
      Law.bind (Law.ofRand (uniform (List.finRange K))) fun k =>
        let counts := attributedCounts m.d.features src 0 (z k)
        Law.bind (Law.draw (Measure.pi fun f => dirichletLaw (states m.cfg.app f) (gibbsAlpha (fun _ _ => 1) counts f)))
          fun draw => Law.ret (gibbs (x.1, w, writeEffect m.cfg.app e k draw, ce))
  | .confounding c =>
      Law.bind (Law.ofRand (uniform (List.finRange (nG c)))) fun g =>
        let counts := attributedCounts m.d.features src c.succ (m.d.confGroups c g)
        Law.bind (Law.draw (Measure.pi fun f =>
            dirichletLaw (states m.cfg.app f) (gibbsAlpha (concentration (m.cfg.conf c g)) counts f)))
          fun draw => Law.ret (gibbs (x.1, w, e, Function.update ce c (writeEffect m.cfg.app (ce c) g draw)))

/-! ### Without source sampling -/

/-- The sample without sources. -/
def params0 (x : Clus K N × Cont K F S M nG) : Params ℝ K N F S M nG :=
  { clusters := x.1, weights := x.2.1, clusterEffect := x.2.2.1, confEffect := x.2.2.2, source := none }

/-- `Model.__call__`, model.py:65-69; 0 if it fails. -/
noncomputable def post0 (m : Setup K N F S M nG) (x : Clus K N × Cont K F S M nG) : ℝ :=
  (posterior m.d m.cfg m.clOrder m.confOrder m.empty (params0 x)).getD 0

/-- `dirichlet_proposal`, operators.py:120-121: the draw, for the current share of the two entries `i`, `j` of `v`. -/
noncomputable def drawShare {n : ℕ} (prec : ℝ) (v : Fin n → ℝ) (i j : Fin n) : Law (Fin 2 → ℝ) :=
  let cur : Fin 2 → ℝ := ![v i, v j]
  let total := ∑ k, cur k
  Law.draw (dirichletLaw Finset.univ fun k => 1 + prec * (cur k / total))

/-- The proposals of the operators used without source sampling, sbayes_sampling.py:425-451: `AlterCluster`
(operators.py:917-1102), `AlterWeights` (138-173), `AlterClusterEffect` (176-218), `AlterConfoundingEffects` (221-266). -/
noncomputable def propose0 (m : Setup K N F S M nG) (op : MCMC.OpKind M) (x : Clus K N × Cont K F S M nG) :
    Law (Result (Clus K N × Cont K F S M nG)) :=
  let w := x.2.1
  let e := x.2.2.1
  let ce := x.2.2.2
  match op with
  | .cluster _ => Law.bind (Law.ofRand (alterCluster m.cl x.1)) fun r => Law.ret (withCont x.2 r)
  | .source => fun _ => 0
  | .weights =>
      Law.bind (Law.ofRand (uniform (List.finRange F))) fun f =>
        Law.bind (Law.ofRand (samplePair (List.finRange (M + 1)))) fun ij =>
          Law.bind (drawShare 30 (w f) ij.1 ij.2) fun t =>
            let r := alterWeights w f ij.1 ij.2 t
            Law.ret ⟨(x.1, r.new, e, ce), r.q, r.qBack⟩
  | .clusterEffect =>
      Law.bind (Law.ofRand (uniform (List.finRange K))) fun k =>
        Law.bind (Law.ofRand (uniform (List.finRange F))) fun f =>
          Law.bind (Law.ofRand (samplePair ((List.finRange S).filter fun s => m.cfg.app f s))) fun ij =>
            Law.bind (drawShare 20 (e k f) ij.1 ij.2) fun t =>
              let r := alterEffect 20 e k f ij.1 ij.2 t
              Law.ret ⟨(x.1, w, r.new, ce), r.q, r.qBack⟩
  | .confounding c =>
      Law.bind (Law.ofRand (uniform (List.finRange (nG c)))) fun g =>
        Law.bind (Law.ofRand (uniform (List.finRange F))) fun f =>
          Law.bind (Law.ofRand (samplePair ((List.finRange S).filter fun s => m.cfg.app f s))) fun ij =>
            Law.bind (drawShare 10 (ce c g f) ij.1 ij.2) fun t =>
              let r := alterEffect 10 (ce c) g f ij.1 ij.2 t
              Law.ret ⟨(x.1, w, e, Function.update ce c r.new), r.q, r.qBack⟩

/-! ### The chain -/

/-- `choose_operator` (mcmc.py:311-319) and `step` (321-364): `ops` are the operators with their normalised weights. -/
noncomputable def chainStep {σ : Type} (post : σ → ℝ) (propose : MCMC.OpKind M → σ → Law (Result σ))
    (ops : List (MCMC.OpKind M × ℝ)) (x : σ) : Law σ :=
  Law.bind (Law.ofRand ops) fun op => mhStep post (propose op) x

/-- `n` iterations of the sampling loop, mcmc.py:282-286. -/
noncomputable def run {σ : Type} (k : σ → Law σ) : ℕ → σ → Law σ
  | 0, x => Law.ret x
  | n + 1, x => Law.bind (k x) (run k n)

end SBayes.Kernel
