import Verif.Model.WholeRun
/-
The sampler with `mcmc.sample_from_prior: true`: the likelihood is 0 on the log scale (`MCMC.likelihood`, sbayes/sampling/mcmc.py:189-191) and
the operators ignore the data (`sample_from_prior` in sbayes/sampling/operators.py, passed on in sbayes_sampling.py:373-451).
-/
namespace SBayes.Kernel
open SBayes.Lik SBayes.Clusters SBayes.MH SBayes.Source SBayes.Effects SBayes.Posterior SBayes.Draws SBayes.Init MeasureTheory
open scoped ENNReal

variable {K N F S M : ℕ} {nG : Fin M → ℕ}

/-- `step` with `sample_from_prior` compares the prior only: `MCMC.likelihood` returns 0 (mcmc.py:189-191), `MCMC.prior` (163-178) is evaluated
without caches here; 0 if it fails. -/
noncomputable def priorOnly (m : Setup K N F S M nG) (x : Disc K N F M × Cont K F S M nG) : ℝ := (prior m.d m.cfg (params x)).getD 0

/-- The same without sources. -/
noncomputable def priorOnly0 (m : Setup K N F S M nG) (x : Clus K N × Cont K F S M nG) : ℝ := (prior m.d m.cfg (params0 x)).getD 0

/-- The proposals of the operators used with source sampling and `sample_from_prior`: the probability to be in the cluster is 1/2
(`compute_cluster_posterior`, operators.py:706-708), sources are drawn from `update_weights` (`GibbsSampleSource`, 297-298; `gibbs_sample_source`,
650-653), effects as if there were no observations (`GibbsSampleClusterEffect`, 451-453; `GibbsSampleConfoundingEffects`, 515-517);
`GibbsSampleWeights` (326-426) does not use the flag. -/
noncomputable def proposePrior (m : Setup K N F S M nG) (op : MCMC.OpKind M) (x : Disc K N F M × Cont K F S M nG) :
    Law (Result (Disc K N F M × Cont K F S M nG)) :=
  let z := x.1.1
  let src := sourceArray x.1.2
  let w := x.2.1
  let e := x.2.2.1
  let ce := x.2.2.2
  let weights : Clus K N → Fin N → Fin F → Fin (M + 1) → ℝ := fun z => normalizeWeights w (hasComponents m.d z)
  match op with
  | .cluster false => Law.bind (Law.ofRand (withSource weights (gibbsish m.cl fun _ _ _ => 1 / 2) x.1)) fun r => Law.ret (withCont x.2 r)
  | .cluster true => Law.bind (Law.ofRand (withSource weights (gibbsish2 m.cl fun _ _ _ => 1 / 2) x.1)) fun r => Law.ret (withCont x.2 r)
  | .source => Law.bind (Law.ofRand (gibbsSource (weights z) (List.finRange N) x.1.2)) fun r =>
      Law.ret (withCont x.2 ⟨(z, r.new), r.q, r.qBack⟩)
  | .weights =>
      let has := hasComponents m.d z
      Law.bind (Law.ofRand (samplePair (List.finRange (M + 1)))) fun ij =>
        let c := pairCounts src has ij.1 ij.2
        Law.bind (Law.draw (Measure.pi fun f => betaLaw (1 + c f ij.2) (1 + c f ij.1))) fun a2 =>
          Law.bind (Law.draw (Measure.pi fun _ : Fin F => uniform01)) fun u =>
            let r := gibbsWeights src has w ij.1 ij.2 a2 u
            Law.ret ⟨(x.1, r.new, e, ce), r.q, r.qBack⟩
  | .clusterEffect =>
      Law.bind (Law.ofRand (uniform (List.finRange K))) fun k =>
        Law.bind (Law.draw (Measure.pi fun f => dirichletLaw (states m.cfg.app f) (gibbsAlpha (fun _ _ => 1) (fun _ _ => 0) f)))
          fun draw => Law.ret (gibbs (x.1, w, writeEffect m.cfg.app e k draw, ce))
  | .confounding c =>
      Law.bind (Law.ofRand (uniform (List.finRange (nG c)))) fun g =>
        Law.bind (Law.draw (Measure.pi fun f =>
            dirichletLaw (states m.cfg.app f) (gibbsAlpha (concentration (m.cfg.conf c g)) (fun _ _ => 0) f)))
          fun draw => Law.ret (gibbs (x.1, w, e, Function.update ce c (writeEffect m.cfg.app (ce c) g draw)))

/-- The last part of `generate_initial_sample`, sbayes_sampling.py:338-343, with `sample_from_prior`: draw all sources with
`GibbsSampleSource` (operators.py:297-298). -/
noncomputable def drawSourcesPrior (m : Setup K N F S M nG) (x : State K N F S M nG) : Law (State K N F S M nG) :=
  Law.bind (Law.ofRand (gibbsSource (normalizeWeights x.2.1 (hasComponents m.d x.1.1)) (List.finRange N) x.1.2)) fun r =>
    Law.ret ((x.1.1, r.new), x.2)

/-- `generate_initial_sample`, sbayes_sampling.py:302-345, with `sample_from_prior`: the initial effects are still computed from the data
(see `initialSample`), only the sources are not. -/
noncomputable def initialSamplePrior (m : Setup K N F S M nG) (initialSize : ℕ) (garbage : Fin N × Fin F → Fin (M + 1))
    (prev : Option (State K N F S M nG)) (rnd : ℕ → ℕ) : Law (State K N F S M nG) :=
  match prev with
  | none =>
    match (initialClusters (m := 0) m.cl.adj rnd initialSize fun k => k.elim0 : Option (Clus K N)) with
    | none => fun _ => 0
    | some z => drawSourcesPrior m ((z, garbage), initialWeights none,
        initialClusterEffect m.d.features m.cfg.app (m := 0) (fun k => k.elim0) z,
        fun c => initialConfEffect m.d.features m.cfg.app none (m.d.confGroups c))
  | some x =>
    match (initialClusters m.cl.adj rnd initialSize x.1.1 : Option (Clus K N)) with
    | none => fun _ => 0
    | some z => drawSourcesPrior m ((z, garbage), initialWeights (some x.2.1),
        initialClusterEffect m.d.features m.cfg.app x.2.2.1 z,
        fun c => initialConfEffect m.d.features m.cfg.app (some (x.2.2.2 c)) (m.d.confGroups c))

/-- `mcmc.warm_up()` and `mcmc.sample()` of `run_experiment` with `sample_from_prior`, cli.py:36-38 (with mcmc_setup.py:57-100): the list of
logged samples. -/
noncomputable def wholeRunPrior (m : Setup K N F S M nG) (ops : List (MCMC.OpKind M × ℝ)) (initialSize nChains warmSteps : ℕ)
    (garbage : Fin N × Fin F → Fin (M + 1)) (rnd : Fin nChains → ℕ → ℕ) (rnd' : ℕ → ℕ) (blank : Fin nChains → State K N F S M nG)
    (s steps : ℕ) : Law (List (State K N F S M nG)) :=
  let step := chainStep (priorOnly m) (proposePrior m) ops
  Law.bind (warmUp (priorOnly m) (fun c => initialSamplePrior m initialSize garbage none (rnd c)) step warmSteps blank) fun x =>
    Law.bind (initialSamplePrior m initialSize garbage (some x) rnd') fun y =>
      sampleLoop step s steps 0 y

/-- The same without sources: no operator uses the flag (sbayes_sampling.py:425-451; `AlterCluster` only if it resamples sources), only the
acceptance does. -/
noncomputable def wholeRunPrior0 (m : Setup K N F S M nG) (ops : List (MCMC.OpKind M × ℝ)) (initialSize nChains warmSteps : ℕ)
    (rnd : Fin nChains → ℕ → ℕ) (rnd' : ℕ → ℕ) (blank : Fin nChains → State0 K N F S M nG)
    (s steps : ℕ) : Law (List (State0 K N F S M nG)) :=
  let step := chainStep (priorOnly0 m) (propose0 m) ops
  Law.bind (warmUp (priorOnly0 m) (fun c => initialSample0 m initialSize none (rnd c)) step warmSteps blank) fun x =>
    Law.bind (initialSample0 m initialSize (some x) rnd') fun y =>
      sampleLoop step s steps 0 y

end SBayes.Kernel
