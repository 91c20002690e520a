import Verif.Model.SampleLoop
import Verif.Model.Init
/-
A whole run with or without source sampling, from the generation of the initial samples to the log: warm-up
(sbayes/mcmc_setup.py:82-100), choice of the best chain, and the main run (57-80), both by `generate_samples`
(sbayes/sampling/mcmc.py:222-305) and `generate_initial_sample` (sbayes/sampling/sbayes_sampling.py:302-345).
-/
namespace SBayes.Kernel
open SBayes.Lik SBayes.Clusters SBayes.MH SBayes.Source SBayes.Posterior SBayes.Init

variable {K N F S M : ℕ} {nG : Fin M → ℕ}

/-- A sample. -/
abbrev State (K N F S M : ℕ) (nG : Fin M → ℕ) := Disc K N F M × Cont K F S M nG

/-- The last part of `generate_initial_sample`, sbayes_sampling.py:338-343: draw all sources with `GibbsSampleSource`
(operators.py:269-323). -/
noncomputable def drawSources (m : Setup K N F S M nG) (x : State K N F S M nG) : Law (State K N F S M nG) :=
  Law.bind (Law.ofRand (gibbsSource (sourcePosterior m.d x.2.1 x.2.2.1 x.2.2.2 x.1.1) (List.finRange N) x.1.2)) fun r =>
    Law.ret ((x.1.1, r.new), x.2)

/-- `generate_initial_sample`, sbayes_sampling.py:302-345. `prev` is the `initial_sample`, if there is one; `rnd` are the
draws for the initial clusters (see `initialClusters`; `none` is its exception); `garbage` is the content of the uninitialised
source array (330-331; here restricted to arrays with a 1 in each row: everything is overwritten anyway). -/
noncomputable def initialSample (m : Setup K N F S M nG) (initialSize : ℕ) (garbage : Fin N × Fin F → Fin (M + 1))
    (prev : Option (State K N F S M nG)) (rnd : ℕ → ℕ) : Law (State K N F S M nG) :=
  match prev with
  | none =>
    match (initialClusters (m := 0) m.cl.adj rnd initialSize fun k => k.elim0 : Option (Clus K N)) with
    | none => fun _ => 0
    | some z => drawSources m ((z, garbage), initialWeights none,
        initialClusterEffect m.d.features m.cfg.app (m := 0) (fun k => k.elim0) z,
        fun c => initialConfEffect m.d.features m.cfg.app none (m.d.confGroups c))
  | some x =>
    match (initialClusters m.cl.adj rnd initialSize x.1.1 : Option (Clus K N)) with
    | none => fun _ => 0
    | some z => drawSources m ((z, garbage), initialWeights (some x.2.1),
        initialClusterEffect m.d.features m.cfg.app x.2.2.1 z,
        fun c => initialConfEffect m.d.features m.cfg.app (some (x.2.2.2 c)) (m.d.confGroups c))

variable {σ : Type} {n : ℕ}

/-- `for c in self.chain_idx: sample[c] = ...(sample[c], c)`, mcmc.py:238-244 and 264-266, for the chains still to do. -/
def forChains (k : Fin n → σ → Law σ) : List (Fin n) → (Fin n → σ) → Law (Fin n → σ)
  | [], x => Law.ret x
  | c :: cs, x => Law.bind (k c (x c)) fun y => forChains k cs (Function.update x c y)

open Classical in
/-- `posterior_samples.index(max(posterior_samples))`, mcmc.py:269-271: the first chain with the highest value; `none` (an
exception) if there are no chains. The values are compared without the logarithm. -/
noncomputable def firstBest (v : Fin n → ℝ) : Option (Fin n) := (List.finRange n).find? fun c => decide (∀ c', v c' ≤ v c)

/-- `MCMCSetup.warm_up`, mcmc_setup.py:82-100, by `generate_samples`, mcmc.py:235-274: initial samples for all chains (`blank` is
the content of the list before), `steps` rounds with one step per chain, and the sample of the best chain. (`ClusterMCMCWarmup`
sets `max_size` and `p_grow_connected` only after the operators were built, sbayes_sampling.py:474-489: the steps are those
of the main run.) -/
noncomputable def warmUp (post : σ → ℝ) (initial : Fin n → Law σ) (step : σ → Law σ) (steps : ℕ) (blank : Fin n → σ) : Law σ :=
  Law.bind (forChains (fun c _ => initial c) (List.finRange n) blank) fun x0 =>
    Law.bind (run (forChains (fun _ => step) (List.finRange n)) steps x0) fun x =>
      match firstBest fun c => post (x c) with
      | none => fun _ => 0
      | some c => Law.ret (x c)

/-- `mcmc.warm_up()` and `mcmc.sample()` of `run_experiment`, cli.py:36-38 (with mcmc_setup.py:57-100): the list of logged samples.
`nChains`, `warmSteps` are `warmup_chains`, `warmup_steps`; `steps`, `s` are `steps` and `steps_per_sample` (mcmc.py:279). -/
noncomputable def wholeRun (m : Setup K N F S M nG) (ops : List (MCMC.OpKind M × ℝ)) (initialSize nChains warmSteps : ℕ)
    (garbage : Fin N × Fin F → Fin (M + 1)) (rnd : Fin nChains → ℕ → ℕ) (rnd' : ℕ → ℕ) (blank : Fin nChains → State K N F S M nG)
    (s steps : ℕ) : Law (List (State K N F S M nG)) :=
  let step := chainStep (post m) (propose m) ops
  Law.bind (warmUp (post m) (fun c => initialSample m initialSize garbage none (rnd c)) step warmSteps blank) fun x =>
    Law.bind (initialSample m initialSize garbage (some x) rnd') fun y =>
      sampleLoop step s steps 0 y

/-- A sample without sources. -/
abbrev State0 (K N F S M : ℕ) (nG : Fin M → ℕ) := Clus K N × Cont K F S M nG

/-- `generate_initial_sample` without source sampling, sbayes_sampling.py:302-345: nothing is drawn except the initial clusters. -/
noncomputable def initialSample0 (m : Setup K N F S M nG) (initialSize : ℕ) (prev : Option (State0 K N F S M nG)) (rnd : ℕ → ℕ) :
    Law (State0 K N F S M nG) :=
  match prev with
  | none =>
    match (initialClusters (m := 0) m.cl.adj rnd initialSize fun k => k.elim0 : Option (Clus K N)) with
    | none => fun _ => 0
    | some z => Law.ret (z, initialWeights none,
        initialClusterEffect m.d.features m.cfg.app (m := 0) (fun k => k.elim0) z,
        fun c => initialConfEffect m.d.features m.cfg.app none (m.d.confGroups c))
  | some x =>
    match (initialClusters m.cl.adj rnd initialSize x.1 : Option (Clus K N)) with
    | none => fun _ => 0
    | some z => Law.ret (z, initialWeights (some x.2.1),
        initialClusterEffect m.d.features m.cfg.app x.2.2.1 z,
        fun c => initialConfEffect m.d.features m.cfg.app (some (x.2.2.2 c)) (m.d.confGroups c))

/-- `mcmc.warm_up()` and `mcmc.sample()` of `run_experiment` without source sampling, cli.py:36-38 (with mcmc_setup.py:57-100): the list
of logged samples. -/
noncomputable def wholeRun0 (m : Setup K N F S M nG) (ops : List (MCMC.OpKind M × ℝ)) (initialSize nChains warmSteps : ℕ)
    (rnd : Fin nChains → ℕ → ℕ) (rnd' : ℕ → ℕ) (blank : Fin nChains → State0 K N F S M nG)
    (s steps : ℕ) : Law (List (State0 K N F S M nG)) :=
  let step := chainStep (post0 m) (propose0 m) ops
  Law.bind (warmUp (post0 m) (fun c => initialSample0 m initialSize none (rnd c)) step warmSteps blank) fun x =>
    Law.bind (initialSample0 m initialSize (some x) rnd') fun y =>
      sampleLoop step s steps 0 y

end SBayes.Kernel
