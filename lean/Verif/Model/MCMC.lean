import Verif.Model.MH
import Mathlib.Data.EReal.Operations
import Mathlib.Algebra.Order.Floor.Ring
import Mathlib.Data.Rat.Floor
/-
Model of the sampling loop (sbayes/sampling/mcmc.py): `step` (321-364), the bookkeeping of
`OperatorStats`/`MCMCStats`/`Operator.register_*` (24-84, operators.py:83-97), `generate_samples`
(222-309), `choose_operator` and `normalize_operator_weights` (311-319, sbayes_sampling.py:456-459),
`get_operators` (353-453).

Log-values are extended reals.  Python's `nan` (from `inf - inf`) makes the acceptance comparison false;
so does `⊥`, which is what `EReal` gives for `⊥ + ⊤`.
-/
namespace SBayes.MCMC
open scoped BigOperators

variable {σ D : Type} {nC P : ℕ}

/-- `metropolis_hastings_ratio`, mcmc.py:366-386 (temperature 1). -/
noncomputable def ratio (llNew llPrev priorNew priorPrev logQ logQBack : EReal) : EReal :=
  (llNew - llPrev) - (logQ - logQBack) + (priorNew - priorPrev)

open Classical in
/-- The acceptance decision, mcmc.py:341-352; `u` is `random.random()`, in (0,1). -/
noncomputable def accept (llNew llPrev priorNew priorPrev logQ logQBack : EReal) (u : ℝ) : Bool :=
  if logQBack = ⊥ then false
  else if logQ = ⊥ then true
  else decide ((Real.log u : EReal) < ratio llNew llPrev priorNew priorPrev logQ logQBack)

/-- What an operator does: the content of the passed sample object afterwards (Gibbs operators modify it
in place), the content of the candidate, and the reported log-probabilities. -/
structure OpResult (σ : Type) where
  orig : σ
  cand : σ
  logQ : EReal
  logQBack : EReal

/-- `MCMC` attributes that change during sampling: samples and `_ll`, `_prior` per chain,
`MCMCStats.total_accepts`, `OperatorStats.accepts/rejects`, `Operator.accepts/rejects`. -/
structure State (σ : Type) (nC P : ℕ) where
  sample : Fin nC → σ
  ll : Fin nC → EReal
  prior : Fin nC → EReal
  total : ℕ
  acc : Fin P → ℕ
  rej : Fin P → ℕ
  opAcc : Fin P → ℕ
  opRej : Fin P → ℕ

/-- `d[i] += 1`. -/
def bump (v : Fin P → ℕ) (i : Fin P) : Fin P → ℕ := fun j => if j = i then v j + 1 else v j

/-- `MCMC.step`, mcmc.py:321-364, for chain `c`, chosen operator `i`, the operator's draws `w` and the
acceptance draw `u`.  `L`, `Pr` evaluate likelihood and prior (see C04-C07 for the caches). -/
noncomputable def step (L Pr : σ → EReal) (ops : Fin P → D → σ → OpResult σ) (c : Fin nC) (i : Fin P) (w : D)
    (u : ℝ) (s : State σ nC P) : State σ nC P :=
  let r := ops i w (s.sample c)
  let llC := L r.cand
  let prC := Pr r.cand
  if accept llC (s.ll c) prC (s.prior c) r.logQ r.logQBack u then
    { s with sample := Function.update s.sample c r.cand, ll := Function.update s.ll c llC,
             prior := Function.update s.prior c prC, total := s.total + 1,
             acc := bump s.acc i, opAcc := bump s.opAcc i }
  else
    { s with sample := Function.update s.sample c r.orig, rej := bump s.rej i, opRej := bump s.opRej i }

/-- State after `MCMC.__init__` (137-143) and the initial evaluation of each chain (mcmc.py:236-246). -/
def start (L Pr : σ → EReal) (x : Fin nC → σ) : State σ nC P :=
  ⟨x, fun c => L (x c), fun c => Pr (x c), 0, fun _ => 0, fun _ => 0, fun _ => 0, fun _ => 0⟩

/-- One event of a run: chain, operator, draws of the operator, acceptance draw. -/
structure Event (D : Type) (nC P : ℕ) where
  chain : Fin nC
  op : Fin P
  draw : D
  u : ℝ

/-- A sequence of steps. -/
noncomputable def steps (L Pr : σ → EReal) (ops : Fin P → D → σ → OpResult σ) (es : List (Event D nC P))
    (s : State σ nC P) : State σ nC P :=
  es.foldl (fun s e => step L Pr ops e.chain e.op e.draw e.u s) s

/-- `posterior_samples.index(max(posterior_samples))`, mcmc.py:270-272: the first maximum. -/
noncomputable def bestChain (post : List EReal) : Option ℕ :=
  post.max?.bind fun m => post.findIdx? fun x => x = m

/-- What the run leaves behind: the logged rows (`sample_id`, sample) and `statistics.last_sample`. -/
structure Out (σ : Type) where
  cur : σ
  rows : List (ℕ × σ)
  last : Option σ

/-- Python's `ZeroDivisionError`. -/
inductive Err | zeroDivision
  deriving DecidableEq

/-- Body of the sampling loop, mcmc.py:282-302, at step `i`; `next i` performs the MCMC steps of all
chains.  Printing (296-298) is not modelled. -/
def body (nSteps perSample : ℕ) (next : ℕ → σ → σ) (o : Out σ) (i : ℕ) : Except Err (Out σ) :=
  let s := next i o.cur
  let rows := if i % perSample = 0 then o.rows ++ [(i / perSample, s)] else o.rows
  if nSteps - 1 = 0 then .error .zeroDivision
  else
    let last := if i % (nSteps - 1) = 0 ∧ i ≠ 0 then some s else o.last
    .ok ⟨s, rows, last⟩

/-- `steps_per_sample = int(np.ceil(n_steps / n_samples))`, mcmc.py:279 (exact arithmetic). -/
def stepsPerSample (nSteps nSamples : ℕ) : ℕ := ⌈(nSteps : ℚ) / nSamples⌉₊

/-- `generate_samples(n_steps, n_samples)`, mcmc.py:276-304, from the initial sample. -/
def generateSamples (nSteps nSamples : ℕ) (next : ℕ → σ → σ) (init : σ) : Except Err (Out σ) :=
  if nSamples = 0 then .error .zeroDivision
  else (List.range nSteps).foldlM (body nSteps (stepsPerSample nSteps nSamples) next) ⟨init, [], none⟩

/-- `MCMCStats.acceptance_rate`, mcmc.py:82-84. -/
def acceptanceRate (totalAccepts nSamples : ℕ) : ℚ := totalAccepts / nSamples

/-- `OperatorStats.acceptance_rate`, mcmc.py:40-42, and `Operator.acceptance_rate`, operators.py:93-95. -/
def opAcceptanceRate (accepts rejects : ℕ) : ℚ := accepts / (accepts + rejects : ℕ)

/-- The configured relative frequencies (`OperatorsConfig`). -/
structure OpConfig where
  clusters : ℝ
  weights : ℝ
  clusterEffect : ℝ
  confoundingEffects : ℝ
  source : ℝ

/-- The kinds of operators in `get_operators`. -/
inductive OpKind (M : ℕ)
  | cluster (variant : Bool) | weights | clusterEffect | source | confounding (c : Fin M)
  deriving DecidableEq

/-- `get_operators`, sbayes_sampling.py:353-453, before normalisation: operators and their weights, in
dictionary order. -/
noncomputable def getOperators (sampleSource : Bool) (M : ℕ) (cfg : OpConfig) : Except Err (List (OpKind M × ℝ)) :=
  if M = 0 then .error .zeroDivision
  else
    let r : ℝ := 1 / M
    let conf := (List.finRange M).map fun c => (OpKind.confounding c, r * cfg.confoundingEffects)
    .ok <| if sampleSource then
      [(.cluster false, 0.5 * cfg.clusters), (.cluster true, 0.5 * cfg.clusters), (.source, cfg.source),
        (.weights, cfg.weights), (.clusterEffect, cfg.clusterEffect)] ++ conf
    else
      [(.cluster false, cfg.clusters), (.weights, cfg.weights), (.clusterEffect, cfg.clusterEffect)] ++ conf

/-- `normalize_operator_weights`, sbayes_sampling.py:456-459. -/
noncomputable def normalizeOperatorWeights {κ : Type} (ops : List (κ × ℝ)) : List (κ × ℝ) :=
  let total := (ops.map Prod.snd).sum
  ops.map fun o => (o.1, o.2 / total)

/-- `choose_operator` (mcmc.py:311-319) followed by the rest of `step` (335-364), as a random computation
on states: `w i` is the normalised weight of operator `i`. -/
noncomputable def mixStep (post : σ → ℝ) (ops : Fin P → σ → MH.Rand (MH.Result σ)) (w : Fin P → ℝ) (x : σ) : MH.Rand σ :=
  MH.bind (MH.choice (List.finRange P) w) fun i => MH.step post (ops i) x

/-- `n` iterations of the sampling loop, mcmc.py:282-286. -/
noncomputable def walk (k : σ → MH.Rand σ) : ℕ → σ → MH.Rand σ
  | 0, x => MH.ret x
  | n + 1, x => MH.bind (k x) (walk k n)

end SBayes.MCMC
