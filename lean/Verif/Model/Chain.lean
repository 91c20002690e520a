import Verif.Model.Posterior
/-
Model of one chain of the sampler with cached calculations: `MCMC.likelihood`, `MCMC.prior` with their self-checks,
`MCMC.step` and the loops of `generate_samples` (sbayes/sampling/mcmc.py:163-201, 242-286, 321-364), on samples with
caches (Model/Cache.lean).

An operator may evaluate things on the current sample before (`pre`) and after (`late`) copying it, and changes and
evaluates the copy (`ops`); Gibbs operators work on the current sample itself (`onCopy = false`).
The decision is an arbitrary function of the two log-likelihoods and log-priors: it covers the Metropolis-Hastings rule
(mcmc.py:342-352, C19, C27) as well as Gibbs steps (always accepted) and direct rejections.
A failing assertion is `none`. Floats are exact. Set traversal orders are arbitrary.
-/
namespace SBayes.Sampler
open SBayes.Lik SBayes.Cache SBayes.Posterior
open scoped BigOperators

variable {𝕜 : Type} [Field 𝕜] [DecidableEq 𝕜] {K N F S M : ℕ} {nG : Fin M → ℕ}

/-- Whether the self-check takes place, mcmc.py:173 and 196; `debug` is `CHECK_CACHING = __debug__` (106). -/
def checks (debug : Bool) (iStep : ℕ) : Bool := debug && decide (iStep < 1000) && decide (iStep % 10 = 0)

/-- Orders in which the sets of changed groups are traversed. -/
structure Orders (K M : ℕ) (nG : Fin M → ℕ) where
  cl : List (Fin K)
  cf : (c : Fin M) → List (Fin (nG c))
  pr : (c : Fin M) → List (Fin (nG c))

/-- `MCMC.likelihood`, mcmc.py:180-201. -/
def mcmcLh (d : ModelData N F S M nG) (P : PriorFns 𝕜 K N F S M nG) (fromPrior check : Bool) (o : Orders K M nG)
    (s : Sample 𝕜 K N F S M nG) : Option (Sample 𝕜 K N F S M nG × 𝕜) :=
  if fromPrior then some (s, 0)
  else
    let r := evalLh d s true o.cl o.cf
    let ll := (r.2.map P.logf).sum
    if check then
      let r' := evalLh d r.1 false o.cl o.cf
      if ll = (r'.2.map P.logf).sum then some (r'.1, ll) else none
    else some (r.1, ll)

/-- `MCMC.prior`, mcmc.py:163-178. -/
def mcmcPrior (P : PriorFns 𝕜 K N F S M nG) (check : Bool) (o : Orders K M nG) (s : Sample 𝕜 K N F S M nG) :
    Option (Sample 𝕜 K N F S M nG × 𝕜) :=
  let r := evalPrior P true o.pr s
  if check then
    let r' := evalPrior P false o.pr r.1
    if r.2 = r'.2 then some (r'.1, r.2) else none
  else some r

/-- Likelihood, then prior (mcmc.py:245-246, 336-339). -/
def mcmcEval (d : ModelData N F S M nG) (P : PriorFns 𝕜 K N F S M nG) (fromPrior check : Bool) (o : Orders K M nG)
    (s : Sample 𝕜 K N F S M nG) : Option (Sample 𝕜 K N F S M nG × 𝕜 × 𝕜) :=
  match mcmcLh d P fromPrior check o s with
  | none => none
  | some a =>
    match mcmcPrior P check o a.1 with
    | none => none
    | some b => some (b.1, a.2, b.2)

/-- State of one chain: `sample[c]`, `sample[c].i_step`, `self._ll[c]`, `self._prior[c]`. -/
structure ChainState (𝕜 : Type) (K N F S M : ℕ) (nG : Fin M → ℕ) where
  sample : Sample 𝕜 K N F S M nG
  iStep : ℕ
  ll : 𝕜
  prior : 𝕜

/-- What happens in one step: the operator's actions, the traversal orders and the decision. -/
structure Move (𝕜 : Type) (K N F S M : ℕ) (nG : Fin M → ℕ) where
  onCopy : Bool
  pre : List (SOp 𝕜 K N F S M nG)
  ops : List (SOp 𝕜 K N F S M nG)
  late : List (SOp 𝕜 K N F S M nG)
  orders : Orders K M nG
  accept : (llNew llPrev priorNew priorPrev : 𝕜) → Bool

/-- The initial sample and its evaluation, mcmc.py:240-246 (`i_step = 0`, state.py:395). -/
def start (d : ModelData N F S M nG) (P : PriorFns 𝕜 K N F S M nG) (debug fromPrior : Bool) (o : Orders K M nG)
    (p : Params 𝕜 K N F S M nG) (garbage : Fin N → Fin F → Fin (M + 1) → 𝕜) : Option (ChainState 𝕜 K N F S M nG) :=
  (mcmcEval d P fromPrior (checks debug 0) o (Sample.new d p garbage)).map fun r => ⟨r.1, 0, r.2.1, r.2.2⟩

/-- `MCMC.step` (mcmc.py:321-364) followed by `sample[c].i_step = i_step` (265-266, 285-286). The candidate has the
`i_step` of the sample it was copied from. If the operator works in place, the candidate is the current sample, whatever
the decision. -/
def step (d : ModelData N F S M nG) (P : PriorFns 𝕜 K N F S M nG) (debug fromPrior : Bool) (c : ChainState 𝕜 K N F S M nG)
    (i : ℕ) (m : Move 𝕜 K N F S M nG) : Option (ChainState 𝕜 K N F S M nG) :=
  let old := m.pre.foldl (stepS d P) c.sample
  let cand := m.ops.foldl (stepS d P) (if m.onCopy then old.copy d else old)
  match mcmcEval d P fromPrior (checks debug c.iStep) m.orders cand with
  | none => none
  | some (cand', ll, prior) =>
    if m.accept ll c.ll prior c.prior then some ⟨cand', i, ll, prior⟩
    else some ⟨if m.onCopy then m.late.foldl (stepS d P) old else cand', i, c.ll, c.prior⟩

/-- The steps numbered `i`, `i + 1`, ... -/
def run (d : ModelData N F S M nG) (P : PriorFns 𝕜 K N F S M nG) (debug fromPrior : Bool) :
    ChainState 𝕜 K N F S M nG → ℕ → List (Move 𝕜 K N F S M nG) → Option (ChainState 𝕜 K N F S M nG)
  | c, _, [] => some c
  | c, i, m :: ms =>
    match step d P debug fromPrior c i m with
    | none => none
    | some c' => run d P debug fromPrior c' (i + 1) ms

end SBayes.Sampler
