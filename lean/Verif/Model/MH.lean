import Mathlib.Data.Real.Basic
import Mathlib.Data.Fintype.Basic
import Mathlib.Logic.Function.Basic
import Mathlib.Analysis.SpecialFunctions.Log.Basic
/-
Finite random computations and the Metropolis-Hastings step (sbayes/sampling/mcmc.py:321-386).

A random computation with finitely many outcomes is the list of its execution paths, each with its
probability (the product of the probabilities of the draws on that path).
Transition probabilities and posteriors are in linear space: `log_q = -inf` is `q = 0`.
-/
namespace SBayes.MH

/-- A random computation: its execution paths with their probabilities. -/
abbrev Rand (α : Type) := List (α × ℝ)

variable {α β σ : Type}

/-- No randomness. -/
def ret (a : α) : Rand α := [(a, 1)]

/-- Sequencing. -/
noncomputable def bind (d : Rand α) (f : α → Rand β) : Rand β :=
  d.flatMap fun a => (f a.1).map fun b => (b.1, a.2 * b.2)

/-- `np.random.choice(l)` / `random.choice(l)`: uniform. -/
noncomputable def uniform (l : List α) : Rand α := l.map fun a => (a, 1 / (l.length : ℝ))

/-- `random.random() < p` for `0 ≤ p ≤ 1`. -/
noncomputable def bernoulli (p : ℝ) : Rand Bool := [(true, p), (false, 1 - p)]

/-- `np.random.choice(l, p=w)`: choose according to weights. -/
noncomputable def choice (l : List α) (w : α → ℝ) : Rand α := l.map fun a => (a, w a)

/-- Independent draws `d i` for the positions `i` in the list, written into the array `v`
(vectorised draws such as `np.random.random(n) < p` or `sample_categorical`). -/
noncomputable def indep {ι : Type} [DecidableEq ι] (d : ι → Rand β) : List ι → (ι → β) → Rand (ι → β)
  | [], v => ret v
  | i :: is, v => bind (d i) fun b => indep d is (Function.update v i b)

/-- Expected value of `f`. -/
noncomputable def E (d : Rand α) (f : α → ℝ) : ℝ := (d.map fun a => a.2 * f a.1).sum

open Classical in
/-- Probability of an event. -/
noncomputable def prob (d : Rand α) (p : α → Prop) : ℝ := E d fun a => if p a then 1 else 0

/-- What an operator returns: `(sample_new, log_q, log_q_back)`, in linear space. -/
structure Result (σ : Type) where
  new : σ
  q : ℝ
  qBack : ℝ

/-- Direct rejection: `return sample, Q_REJECT, Q_BACK_REJECT` (operators.py:39-41). -/
def reject (x : σ) : Result σ := ⟨x, 1, 0⟩

/-- Gibbs step: `return sample, Q_GIBBS, Q_BACK_GIBBS` (operators.py:35-37). -/
def gibbs (x : σ) : Result σ := ⟨x, 0, 1⟩

/-- `metropolis_hastings_ratio`, mcmc.py:367-386, with log arguments. -/
def mhRatio (llNew llPrev priorNew priorPrev logQ logQBack temperature : ℝ) : ℝ :=
  ((llNew - llPrev) * temperature) - (logQ - logQBack) + (priorNew - priorPrev)

/-- Probability that `step` accepts, mcmc.py:341-352, for posterior masses `cur`, `cand`
(temperature 1): reject if `log_q_back == -inf`, else accept if `log_q == -inf`, else accept with
probability `min(1, ratio)` (see `C19_accept_event`). -/
noncomputable def acceptProb (cur cand q qBack : ℝ) : ℝ :=
  if qBack = 0 then 0 else if q = 0 then 1 else min 1 (cand / cur * (qBack / q))

/-- One step of the chain as a random computation, mcmc.py:321-364: propose, then accept or keep. -/
noncomputable def step (post : σ → ℝ) (op : σ → Rand (Result σ)) (x : σ) : Rand σ :=
  bind (op x) fun r =>
    bind (bernoulli (acceptProb (post x) (post r.new) r.q r.qBack)) fun b =>
      ret (if b then r.new else x)

end SBayes.MH
