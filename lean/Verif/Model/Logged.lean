import Verif.Model.Chain
/-
Model of what a run hands to the loggers: the attributes `last_lh`, `last_prior`, `observation_lhs` and `i_step` of the
sample (sbayes/sampling/state.py:395, 412-417; mcmc.py:163-201; likelihood.py:63-65) and the sampling loop of
`generate_samples` with its log and screen output (mcmc.py:275-308, 388-410), on top of Model/Chain.lean.

The loggers read these attributes and the parameters (loggers.py:155-160, 280). Which of the steps are logged is modelled by
`i_step % steps_per_sample == 0`, for any positive `steps_per_sample` (its value: C28).
-/
namespace SBayes.Sampler
open SBayes.Lik SBayes.Cache SBayes.Posterior
open scoped BigOperators

variable {𝕜 : Type} [Field 𝕜] [DecidableEq 𝕜] {K N F S M : ℕ} {nG : Fin M → ℕ}

/-- The attributes of a sample that exist for the loggers, state.py:412-417. `none` is `None`. -/
structure Attrs (𝕜 : Type) where
  lastLh : Option 𝕜
  lastPrior : Option 𝕜
  obs : Option (List 𝕜)

/-- Attributes of a new sample; copies are new samples too (state.py:412-417, 442-460). -/
def Attrs.none : Attrs 𝕜 := ⟨.none, .none, .none⟩

/-- `observation_lhs` after `MCMC.likelihood` (likelihood.py:64): set by the last evaluation, untouched when sampling from the
prior (mcmc.py:189-191). -/
def obsAfter (d : ModelData N F S M nG) (fromPrior check : Bool) (o : Orders K M nG) (s : Sample 𝕜 K N F S M nG)
    (before : Option (List 𝕜)) : Option (List 𝕜) :=
  if fromPrior then before
  else
    let r := evalLh d s true o.cl o.cf
    some (if check then (evalLh d r.1 false o.cl o.cf).2 else r.2)

/-- A chain with the attributes of its sample. -/
abbrev LState (𝕜 : Type) (K N F S M : ℕ) (nG : Fin M → ℕ) := ChainState 𝕜 K N F S M nG × Attrs 𝕜

/-- The initial sample and its evaluation, mcmc.py:240-246. -/
def startL (d : ModelData N F S M nG) (P : PriorFns 𝕜 K N F S M nG) (debug fromPrior : Bool) (o : Orders K M nG)
    (p : Params 𝕜 K N F S M nG) (garbage : Fin N → Fin F → Fin (M + 1) → 𝕜) : Option (LState 𝕜 K N F S M nG) :=
  (mcmcEval d P fromPrior (checks debug 0) o (Sample.new d p garbage)).map fun r =>
    (⟨r.1, 0, r.2.1, r.2.2⟩,
      ⟨some r.2.1, some r.2.2, obsAfter d fromPrior (checks debug 0) o (Sample.new d p garbage) none⟩)

/-- `MCMC.step` (mcmc.py:321-364) and `sample[c].i_step = i_step` (286), with attributes. -/
def stepL (d : ModelData N F S M nG) (P : PriorFns 𝕜 K N F S M nG) (debug fromPrior : Bool) (c : LState 𝕜 K N F S M nG)
    (i : ℕ) (m : Move 𝕜 K N F S M nG) : Option (LState 𝕜 K N F S M nG) :=
  let old := m.pre.foldl (stepS d P) c.1.sample
  let cand := m.ops.foldl (stepS d P) (if m.onCopy then old.copy d else old)
  let obs := obsAfter d fromPrior (checks debug c.1.iStep) m.orders cand (if m.onCopy then none else c.2.obs)
  match mcmcEval d P fromPrior (checks debug c.1.iStep) m.orders cand with
  | none => none
  | some (cand', ll, prior) =>
    let a : Attrs 𝕜 := ⟨some ll, some prior, obs⟩
    if m.accept ll c.1.ll prior c.1.prior then some (⟨cand', i, ll, prior⟩, a)
    else if m.onCopy then some (⟨m.late.foldl (stepS d P) old, i, c.1.ll, c.1.prior⟩, c.2)
    else some (⟨cand', i, c.1.ll, c.1.prior⟩, a)

/-- `print_screen_log` (mcmc.py:398-403), called after every thousandth step (301-302): it evaluates the likelihood of the
current sample once more. -/
def screen (d : ModelData N F S M nG) (P : PriorFns 𝕜 K N F S M nG) (debug fromPrior : Bool) (o : Orders K M nG)
    (c : LState 𝕜 K N F S M nG) (i : ℕ) : Option (LState 𝕜 K N F S M nG) :=
  if (i + 1) % 1000 = 0 then
    match mcmcLh d P fromPrior (checks debug c.1.iStep) o c.1.sample with
    | none => none
    | some (s, ll) => some ({ c.1 with sample := s },
        { c.2 with lastLh := some ll, obs := obsAfter d fromPrior (checks debug c.1.iStep) o c.1.sample c.2.obs })
  else some c

/-- What the loggers see of a sample. -/
structure Entry (𝕜 : Type) (K N F S M : ℕ) (nG : Fin M → ℕ) where
  iStep : ℕ
  params : Params 𝕜 K N F S M nG
  attrs : Attrs 𝕜

/-- The sampling loop, mcmc.py:282-302: the entries of the log in order of writing, and the final state. -/
def loopL (d : ModelData N F S M nG) (P : PriorFns 𝕜 K N F S M nG) (debug fromPrior : Bool) (every : ℕ) :
    LState 𝕜 K N F S M nG → ℕ → List (Move 𝕜 K N F S M nG × Orders K M nG) →
      Option (LState 𝕜 K N F S M nG × List (Entry 𝕜 K N F S M nG))
  | c, _, [] => some (c, [])
  | c, i, (m, o) :: ms =>
    match stepL d P debug fromPrior c i m with
    | none => none
    | some c₁ =>
      let log := if i % every = 0 then [⟨c₁.1.iStep, c₁.1.sample.params, c₁.2⟩] else []
      match screen d P debug fromPrior o c₁ i with
      | none => none
      | some c₂ =>
        match loopL d P debug fromPrior every c₂ (i + 1) ms with
        | none => none
        | some r => some (r.1, log ++ r.2)

end SBayes.Sampler
