import Verif.Model.Sampler
/- Model of the sampling loop with its log, as a random computation. -/
namespace SBayes.Kernel

variable {σ : Type}

/-- The loop of `generate_samples`, mcmc.py:282-291, for one chain: `k` is `step`, `s` is `steps_per_sample`; `r` iterations
are left, `i` is `i_step`. The result is the list of logged samples. (Printing and `last_sample` are left out, see
`MCMC.body`.) -/
noncomputable def sampleLoop (k : σ → Law σ) (s : ℕ) : ℕ → ℕ → σ → Law (List σ)
  | 0, _, _ => Law.ret []
  | r + 1, i, x => Law.bind (k x) fun y => Law.bind (sampleLoop k s r (i + 1) y) fun l =>
      Law.ret (if i % s = 0 then y :: l else l)

end SBayes.Kernel
