import Verif.Spec.Sampler
/- Specification of the prior of weights and cluster effects. -/
namespace SBayes.Kernel
open SBayes.Effects SBayes.Draws MeasureTheory

/-- Weights and cluster effects independent and uniformly distributed on the probability vectors, the effects on those with
applicable states only. -/
noncomputable def uniformParams {F S : ℕ} (K : ℕ) (M : ℕ) (app : Fin F → Fin S → Bool) :
    Measure ((Fin F → Fin (M + 1) → ℝ) × (Fin K → Fin F → Fin S → ℝ)) :=
  (Measure.pi fun _ : Fin F => uniformSimplex (Finset.univ : Finset (Fin (M + 1)))).prod
    (Measure.pi fun _ : Fin K => Measure.pi fun f => uniformSimplex (states app f))

/-- All continuous parameters under the prior: weights and cluster effects uniform on the probability vectors, the confounding effect of each
group and feature Dirichlet distributed with the configured parameters (1 for a uniform prior), all independent. -/
noncomputable def priorParams {F S M : ℕ} {nG : Fin M → ℕ} (K : ℕ) (app : Fin F → Fin S → Bool)
    (conf : (i : Fin M) → Fin (nG i) → Option (Fin F → Fin S → ℝ)) : Measure (Cont K F S M nG) :=
  (Measure.pi fun _ : Fin F => uniformSimplex (Finset.univ : Finset (Fin (M + 1)))).prod
    ((Measure.pi fun _ : Fin K => Measure.pi fun f => uniformSimplex (states app f)).prod
      (Measure.pi fun i => Measure.pi fun g : Fin (nG i) => Measure.pi fun f =>
        dirichletLaw (states app f) ((conf i g).getD (fun _ _ => 1) f)))

end SBayes.Kernel
