import Verif.Model.Effects
import Mathlib.Probability.Distributions.Gamma
import Mathlib.Probability.Distributions.Beta
import Mathlib.MeasureTheory.Constructions.Pi
/-
Laws of the continuous random draws of the operators (sbayes/sampling/operators.py): `np.random.dirichlet` (121, 470,
541), `stats.beta(..).rvs()` (391-394), `np.random.random` (364) and `random.random()` in `MCMCChain.step`
(sbayes/sampling/mcmc.py:349).
-/
namespace SBayes.Draws
open MeasureTheory ProbabilityTheory SBayes.Effects

variable {ι : Type} [Fintype ι] [DecidableEq ι]

/-- One entry of the vector of Gamma variables: an independent Gamma(α_i, 1) variable for the entries in `A`, zero for
the others. -/
noncomputable def gammaEntry (A : Finset ι) (alpha : ι → ℝ) (i : ι) : Measure ℝ :=
  if i ∈ A then gammaMeasure (alpha i) 1 else Measure.dirac 0

open Classical in
/-- `v = zeros; v[A] = np.random.dirichlet(alpha[A])` (operators.py:121 with all entries; 469-472 and 540-543 with the
applicable states): numpy draws independent Gamma(α_i, 1) variables and divides them by their sum. With a parameter that
is not positive, or without any entry, it raises an exception, and there is no outcome. -/
noncomputable def dirichletLaw (A : Finset ι) (alpha : ι → ℝ) : Measure (ι → ℝ) :=
  if A.Nonempty ∧ ∀ i ∈ A, 0 < alpha i then (Measure.pi (gammaEntry A alpha)).map normalize else 0

/-- The uniform distribution on the probability vectors with entries in `A`. -/
noncomputable def uniformSimplex (A : Finset ι) : Measure (ι → ℝ) := dirichletLaw A fun _ => 1

/-- `stats.beta(a, b).rvs()`, operators.py:391-394: the law with the Beta density. -/
noncomputable def betaLaw (a b : ℝ) : Measure ℝ := betaMeasure a b

/-- `np.random.random()`: uniform on [0, 1). -/
noncomputable def uniform01 : Measure ℝ := volume.restrict (Set.Ico 0 1)

end SBayes.Draws
