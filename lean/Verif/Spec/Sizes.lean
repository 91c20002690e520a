import Mathlib.Data.Real.Basic
import Verif.Spec.Clusters
/- Specification of cluster sizes: the vectors of sizes that a configuration admits. -/
namespace SBayes.Clusters

/-- The vectors of cluster sizes within the bounds for which there are enough objects. -/
def admissibleSizes (K N lo hi : ℕ) : Finset (Fin K → ℕ) :=
  (Fintype.piFinset fun _ => Finset.Icc lo hi).filter fun v => ∑ k, v k ≤ N

open Classical in
/-- The weight of an assignment under the prior `quadratic`, among those within the constraints. -/
noncomputable def quadraticWeight {K N : ℕ} (lo hi : ℕ) (z : Clus K N) : ℝ :=
  if Valid lo hi z then ∏ k, 1 / (size (z k) : ℝ) ^ 2 else 0

end SBayes.Clusters
