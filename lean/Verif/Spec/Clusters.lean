import Verif.Model.Clusters
import Verif.Spec.Likelihood
import Verif.Spec.MH
/- Specifications for the cluster operators. -/
namespace SBayes.Clusters
open SBayes.Lik SBayes.MH
variable {K N : ℕ}

/-- Number of members of a cluster. -/
def size (c : Fin N → Bool) : ℕ := (Finset.univ.filter fun n => c n = true).card

/-- The constraints on clusters: no object in two clusters, sizes within the bounds. -/
structure Valid (lo hi : ℕ) (cl : Clus K N) : Prop where
  disjoint : ∀ i j n, cl i n = true → cl j n = true → i = j
  lower : ∀ k, lo ≤ size (cl k)
  upper : ∀ k, size (cl k) ≤ hi

/-- `y` differs from `x` in the membership of exactly one object in exactly one cluster, and that
object is in no other cluster. -/
def OneMembershipChanged (x y : Clus K N) : Prop :=
  ∃ z o, y z o = !x z o ∧ (∀ k n, ¬ (k = z ∧ n = o) → y k n = x k n) ∧ ∀ k, k ≠ z → x k o = false

/-- `y` differs from `x` in one cluster only, and no object of another cluster moved. -/
def OneClusterChanged (x y : Clus K N) : Prop :=
  ∃ z, (∀ k n, k ≠ z → y k n = x k n) ∧ ∀ k n, k ≠ z → x k n = true → y z n = x z n

end SBayes.Clusters

namespace SBayes.Clusters
open SBayes.Lik SBayes.MH
open scoped BigOperators
variable {K N F S M C : ℕ} {nG : Fin M → ℕ}

/-- A law for the source of an observation given the clusters: a distribution over the components
that depends on the clusters only through the memberships of the object. -/
structure SourceLaw (V : Clus K N → Prop) (p : Clus K N → Fin N → Fin F → Fin C → ℝ) : Prop where
  nonneg : ∀ x, V x → ∀ n f c, 0 ≤ p x n f c
  sum_one : ∀ x, V x → ∀ n f, ∑ c, p x n f c = 1
  local_ : ∀ x y, V x → V y → ∀ n, (∀ k, x k n = y k n) → p x n = p y n

/-- Cluster states with sources of positive probability. -/
def Possible (V : Clus K N → Prop) (p : Clus K N → Fin N → Fin F → Fin C → ℝ)
    (x : Clus K N × (Fin N × Fin F → Fin C)) : Prop :=
  V x.1 ∧ ∀ n f, p x.1 n f (x.2 (n, f)) ≠ 0

/-- What a run relies on: positive weights, one-hot or missing observations, positive effects at the
observed states, confounder groups disjoint, and every object in a group of some confounder. -/
structure PositiveModel (d : ModelData N F S M nG) (w : Fin F → Fin (M + 1) → ℝ)
    (clusterEffect : Fin K → Fin F → Fin S → ℝ)
    (confEffect : (c : Fin M) → Fin (nG c) → Fin F → Fin S → ℝ) : Prop where
  weights : ∀ f c, 0 < w f c
  onehot : ∀ n f, Missing d.features n f ∨ ∃ s, Observed d.features n f s
  cluster : ∀ k n f s, Observed d.features n f s → 0 < clusterEffect k f s
  conf : ∀ c g n f s, d.confGroups c g n = true → Observed d.features n f s → 0 < confEffect c g f s
  disjoint : ∀ c, DisjointGroups (d.confGroups c)
  covered : ∀ n, ∃ c g, d.confGroups c g n = true

end SBayes.Clusters
