import Verif.Model.Prior
import Mathlib.Data.Nat.Choose.Multinomial
/- Specifications for the closed-form prior terms. -/
namespace SBayes.Prior
open scoped BigOperators
variable {K N : ℕ}

/-- `cl` is a placement of pairwise disjoint clusters with the given sizes. -/
def IsPlacement (sizes : Fin K → ℕ) (cl : Fin K → Fin N → Bool) : Prop :=
  (∀ i j n, cl i n = true → cl j n = true → i = j) ∧
  ∀ k, (Finset.univ.filter fun n => cl k n = true).card = sizes k

instance (sizes : Fin K → ℕ) : DecidablePred (IsPlacement (N := N) sizes) := fun _ => by
  unfold IsPlacement; infer_instance

/-- All placements. -/
def placements (N : ℕ) (sizes : Fin K → ℕ) : Finset (Fin K → Fin N → Bool) :=
  Finset.univ.filter (IsPlacement sizes)

open Classical in
/-- What scipy's `minimum_spanning_tree` promises: a spanning tree of least total cost. -/
def IsMST {V : Type} [Fintype V] (cost : V → V → ℝ) (T : SimpleGraph V) : Prop :=
  T.IsTree ∧ ∀ T' : SimpleGraph V, T'.IsTree →
    ∑ e ∈ T.edgeFinset, edgeCost cost e ≤ ∑ e ∈ T'.edgeFinset, edgeCost cost e

end SBayes.Prior
