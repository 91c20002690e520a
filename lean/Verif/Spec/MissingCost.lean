import Verif.Model.MissingCost
import Verif.Spec.Prior
/- Specification for property C108: costs that are missing or infinite. -/
namespace SBayes.Missing
open SBayes.Prior

open Classical in
/-- What scipy's `minimum_spanning_tree` promises for a graph that may be disconnected: a spanning forest of least total cost. -/
def IsMinForest {V : Type} [Fintype V] (cost : V → V → Cost) (T : SimpleGraph V) : Prop :=
  (T ≤ graph cost ∧ T.IsAcyclic ∧ ∀ u v, (graph cost).Reachable u v → T.Reachable u v) ∧
  ∀ T' : SimpleGraph V, T' ≤ graph cost → T'.IsAcyclic → (∀ u v, (graph cost).Reachable u v → T'.Reachable u v) →
    ∑ e ∈ T.edgeFinset, edgeCost cost e ≤ ∑ e ∈ T'.edgeFinset, edgeCost cost e

/-- One cost is at least as large as another one: `inf` is the largest; nan is not compared. -/
def Cost.le : Cost → Cost → Prop
  | .fin a, .fin b => a ≤ b
  | .fin _, .inf => True
  | .inf, .inf => True
  | _, _ => False

end SBayes.Missing
