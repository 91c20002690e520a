import Verif.Model.Init
import Verif.Spec.Clusters
import Verif.Spec.Effects
import Mathlib.Logic.Relation
/- Specifications for the initial sample. -/
namespace SBayes.Init
open SBayes.Lik SBayes.Clusters
variable {N F S : ℕ}

/-- Any two members of the cluster are linked by a path of neighbours inside the cluster. -/
def Connected (adj : Fin N → Fin N → Bool) (c : Fin N → Bool) : Prop :=
  ∀ a b, c a = true → c b = true →
    Relation.ReflTransGen (fun i j => c i = true ∧ c j = true ∧ adj i j = true) a b

/-- Observed states are applicable, and every feature has an applicable state. -/
structure Observable (x : Features N F S) (app : Fin F → Fin S → Bool) : Prop where
  observed : ∀ n f s, x n f s = true → app f s = true
  some_state : ∀ f, ∃ s, app f s = true

end SBayes.Init
