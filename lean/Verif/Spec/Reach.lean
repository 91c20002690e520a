import Verif.Spec.MH
import Mathlib.Logic.Relation
/- Specification: which states a chain can get to. -/
namespace SBayes.MH
variable {σ : Type}

/-- The chain can get from `x` to `y`: through finitely many steps, each of positive probability. -/
def CanReach (post : σ → ℝ) (op : σ → Rand (Result σ)) : σ → σ → Prop :=
  Relation.ReflTransGen fun x y => 0 < stepMass post op x y

end SBayes.MH
