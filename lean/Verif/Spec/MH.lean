import Verif.Model.MH
/- Specifications for Metropolis-Hastings steps. -/
namespace SBayes.MH
variable {σ α : Type}

/-- Probability that the operator proposes `y` when the current state is `x`. -/
noncomputable def propMass (op : σ → Rand (Result σ)) (x y : σ) : ℝ := prob (op x) fun r => r.new = y

/-- Probability that one step leads from `x` to `y`. -/
noncomputable def stepMass (post : σ → ℝ) (op : σ → Rand (Result σ)) (x y : σ) : ℝ :=
  prob (step post op x) fun s => s = y

/-- The paths of a random computation have non-negative probabilities that sum to one. -/
def IsDist (d : Rand α) : Prop := (∀ p ∈ d, 0 ≤ p.2) ∧ (d.map Prod.snd).sum = 1

/-- On the states `S`, every possible (`w ≠ 0`) proposal that differs from the current state stays in `S`, and the
reported forward and backward probabilities are, up to the common factor `c`, the real ones. -/
def ReportsRealMasses (S : σ → Prop) (op : σ → Rand (Result σ)) (c : ℝ) : Prop :=
  ∀ x, S x → ∀ r w, (r, w) ∈ op x → w ≠ 0 → r.new ≠ x →
    S r.new ∧ propMass op x r.new = c * r.q ∧ propMass op r.new x = c * r.qBack

/-- Detailed balance of a step with respect to the target `post` on the states `S`. -/
def DetailedBalance (S : σ → Prop) (post : σ → ℝ) (op : σ → Rand (Result σ)) : Prop :=
  ∀ x y, S x → S y → post x * stepMass post op x y = post y * stepMass post op y x

end SBayes.MH
