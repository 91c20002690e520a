import Verif.Model.Effects
/- Specifications for moves of continuous parameters. -/
namespace SBayes.Effects
open SBayes.Lik SBayes.MH MeasureTheory
open scoped BigOperators ENNReal
variable {N F S C G : ℕ} {ι : Type}

/-- Non-negative with sum one. -/
def Simplex [Fintype ι] (v : ι → ℝ) : Prop := (∀ i, 0 ≤ v i) ∧ ∑ i, v i = 1

/-- Positive with sum one. -/
def OpenSimplex [Fintype ι] (v : ι → ℝ) : Prop := (∀ i, 0 < v i) ∧ ∑ i, v i = 1

/-- A probability vector on the applicable states, zero on the others. -/
def EffectOn (app : Fin S → Bool) (v : Fin S → ℝ) : Prop :=
  (∀ s, 0 ≤ v s) ∧ (∀ s, app s = false → v s = 0) ∧ ∑ s, v s = 1

/-- One step of the weights: some weight operator with some draws, accepted or rejected. Steps in which
the code would divide by zero do not exist. -/
inductive WStep : (Fin F → Fin C → ℝ) → (Fin F → Fin C → ℝ) → Prop
  | alter {w} (f : Fin F) (i j : Fin C) (t : Fin 2 → ℝ) : i ≠ j → Simplex t → w f i + w f j ≠ 0 →
      WStep w (alterWeights w f i j t).new
  | gibbs {w} {N : ℕ} (src : Fin N → Fin F → Fin C → Bool) (has : Fin N → Fin C → Bool) (i1 i2 : Fin C)
      (a2 u : Fin F → ℝ) : i1 ≠ i2 → (∀ f, 0 ≤ a2 f ∧ a2 f ≤ 1) → (∀ f, w f i1 + w f i2 ≠ 0) →
      WStep w (gibbsWeights src has w i1 i2 a2 u).new
  | rejected {w} : WStep w w

/-- As `WStep`, with draws in the open simplex/interval, and without excluding divisions by zero. -/
inductive WStepPos : (Fin F → Fin C → ℝ) → (Fin F → Fin C → ℝ) → Prop
  | alter {w} (f : Fin F) (i j : Fin C) (t : Fin 2 → ℝ) : i ≠ j → OpenSimplex t →
      WStepPos w (alterWeights w f i j t).new
  | gibbs {w} {N : ℕ} (src : Fin N → Fin F → Fin C → Bool) (has : Fin N → Fin C → Bool) (i1 i2 : Fin C)
      (a2 u : Fin F → ℝ) : i1 ≠ i2 → (∀ f, 0 < a2 f ∧ a2 f < 1) →
      WStepPos w (gibbsWeights src has w i1 i2 a2 u).new
  | rejected {w} : WStepPos w w

/-- One step of a group of effects (cluster effect or the effects of one confounder). -/
inductive EStep (app : Fin F → Fin S → Bool) : (Fin G → Fin F → Fin S → ℝ) → (Fin G → Fin F → Fin S → ℝ) → Prop
  | alter {e} (prec : ℝ) (g : Fin G) (f : Fin F) (i j : Fin S) (t : Fin 2 → ℝ) : i ≠ j →
      app f i = true → app f j = true → Simplex t → e g f i + e g f j ≠ 0 →
      EStep app e (alterEffect prec e g f i j t).new
  | gibbs {e} (g : Fin G) (draw : Fin F → Fin S → ℝ) :
      (∀ f, (∀ s ∈ states app f, 0 ≤ draw f s) ∧ ∑ s ∈ states app f, draw f s = 1) →
      EStep app e (writeEffect app e g draw)
  | rejected {e} : EStep app e e

/-- The points with the same mass on `{i, j}` and the same other entries as `v`: `a` is the share of `i`. -/
noncomputable def along (v : Fin C → ℝ) (i j : Fin C) (a : ℝ) : Fin C → ℝ :=
  Function.update (Function.update v i (a * (v i + v j))) j ((1 - a) * (v i + v j))

/-- Probability that a chain which, from `a`, draws `b` with density `q a b` on (0,1) and then moves
there with probability `acc a b` (else stays) is in `B` after the step. -/
noncomputable def stepProb (q acc : ℝ → ℝ → ℝ) (a : ℝ) (B : Set ℝ) : ℝ≥0∞ :=
  (∫⁻ b in Set.Ioo 0 1, B.indicator 1 b * ENNReal.ofReal (q a b * acc a b)) +
    B.indicator 1 a * ∫⁻ b in Set.Ioo 0 1, ENNReal.ofReal (q a b * (1 - acc a b))

/-- The density `pi` on (0,1) is stationary for that chain, and `q a` is a probability density. -/
def Stationary (pi : ℝ → ℝ) (q acc : ℝ → ℝ → ℝ) : Prop :=
  (∀ a ∈ Set.Ioo (0 : ℝ) 1, ∫⁻ b in Set.Ioo 0 1, ENNReal.ofReal (q a b) = 1) ∧
  ∀ B : Set ℝ, MeasurableSet B →
    ∫⁻ a in Set.Ioo 0 1, ENNReal.ofReal (pi a) * stepProb q acc a B =
      ∫⁻ a in Set.Ioo 0 1, B.indicator 1 a * ENNReal.ofReal (pi a)

end SBayes.Effects
