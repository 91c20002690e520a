import Verif.Model.Generators
import Mathlib.Probability.ProductMeasure
/-
What independent runs are. A generator returns independent numbers with law `ν`; the generators of the operating system are
independent of each other.
-/
namespace SBayes.Gen
open MeasureTheory

variable {D ρ : Type} [MeasurableSpace D]

/-- The law of a generator: independent numbers with law `ν`. -/
noncomputable def tape (ν : Measure D) [IsProbabilityMeasure ν] : Measure (ℕ → D) := Measure.infinitePi fun _ => ν

/-- The law of the two generators of a process that starts. -/
noncomputable def fresh (ν : Measure D) [IsProbabilityMeasure ν] : Measure (Gens D) := (tape ν).prod (tape ν)

/-- The law of the generators of `W` processes that all start with new generators. -/
noncomputable def freshAll (ν : Measure D) [IsProbabilityMeasure ν] (W : ℕ) : Measure (Fin W → Gens D) :=
  Measure.pi fun _ => fresh ν

/-- The law of the generators of a process and of the numbers that `W` other processes get from the operating system. -/
noncomputable def withEntropy (ν : Measure D) [IsProbabilityMeasure ν] (W : ℕ) : Measure (Gens D × (Fin W → ℕ → D)) :=
  (fresh ν).prod (Measure.pi fun _ => tape ν)

/-- The probability that a program, executed alone by a new process, has a result in `A`. -/
noncomputable def alone (ν : Measure D) [IsProbabilityMeasure ν] (p : Use D ρ) (A : Set ρ) : ENNReal :=
  fresh ν {g | (exec p g).1 ∈ A}

/-- The program does not draw from the module `random`. -/
inductive NumpyOnly : Use D ρ → Prop
  | ret (r : ρ) : NumpyOnly (.ret r)
  | np (k : D → Use D ρ) (h : ∀ d, NumpyOnly (k d)) : NumpyOnly (.np k)

/-- The program does not draw from numpy. -/
inductive NoNumpy : Use D ρ → Prop
  | ret (r : ρ) : NoNumpy (.ret r)
  | py (k : D → Use D ρ) (h : ∀ d, NoNumpy (k d)) : NoNumpy (.py k)

end SBayes.Gen
