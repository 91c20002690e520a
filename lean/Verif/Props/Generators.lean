import Verif.Lemmas.Generators
import Mathlib.Probability.Distributions.Uniform
/-
C95: are the runs of one command independent repetitions?
-/
namespace SBayes.Gen
open MeasureTheory

variable {D ρ τ : Type} [MeasurableSpace D] [Countable D] [MeasurableSingletonClass D] (ν : Measure D) [IsProbabilityMeasure ν]

/-- **C95** Runs that one process executes one after the other (as without `processes`) are independent, and each has the law
of a run on its own, for all programs: the probability that all results are in given sets is the product. -/
theorem C95_runs_of_one_process_are_independent (runs : List (Use D ρ)) (As : List (Set ρ)) (h : runs.length = As.length) :
    fresh ν {g | List.Forall₂ (· ∈ ·) (oneAfterTheOther runs g) As} = (List.zipWith (alone ν) runs As).prod :=
  results_law ν runs As h

/-- **C95** So are the runs of a pool whose processes start with new generators, however the runs are distributed. -/
theorem C95_runs_of_spawned_processes_are_independent {W : ℕ} (tasks : Fin W → List (Use D ρ)) (As : Fin W → List (Set ρ))
    (h : ∀ w, (tasks w).length = (As w).length) :
    freshAll ν W {gs | ∀ w, List.Forall₂ (· ∈ ·) (pool gs tasks w) (As w)} =
      ∏ w, (List.zipWith (alone ν) (tasks w) (As w)).prod := by
  have : {gs : Fin W → Gens D | ∀ w, List.Forall₂ (· ∈ ·) (pool gs tasks w) (As w)} =
      Set.univ.pi fun w => {g | List.Forall₂ (· ∈ ·) (oneAfterTheOther (tasks w) g) (As w)} := by
    ext gs; simp [pool]
  rw [this, freshAll, Measure.pi_pi]
  exact Finset.prod_congr rfl fun w _ => results_law ν _ _ (h w)

/-- **C95** In a pool started with `fork`, the runs that the same process executes are independent, and each has the law of a run
on its own. -/
theorem C95_runs_of_one_forked_process_are_independent {W : ℕ} (tasks : Fin W → List (Use D ρ)) (w : Fin W) (As : List (Set ρ))
    (h : (tasks w).length = As.length) :
    withEntropy ν W {x | List.Forall₂ (· ∈ ·) (pool (fork x.1 x.2) tasks w) As} = (List.zipWith (alone ν) (tasks w) As).prod := by
  rw [← results_law ν _ _ h]
  have hf : Measurable fun x : Gens D × (Fin W → ℕ → D) => ((x.1.1, x.2 w) : Gens D) :=
    (measurable_fst.comp measurable_fst).prodMk ((measurable_pi_apply w).comp measurable_snd)
  have hmap : (withEntropy ν W).map (fun x => (x.1.1, x.2 w)) = fresh ν := by
    have h1 : (withEntropy ν W).map (Prod.map (Prod.fst : Gens D → ℕ → D) (fun e : Fin W → ℕ → D => e w)) =
        ((fresh ν).map Prod.fst).prod ((Measure.pi fun _ : Fin W => tape ν).map fun e => e w) :=
      (Measure.map_prod_map _ _ measurable_fst (measurable_pi_apply w)).symm
    have h2 : (fresh ν).map Prod.fst = tape ν := by unfold fresh; simp
    have h3 : ((Measure.pi fun _ : Fin W => tape ν).map fun e => e w) = tape ν :=
      (measurePreserving_eval (fun _ : Fin W => tape ν) w).map_eq
    rw [h2, h3] at h1
    exact h1
  rw [← hmap, Measure.map_apply hf (measurable_results _ _)]
  rfl

omit [Countable D] [MeasurableSingletonClass D] [MeasurableSpace D] in
/-- **C95** But runs of different processes of such a pool get the same numbers from numpy: if a program does not use the module
`random`, the first runs of two processes have the same result, whatever the numbers are. -/
theorem C95_forked_processes_draw_the_same_numbers {W : ℕ} (parent : Gens D) (entropy : Fin W → ℕ → D)
    (tasks : Fin W → List (Use D ρ)) (p : Use D ρ) (hp : NumpyOnly p) (w w' : Fin W) (ps ps' : List (Use D ρ))
    (hw : tasks w = p :: ps) (hw' : tasks w' = p :: ps') :
    (pool (fork parent entropy) tasks w).head? = (pool (fork parent entropy) tasks w').head? := by
  simp only [pool, hw, hw', oneAfterTheOther, List.head?_cons, fork]
  rw [exec_numpyOnly hp]

omit [Countable D] [MeasurableSingletonClass D] [MeasurableSpace D] in
/-- **C95** The first operator of the first run of a process is the same in all processes of such a pool, whatever the numbers are
and whatever the runs do -- also if they have different numbers of clusters. -/
theorem C95_forked_runs_have_the_same_first_operator {Op : Type} {W : ℕ} (parent : Gens D) (entropy : Fin W → ℕ → D)
    (n chains : ℕ) (choose : D → Op) (clusters : Fin W → ℕ → Use D (Option ρ)) (hc : ∀ w c, NoNumpy (clusters w c))
    (restOfRun : Fin W → List (ρ × List D) → Op → Use D τ) (others : Fin W → List (Use D (Option (Op × τ)))) (w w' : Fin W)
    (x x' : Op × τ)
    (hx : (pool (fork parent entropy)
      (fun w => untilFirstOperator (clusters w) n chains choose (restOfRun w) :: others w) w).head? = some (some x))
    (hx' : (pool (fork parent entropy)
      (fun w => untilFirstOperator (clusters w) n chains choose (restOfRun w) :: others w) w').head? = some (some x')) :
    x.1 = x'.1 := by
  simp only [pool, oneAfterTheOther, List.head?_cons, fork, Option.some.injEq] at hx hx'
  rw [exec_firstOperator (hc w) n chains choose (restOfRun w) _ _ hx, exec_firstOperator (hc w') n chains choose (restOfRun w') _ _ hx']

/-! ### An example -/

/-- The number is a bit. -/
noncomputable abbrev coin : Measure Bool := (PMF.uniformOfFintype Bool).toMeasure

/-- A run in which no clusters have to be drawn, of which only the first operator is of interest. -/
def shortRun : Use Bool (Option (Bool × Unit)) := untilFirstOperator (fun _ => .ret (some ())) 2 1 id fun _ _ => .ret ()

theorem shortRun_result (g : Gens Bool) : (exec shortRun g).1 = some (g.1 2, ()) := rfl

theorem coin_two : tape coin {s | s 2 = true} = 1 / 2 := by
  have h := Measure.infinitePi_pi (μ := fun _ : ℕ => coin) (s := {2}) (t := fun _ => {true})
    (fun _ _ => measurableSet_singleton _)
  have he : Set.pi (({2} : Finset ℕ) : Set ℕ) (fun _ => ({true} : Set Bool)) = {s | s 2 = true} := by
    ext s; simp
  rw [he] at h
  rw [tape, h]
  simp [coin]

theorem coin_alone : alone coin shortRun {some (true, ())} = 1 / 2 := by
  have h : {g : Gens Bool | (exec shortRun g).1 ∈ ({some (true, ())} : Set _)} = {s : ℕ → Bool | s 2 = true} ×ˢ Set.univ := by
    ext g; simp [shortRun_result]
  rw [alone, h, fresh, Measure.prod_prod, coin_two]
  simp

/-- **C95** Hence the first runs of two processes of such a pool are not independent: both start with the same operator with
probability 1/2, not 1/4. -/
theorem C95_runs_of_forked_processes_are_independent_false :
    withEntropy coin 2 {x | ∀ w : Fin 2, List.Forall₂ (· ∈ ·) (pool (fork x.1 x.2) (fun _ => [shortRun]) w)
        [({some (true, ())} : Set (Option (Bool × Unit)))]} =
        1 / 2 ∧
      ∏ _w : Fin 2, (List.zipWith (alone coin) [shortRun] [{some (true, ())}]).prod = 1 / 4 := by
  constructor
  · have h := C95_runs_of_one_forked_process_are_independent coin (fun _ : Fin 2 => [shortRun]) 0 [{some (true, ())}] rfl
    have he : {x : Gens Bool × (Fin 2 → ℕ → Bool) | ∀ w : Fin 2, List.Forall₂ (· ∈ ·)
        (pool (fork x.1 x.2) (fun _ => [shortRun]) w) [({some (true, ())} : Set _)]} =
        {x | List.Forall₂ (· ∈ ·) (pool (fork x.1 x.2) (fun _ => [shortRun]) (0 : Fin 2)) [({some (true, ())} : Set _)]} := by
      ext x
      simp [pool, oneAfterTheOther, shortRun_result, fork]
    rw [he, h]
    simp [coin_alone]
  · simp only [List.zipWith_cons_cons, List.zipWith_nil_left, List.prod_cons, List.prod_nil, mul_one, coin_alone]
    rw [Finset.prod_const, Finset.card_univ, Fintype.card_fin, pow_two]
    rw [ENNReal.div_eq_inv_mul, mul_one, ENNReal.div_eq_inv_mul, mul_one, ← ENNReal.mul_inv (by simp) (by simp)]
    norm_num

/-- The hypotheses of `C95_forked_runs_have_the_same_first_operator` are met by runs that draw their clusters. -/
example : ∀ (w : Fin 3) (c : ℕ), NoNumpy ((fun (_ : Fin 3) (_ : ℕ) => (.py fun d => .ret (some d) : Use Bool (Option Bool))) w c) :=
  fun _ _ => .py _ fun _ => .ret _

end SBayes.Gen
