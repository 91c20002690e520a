import Mathlib.Data.Fin.Basic
import Mathlib.Data.List.Basic
/-
Model of the random numbers that the runs of one command use (sbayes/cli.py:56-88). The code draws from two generators, the global
generator of numpy (`np.random...`, e.g. sampling/mcmc.py:315) and the one of the module `random` (`_random...`, e.g. mcmc.py:352).
No line of sbayes sets a seed, so both start from numbers of the operating system, and a run goes on where the run before it
in the same process stopped.

With several processes (cli.py:86-88) the runs are executed by the processes of `multiprocessing.Pool`. If they are started with
`fork` (the default on Linux up to Python 3.13), a process has a copy of the numpy generator of the parent, while the module
`random` starts its generator again from numbers of the operating system (`os.register_at_fork(after_in_child=_inst.seed)`). If
they are started with `spawn` (Windows, macOS), numpy is imported again and both generators start from such numbers.

Simplified: a generator is the sequence of the numbers that it will return; every draw uses a number of numbers that depends on
the program only. What a process executes is given, and does not depend on the numbers (in fact an idle process takes the next
runs).
-/
namespace SBayes.Gen

/-- A program that draws random numbers: it has ended, it needs a number of numpy, or one of the module `random`. -/
inductive Use (D ρ : Type)
  | ret (r : ρ)
  | np (next : D → Use D ρ)
  | py (next : D → Use D ρ)

/-- The two generators of a process: the numbers that they will return (numpy, `random`). -/
abbrev Gens (D : Type) := (ℕ → D) × (ℕ → D)

variable {D ρ τ : Type}

/-- A generator after it has returned a number. -/
def rest (s : ℕ → D) : ℕ → D := fun n => s (n + 1)

/-- Executing a program: its result, and the generators afterwards. -/
def exec : Use D ρ → Gens D → ρ × Gens D
  | .ret r, g => (r, g)
  | .np k, g => exec (k (g.1 0)) (rest g.1, g.2)
  | .py k, g => exec (k (g.2 0)) (g.1, rest g.2)

/-- One program, and then another one that depends on its result. -/
def Use.bind : Use D ρ → (ρ → Use D τ) → Use D τ
  | .ret r, f => f r
  | .np k, f => .np fun d => (k d).bind f
  | .py k, f => .py fun d => (k d).bind f

/-- The runs of one process, one after the other: cli.py:83-85, or the runs of a process of the pool. -/
def oneAfterTheOther : List (Use D ρ) → Gens D → List ρ
  | [], _ => []
  | p :: ps, g => (exec p g).1 :: oneAfterTheOther ps (exec p g).2

variable {W : ℕ}

/-- The generators of the processes of a pool started with `fork`, cli.py:87: numpy as in the parent, `random` from the operating
system. -/
def fork (parent : Gens D) (entropy : Fin W → ℕ → D) : Fin W → Gens D := fun w => (parent.1, entropy w)

/-- The results of the runs of the processes of a pool, cli.py:86-88. -/
def pool (start : Fin W → Gens D) (tasks : Fin W → List (Use D ρ)) : Fin W → List ρ :=
  fun w => oneAfterTheOther (tasks w) (start w)

/-! ### The beginning of a run -/

/-- `np.random.random(...)` of `n` numbers, as in `sample_categorical`, preprocessing.py:232. -/
def numbers : ℕ → Use D (List D)
  | 0 => .ret []
  | n + 1 => .np fun d => (numbers n).bind fun ds => .ret (d :: ds)

/-- `generate_initial_sample`, sbayes_sampling.py:302-345, for the chains: the initial clusters (`clusters c`; they are the only
thing that is drawn with `random`, 173-185; `none` is an exception) and, if sources are sampled, one number of numpy for each
object and feature (`n` altogether, 338-343). -/
def initialSamples (clusters : ℕ → Use D (Option ρ)) (n : ℕ) : ℕ → Use D (Option (List (ρ × List D)))
  | 0 => .ret (some [])
  | c + 1 => (initialSamples clusters n c).bind fun
    | none => .ret none
    | some xs => (clusters c).bind fun
      | none => .ret none
      | some z => (numbers n).bind fun ds => .ret (some (xs ++ [(z, ds)]))

/-- A run up to the choice of its first operator: initial samples of all chains (mcmc.py:238-244), then `choose_operator` (311-319;
`choose` is the operator for the number drawn by `np.random.choice`), then whatever follows. The result is the first operator
and the result of the rest. -/
def untilFirstOperator {Op : Type} (clusters : ℕ → Use D (Option ρ)) (n chains : ℕ) (choose : D → Op)
    (restOfRun : List (ρ × List D) → Op → Use D τ) : Use D (Option (Op × τ)) :=
  (initialSamples clusters n chains).bind fun
    | none => .ret none
    | some xs => .np fun d => (restOfRun xs (choose d)).bind fun r => .ret (some (choose d, r))

end SBayes.Gen
