import Verif.Model.Effects
/-
Model of the generation of the initial sample (sbayes/sampling/sbayes_sampling.py): `grow_cluster_of_size_k`
(150-188), `generate_initial_clusters` (93-148), `generate_initial_weights` (190-210),
`generate_initial_cluster_effect` (212-255), `generate_initial_confounding_effect` (257-300).

Random draws come from an arbitrary stream `rnd`; a draw from a list takes the entry at the drawn number
modulo the length.  The initial sample of a previous run is `prev` (`none`: from scratch).
-/
namespace SBayes.Init
open SBayes.Lik SBayes.Clusters
open scoped BigOperators

variable {K N F S C G : ℕ}

/-- `random.sample(l, 1)[0]` / `random.choice(l)` with drawn number `r`; `none` (an exception) if empty. -/
def pick {α : Type} (l : List α) (r : ℕ) : Option α := l[r % l.length]?

/-- Result of an attempt to grow a cluster: the cluster, or `none` for a `ClusterError`; the array of
occupied sites, which is modified in place also by failed attempts; number of draws used. -/
structure Grown (N : ℕ) where
  cluster : Option (Fin N → Bool)
  occupied : Fin N → Bool
  pos : ℕ

/-- `cluster[i] = 1`. -/
def mark (v : Fin N → Bool) (i : Fin N) : Fin N → Bool := fun n => if n = i then true else v n

/-- The loop of `grow_cluster_of_size_k`, sbayes_sampling.py:179-186, with `k` iterations left. -/
def growLoop (adj : Fin N → Fin N → Bool) (rnd : ℕ → ℕ) : ℕ → (Fin N → Bool) → (Fin N → Bool) → ℕ → Grown N
  | 0, cluster, occupied, pos => ⟨some cluster, occupied, pos⟩
  | k + 1, cluster, occupied, pos =>
    match pick (indices (getNeighbours cluster occupied adj)) (rnd pos) with
    | none => ⟨none, occupied, pos⟩
    | some site => growLoop adj rnd k (mark cluster site) (mark occupied site) (pos + 1)

/-- `grow_cluster_of_size_k`, sbayes_sampling.py:150-188. -/
def growCluster (adj : Fin N → Fin N → Bool) (rnd : ℕ → ℕ) (k : ℕ) (occupied : Fin N → Bool) (pos : ℕ) : Grown N :=
  match pick (indices fun n => !occupied n) (rnd pos) with
  | none => ⟨none, occupied, pos⟩
  | some seed => growLoop adj rnd (k - 1) (mark (fun _ => false) seed) (mark occupied seed) (pos + 1)

/-- The loop of `generate_initial_clusters`, sbayes_sampling.py:121-148: `gen` clusters exist, `attempts`
attempts have failed; `none` is the ValueError after `maxAttempts` (1000) failures. -/
def initLoop (adj : Fin N → Fin N → Bool) (rnd : ℕ → ℕ) (size maxAttempts : ℕ) (attempts gen : ℕ) (cl : Clus K N)
    (occupied : Fin N → Bool) (pos : ℕ) : Option (Clus K N) :=
  if h : gen < K then
    let r := growCluster adj rnd size occupied pos
    match r.cluster with
    | some c => initLoop adj rnd size maxAttempts attempts (gen + 1) (Function.update cl ⟨gen, h⟩ c) r.occupied r.pos
    | none =>
      if attempts < maxAttempts then initLoop adj rnd size maxAttempts (attempts + 1) gen cl r.occupied r.pos
      else none
  else some cl
termination_by (K - gen) + (maxAttempts - attempts)

/-- `generate_initial_clusters`, sbayes_sampling.py:93-148; `prev` are the clusters of a previous run (111-115;
at most `K` of them, otherwise IndexError). -/
def initialClusters {m : ℕ} (adj : Fin N → Fin N → Bool) (rnd : ℕ → ℕ) (size : ℕ) (prev : Clus m N) :
    Option (Clus K N) :=
  if m ≤ K then
    initLoop adj rnd size 1000 0 m (fun k n => if h : k.val < m then prev ⟨k, h⟩ n else false) (anyGroup prev) 0
  else none

/-- `generate_initial_weights`, sbayes_sampling.py:190-210. -/
noncomputable def initialWeights (prev : Option (Fin F → Fin C → ℝ)) : Fin F → Fin C → ℝ :=
  fun f => Effects.normalize ((prev.getD fun _ _ => 1) f)

/-- `sites_per_state`, sbayes_sampling.py:239-248 and 284-294: number of objects of the group with state `s`,
plus one for applicable states.  (Features are boolean: the `nan` handling has no effect.) -/
def sitesPerState (x : Features N F S) (app : Fin F → Fin S → Bool) (group : Fin N → Bool) (f : Fin F) (s : Fin S) : ℝ :=
  ∑ n, (if group n && x n f s then 1 else 0) + if app f s then 1 else 0

/-- The effect of one group, sbayes_sampling.py:250-251 and 296-297. -/
noncomputable def groupEffect (x : Features N F S) (app : Fin F → Fin S → Bool) (group : Fin N → Bool)
    (f : Fin F) (s : Fin S) : ℝ := sitesPerState x app group f s / ∑ t, sitesPerState x app group f t

/-- `generate_initial_cluster_effect`, sbayes_sampling.py:212-255: the effects of the previous run first. -/
noncomputable def initialClusterEffect {m : ℕ} (x : Features N F S) (app : Fin F → Fin S → Bool)
    (prev : Fin m → Fin F → Fin S → ℝ) (cl : Clus K N) : Fin K → Fin F → Fin S → ℝ :=
  fun k => if h : k.val < m then prev ⟨k, h⟩ else groupEffect x app (cl k)

/-- `generate_initial_confounding_effect`, sbayes_sampling.py:257-300, for one confounder. -/
noncomputable def initialConfEffect (x : Features N F S) (app : Fin F → Fin S → Bool)
    (prev : Option (Fin G → Fin F → Fin S → ℝ)) (groups : Fin G → Fin N → Bool) : Fin G → Fin F → Fin S → ℝ :=
  prev.getD fun g => groupEffect x app (groups g)

end SBayes.Init
