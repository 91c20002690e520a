import Verif.Model.Log
import Mathlib.Logic.Equiv.Defs
/-
Specification of the output of a run, independent of the loops that write it: the columns of the statistics file
as a datatype, the name of each, and the quantity it stands for.
-/
namespace SBayes.Log

/-- A column of the statistics file. Feature, state, confounder, group and cluster are positions. -/
inductive Column
  | step | posterior | likelihood | prior
  | size (i : ℕ)
  | weight (f : ℕ) (comp : ℕ)
  | areal (i f s : ℕ)
  | conf (c g f s : ℕ)
  | post1 (i : ℕ) | lh1 (i : ℕ) | prior1 (i : ℕ)
  deriving DecidableEq

variable (S : Schema)

/-- Name of feature `f`, of its state `s`, of confounder `c`, of its group `g`. -/
def Schema.feature (f : ℕ) : Str := (S.features.getD f ([], [])).1
def Schema.state (f s : ℕ) : Str := (S.features.getD f ([], [])).2.getD s []
def Schema.confounder (c : ℕ) : Str := (S.confs.getD c ([], [])).1
def Schema.group (c g : ℕ) : Str := (S.confs.getD c ([], [])).2.getD g []
def Schema.nStates (f : ℕ) : ℕ := (S.features.getD f ([], [])).2.length
def Schema.nGroups (c : ℕ) : ℕ := (S.confs.getD c ([], [])).2.length

/-- The documented name of a column. -/
def Column.name : Column → Str
  | .step => "Sample".toList
  | .posterior => "posterior".toList
  | .likelihood => "likelihood".toList
  | .prior => "prior".toList
  | .size i => "size_a".toList ++ Nat.toDigits 10 i
  | .weight f 0 => "w_areal_".toList ++ S.feature f
  | .weight f (c + 1) => "w_".toList ++ S.confounder c ++ "_".toList ++ S.feature f
  | .areal i f s => "areal_a".toList ++ Nat.toDigits 10 (i + 1) ++ "_".toList ++ S.feature f ++ "_".toList ++ S.state f s
  | .conf c g f s => S.confounder c ++ "_".toList ++ S.group c g ++ "_".toList ++ S.feature f ++ "_".toList ++ S.state f s
  | .post1 i => "post_a".toList ++ Nat.toDigits 10 i
  | .lh1 i => "lh_a".toList ++ Nat.toDigits 10 i
  | .prior1 i => "prior_a".toList ++ Nat.toDigits 10 i

/-- All columns of a run with `K` clusters, in order. -/
def allColumns (K : ℕ) (contrib : Bool) : List Column :=
  [.step, .posterior, .likelihood, .prior] ++
  (List.range K).map Column.size ++
  (List.range S.features.length).flatMap (fun f => (List.range (S.confs.length + 1)).map (Column.weight f)) ++
  (List.range K).flatMap (fun i => (List.range S.features.length).flatMap (fun f =>
    (List.range (S.nStates f)).map (Column.areal i f))) ++
  (List.range S.confs.length).flatMap (fun c => (List.range (S.nGroups c)).flatMap (fun g =>
    (List.range S.features.length).flatMap (fun f => (List.range (S.nStates f)).map (Column.conf c g f)))) ++
  (if contrib then (List.range K).flatMap (fun i => [Column.post1 i, Column.lh1 i, Column.prior1 i]) else [])

/-- The quantity a column stands for, in sample `x` whose clusters are relabelled by `σ` (the `i`-th logged cluster
is cluster `σ i` of the sample). -/
noncomputable def Column.quantity (N : ℕ) (σ : ℕ → ℕ) (x : Snapshot) : Column → EReal
  | .step => ((x.step : ℝ) : EReal)
  | .posterior => x.lh + x.prior
  | .likelihood => x.lh
  | .prior => x.prior
  | .size i => ((((Finset.range N).filter (fun j => x.clusters (σ i) j = true)).card : ℝ) : EReal)
  | .weight f c => ((x.weights f c : ℝ) : EReal)
  | .areal i f s => ((x.clusterEffect (σ i) f s : ℝ) : EReal)
  | .conf c g f s => ((x.confEffect c g f s : ℝ) : EReal)
  | .post1 i => x.lh1 (x.clusters (σ i)) (x.clusterEffect (σ i)) + x.prior1 (x.clusters (σ i)) (x.clusterEffect (σ i))
  | .lh1 i => x.lh1 (x.clusters (σ i)) (x.clusterEffect (σ i))
  | .prior1 i => x.prior1 (x.clusters (σ i)) (x.clusterEffect (σ i))

/-- The samples written since the loggers were last opened, and whether they are open, after a history of events. -/
def written (es : List Event) : List Snapshot × Bool :=
  es.foldl (fun s e => match e with
    | .write x => (if s.2 then s.1 ++ [x] else [x], true)
    | .close => (s.1, false)) ([], false)

/-- How well the clusters `c`, relabelled by `π`, agree with those of earlier samples: over all pairs of a cluster and
an object in it, the number of earlier samples that had the object in that cluster. -/
def agreementWith (K N : ℕ) (past : List (ℕ → ℕ → Bool)) (c : ℕ → ℕ → Bool) (π : ℕ → ℕ) : ℕ :=
  ∑ i ∈ Finset.range K, ∑ j ∈ Finset.range N, past.countP (fun d => d i j) * (if c (π i) j then 1 else 0)

/-- `π` permutes the numbers below `K`. -/
def Permutes (K : ℕ) (π : ℕ → ℕ) : Prop := ∃ τ : Equiv.Perm (Fin K), ∀ i : Fin K, π i = τ i

/-- Names for which the columns of the statistics file can be told apart and read back. -/
structure GoodNames : Prop where
  features_ne : S.features ≠ []
  features_nodup : (S.features.map Prod.fst).Nodup
  feature_plain : ∀ f ∈ S.features, '_' ∉ f.1
  states_ne : ∀ f ∈ S.features, f.2 ≠ []
  states_nodup : ∀ f ∈ S.features, f.2.Nodup
  confs_nodup : (S.confs.map Prod.fst).Nodup
  conf_plain : ∀ c ∈ S.confs, '_' ∉ c.1
  conf_free : ∀ c ∈ S.confs, c.1 ∉ ["areal".toList, "w".toList, "size".toList, "post".toList, "lh".toList, "prior".toList]
  groups_nodup : ∀ c ∈ S.confs, c.2.Nodup
  group_plain : ∀ c ∈ S.confs, ∀ g ∈ c.2, '_' ∉ g

/-- No name contains a tab or a line break, so that the file can be split into fields. -/
structure PlainText : Prop where
  feature : ∀ f ∈ S.features, '\t' ∉ f.1 ∧ '\n' ∉ f.1
  state : ∀ f ∈ S.features, ∀ s ∈ f.2, '\t' ∉ s ∧ '\n' ∉ s
  conf : ∀ c ∈ S.confs, '\t' ∉ c.1 ∧ '\n' ∉ c.1
  group : ∀ c ∈ S.confs, ∀ g ∈ c.2, '\t' ∉ g ∧ '\n' ∉ g

end SBayes.Log
