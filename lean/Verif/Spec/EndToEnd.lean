import Verif.Model.EndToEnd
import Verif.Spec.Log
import Verif.Spec.Sampler
/- Specification of simple summaries of loaded results, and of what it means that a snapshot shows a state. -/
namespace SBayes.Log
open SBayes.Lik SBayes.Clusters SBayes.Kernel

/-- The number of samples. -/
def Loaded.count (r : Loaded) : ℕ := r.sampleId.length

/-- The clusters in sample `t`. -/
def Loaded.clustersAt (r : Loaded) (K N t : ℕ) : Clus K N := fun k n => ((r.clusters.getD k []).getD t []).getD n false

/-- The fraction of the samples whose clusters have the property `Q`. -/
noncomputable def Loaded.fraction (r : Loaded) {K N : ℕ} (Q : Clus K N → Bool) : ℝ :=
  (((List.range r.count).countP fun t => Q (r.clustersAt K N t) : ℕ) : ℝ) / (r.count : ℝ)

/-- The mean over the samples of the weight of component `i` (0: cluster) for feature `f`. -/
noncomputable def Loaded.meanWeight (r : Loaded) (f i : ℕ) : ℝ :=
  ((List.range r.count).map fun t => (((r.weights.getD f ([], [])).2.getD t []).getD i 0).toReal).sum / (r.count : ℝ)

/-- The mean over the samples of the probability of state `s` of feature `f` in group `g` of confounder `c`. -/
noncomputable def Loaded.meanConfounding (r : Loaded) (c g f s : ℕ) : ℝ :=
  ((List.range r.count).map fun t =>
    ((((((r.confounding.getD c ([], [])).2.getD g ([], [])).2.getD f ([], [])).2.getD t []).getD s 0).toReal)).sum / (r.count : ℝ)

/-- The mean over the samples of the probability of state `s` of feature `f` in the cluster of object `n` (0 if it is in none). -/
noncomputable def Loaded.meanEffectAt (r : Loaded) (K n f s : ℕ) : ℝ :=
  ((List.range r.count).map fun t => ∑ k : Fin K, if ((r.clusters.getD k []).getD t []).getD n false = true then
    ((((r.areal.getD k ([], [])).2.getD f ([], [])).2.getD t []).getD s 0).toReal else 0).sum / (r.count : ℝ)

variable {K N F S M : ℕ} {nG : Fin M → ℕ}

/-- A snapshot with these clusters, weights and effects. -/
structure Shows (z : Clus K N) (c : Cont K F S M nG) (x : Snapshot) : Prop where
  clusters : ∀ (k : Fin K) (n : Fin N), x.clusters k n = z k n
  weights : ∀ (f : Fin F) (i : Fin (M + 1)), x.weights f i = c.1 f i
  clusterEffect : ∀ (k : Fin K) (f : Fin F) (s : Fin S), x.clusterEffect k f s = c.2.1 k f s
  confEffect : ∀ (i : Fin M) (g : Fin (nG i)) (f : Fin F) (s : Fin S), x.confEffect i g f s = c.2.2 i g f s

/-- The names fit the numbers of features, confounders and groups. -/
structure Names (sch : Schema) (F M : ℕ) (nG : Fin M → ℕ) : Prop where
  features : sch.features.length = F
  confs : sch.confs.length = M
  groups : ∀ i : Fin M, sch.nGroups i = nG i

/-- A property of the clusters that does not depend on which of them is the first, the second and so on. -/
def Unlabelled (Q : Clus K N → Bool) : Prop := ∀ (τ : Equiv.Perm (Fin K)) (z : Clus K N), Q (fun k => z (τ k)) = Q z

end SBayes.Log

namespace SBayes.Log
open SBayes.Lik SBayes.Clusters SBayes.Kernel
variable {K N F S M : ℕ} {nG : Fin M → ℕ}

/-- How the results of a run are written and read: names, contributions of single clusters or not, the format of numbers, how they are
parsed, and what was on the disk before. -/
structure Output where
  names : Schema
  contrib : Bool
  fmt : EReal → Str
  parse : Str → EReal
  disk : List Str
  disk' : List Str

/-- The value of a number after writing and reading. -/
def Output.rounded (o : Output) (v : ℝ) : EReal := o.parse (o.fmt (v : EReal))

/-- Names that can be told apart, without tabs and line breaks, and a format of numbers without them. -/
structure Output.Good (o : Output) (F M : ℕ) (nG : Fin M → ℕ) : Prop where
  good : GoodNames o.names
  plain : PlainText o.names
  fits : Names o.names F M nG
  format : ∀ v, '\t' ∉ o.fmt v ∧ '\n' ∉ o.fmt v

/-- What is loaded from the files of a run with log `l`, with `burnIn`; `snap i x` is the `i`-th snapshot, of state `x`. -/
noncomputable def Output.results {X : Type} (o : Output) (K N : ℕ) (snap : ℕ → X → Snapshot) (burnIn : ℝ) (l : List X) : Option Loaded :=
  saveAndLoad o.names K N o.contrib o.fmt o.parse o.disk o.disk' burnIn (l.zipIdx.map fun x => snap x.2 x.1)

end SBayes.Log
