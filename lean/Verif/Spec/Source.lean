import Verif.Model.Source
import Verif.Spec.Clusters
/- Specifications for source sampling. -/
namespace SBayes.Source
open SBayes.Lik SBayes.Clusters
variable {K N F S M : ℕ} {nG : Fin M → ℕ}

/-- Every observation is attributed to exactly one component, and the component applies to the
object: a confounder of which the object is in some group, or the cluster effect if the object is in
some cluster. -/
def WellAttributed (d : ModelData N F S M nG) (s : St K N F S M nG) : Prop :=
  ∀ n f, ∃ c, (∀ c', s.source n f c' = true ↔ c' = c) ∧
    (c = 0 → ∃ k, s.clusters k n = true) ∧
    (∀ j : Fin M, c = j.succ → ∃ g, d.confGroups j g n = true)

/-- Uniform draws as `np.random.random` gives them. -/
def Unit01 (z : Fin N → Fin F → ℝ) : Prop := ∀ n f, 0 ≤ z n f ∧ z n f < 1

/-- One accepted step of the sampler in source mode, as far as the sources are concerned (a rejected
step leaves the sample unchanged). Clusters stay disjoint; weights and effects may become anything
positive. -/
inductive Step (d : ModelData N F S M nG) (fromPrior : Bool) :
    St K N F S M nG → St K N F S M nG → Prop
  | source (s : St K N F S M nG) (subset : Fin N → Bool) (z : Fin N → Fin F → ℝ) (hz : Unit01 z) :
      Step d fromPrior s (if fromPrior then resampleSourcePrior d subset z s else resampleSource d subset z s)
  | cluster (s : St K N F S M nG) (cl : Clus K N) (hcl : DisjointGroups cl) (z : Fin N → Fin F → ℝ)
      (hz : Unit01 z) : Step d fromPrior s (moveCluster d fromPrior cl z s)
  | params (s : St K N F S M nG) (w : Fin F → Fin (M + 1) → ℝ) (ce : Fin K → Fin F → Fin S → ℝ)
      (fe : (c : Fin M) → Fin (nG c) → Fin F → Fin S → ℝ) (h : PositiveModel d w ce fe) :
      Step d fromPrior s { s with weights := w, clusterEffect := ce, confEffect := fe }

/-- States of a run: `generate_initial_sample` (sources allocated with arbitrary content, then
redrawn for all objects), followed by any number of steps. -/
inductive Reachable (d : ModelData N F S M nG) (fromPrior : Bool) : St K N F S M nG → Prop
  | init (s : St K N F S M nG) (hcl : DisjointGroups s.clusters)
      (hm : PositiveModel d s.weights s.clusterEffect s.confEffect) (z : Fin N → Fin F → ℝ) (hz : Unit01 z) :
      Reachable d fromPrior
        (if fromPrior then resampleSourcePrior d (fun _ => true) z s else resampleSource d (fun _ => true) z s)
  | step (s t : St K N F S M nG) : Reachable d fromPrior s → Step d fromPrior s t → Reachable d fromPrior t

end SBayes.Source
