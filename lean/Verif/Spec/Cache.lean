import Verif.Model.Cache
import Verif.Spec.Likelihood
/- Specifications used in the statements about cached calculations: which histories are considered,
and what the terms are without any cache. -/
namespace SBayes.Cache
open SBayes.Lik
open scoped BigOperators
variable {𝕜 : Type} [Field 𝕜] {K N F S M : ℕ} {nG : Fin M → ℕ}

/-- The operation changes grouped parameters only group by group; sets of groups are traversed
completely; and clusters are pairwise disjoint when the likelihood is evaluated. -/
def OpOk (s : Sample 𝕜 K N F S M nG) : SOp 𝕜 K N F S M nG → Prop
  | .clustersEditAll _ => False
  | .effectEditAll _ => False
  | .confEditAll _ _ => False
  | .evalLh _ clO cfO => DisjointGroups s.clusters.value ∧ VisitsAll clO ∧ ∀ c, VisitsAll (cfO c)
  | .updateComp _ clO cfO => DisjointGroups s.clusters.value ∧ VisitsAll clO ∧ ∀ c, VisitsAll (cfO c)
  | .evalConf _ _ order => VisitsAll order
  | _ => True

/-- `OpOk` along a history of a program with several samples. -/
def HistoryOk (d : ModelData N F S M nG) (P : PriorFns 𝕜 K N F S M nG) :
    List (Sample 𝕜 K N F S M nG) → List (WOp 𝕜 K N F S M nG) → Prop
  | _, [] => True
  | w, .on i op :: ops =>
    (∀ s, w[i]? = some s → OpOk s op) ∧ HistoryOk d P (stepW d P w (.on i op)) ops
  | w, op :: ops => HistoryOk d P (stepW d P w op) ops

/-- Same as `OpOk`, but allowing whole-array changes of grouped parameters (C05). -/
def OpOkAll (s : Sample 𝕜 K N F S M nG) : SOp 𝕜 K N F S M nG → Prop
  | .evalLh _ clO cfO => DisjointGroups s.clusters.value ∧ VisitsAll clO ∧ ∀ c, VisitsAll (cfO c)
  | .updateComp _ clO cfO => DisjointGroups s.clusters.value ∧ VisitsAll clO ∧ ∀ c, VisitsAll (cfO c)
  | .evalConf _ _ order => VisitsAll order
  | _ => True

/-- `OpOkAll` along a history. -/
def HistoryOkAll (d : ModelData N F S M nG) (P : PriorFns 𝕜 K N F S M nG) :
    List (Sample 𝕜 K N F S M nG) → List (WOp 𝕜 K N F S M nG) → Prop
  | _, [] => True
  | w, .on i op :: ops =>
    (∀ s, w[i]? = some s → OpOkAll s op) ∧ HistoryOkAll d P (stepW d P w (.on i op)) ops
  | w, op :: ops => HistoryOkAll d P (stepW d P w op) ops

end SBayes.Cache
