import Verif.Model.Chain
import Verif.Spec.Cache
/-
The ideal chain: the same moves on bare parameter values, without samples, versions, caches or self-checks.
-/
namespace SBayes.Sampler
open SBayes.Lik SBayes.Cache SBayes.Posterior
open scoped BigOperators

variable {𝕜 : Type} [Field 𝕜] {K N F S M : ℕ} {nG : Fin M → ℕ}

/-- What an operation does to the parameter values; evaluations do nothing. -/
def paramOp (p : Params 𝕜 K N F S M nG) : SOp 𝕜 K N F S M nG → Params 𝕜 K N F S M nG
  | .clusterEdit k f => { p with clusters := Function.update p.clusters k (f (p.clusters k)) }
  | .effectEdit k f => { p with clusterEffect := Function.update p.clusterEffect k (f (p.clusterEffect k)) }
  | .confEdit c g f => { p with
      confEffect := Function.update p.confEffect c (Function.update (p.confEffect c) g (f (p.confEffect c g))) }
  | .weightsEdit f => { p with weights := f p.weights }
  | .sourceEdit f => { p with source := p.source.map f }
  | .clustersEditAll f => { p with clusters := f p.clusters }
  | .effectEditAll f => { p with clusterEffect := f p.clusterEffect }
  | .confEditAll c f => { p with confEffect := Function.update p.confEffect c (f (p.confEffect c)) }
  | _ => p

/-- The log-likelihood of the parameters, everything recomputed. -/
def idealLh (d : ModelData N F S M nG) (P : PriorFns 𝕜 K N F S M nG) (fromPrior : Bool) (p : Params 𝕜 K N F S M nG) : 𝕜 :=
  if fromPrior then 0 else ((freshObservationLhs d p (List.finRange K) (fun c => List.finRange (nG c))
    (fun _ _ _ => 0)).map P.logf).sum

/-- The log-prior of the parameters, everything recomputed. -/
def idealPrior (d : ModelData N F S M nG) (P : PriorFns 𝕜 K N F S M nG) (p : Params 𝕜 K N F S M nG) : 𝕜 :=
  P.sizeP p.clusters + P.geoP p.clusters + (∑ c, ∑ g, P.confP c g (p.confEffect c g)) +
    match p.source with
    | none => 0
    | some src => ((sourceWeights (normalizeWeights p.weights (hasComponents d p.clusters)) src).map P.logf).sum

/-- One step of the ideal chain. -/
def idealStep (d : ModelData N F S M nG) (P : PriorFns 𝕜 K N F S M nG) (fromPrior : Bool) (p : Params 𝕜 K N F S M nG)
    (m : Move 𝕜 K N F S M nG) : Params 𝕜 K N F S M nG :=
  let p' := m.ops.foldl paramOp p
  if m.accept (idealLh d P fromPrior p') (idealLh d P fromPrior p) (idealPrior d P p') (idealPrior d P p) then p' else p

/-- The ideal run. -/
def idealRun (d : ModelData N F S M nG) (P : PriorFns 𝕜 K N F S M nG) (fromPrior : Bool) (p : Params 𝕜 K N F S M nG)
    (ms : List (Move 𝕜 K N F S M nG)) : Params 𝕜 K N F S M nG := ms.foldl (idealStep d P fromPrior) p

/-- Operations that only evaluate, with caching. -/
def ReadOnly : SOp 𝕜 K N F S M nG → Prop
  | .evalLh caching _ _ => caching = true
  | .updateComp caching _ _ => caching = true
  | .updateWeights _ => True
  | .readHas => True
  | .evalSize _ => True
  | .evalConf _ _ _ => True
  | .evalSrc _ => True
  | _ => False

/-- Operations of operators: group-wise changes of parameters, changes of weights and sources, and evaluations with
caching. -/
def OperatorOp : SOp 𝕜 K N F S M nG → Prop
  | .clusterEdit _ _ => True
  | .effectEdit _ _ => True
  | .confEdit _ _ _ => True
  | .weightsEdit _ => True
  | .sourceEdit _ => True
  | op => ReadOnly op

/-- Sets of groups are traversed completely. -/
def Traverses : SOp 𝕜 K N F S M nG → Prop
  | .evalLh _ clO cfO => VisitsAll clO ∧ ∀ c, VisitsAll (cfO c)
  | .updateComp _ clO cfO => VisitsAll clO ∧ ∀ c, VisitsAll (cfO c)
  | .evalConf _ _ order => VisitsAll order
  | _ => True

/-- Clusters are disjoint after each of the operations. -/
def DisjointAlong : Params 𝕜 K N F S M nG → List (SOp 𝕜 K N F S M nG) → Prop
  | _, [] => True
  | p, op :: ops => DisjointGroups (paramOp p op).clusters ∧ DisjointAlong (paramOp p op) ops

/-- What is asked of a move at parameters `p`: only operator operations, complete traversals, disjoint clusters all along,
the current sample is only read if the operator works on a copy; and operators that work in place either have their
proposal accepted (Gibbs) or do not change anything (direct rejection). -/
structure MoveOk (p : Params 𝕜 K N F S M nG) (m : Move 𝕜 K N F S M nG) : Prop where
  pre : ∀ op ∈ m.pre, ReadOnly op ∧ Traverses op
  ops : ∀ op ∈ m.ops, OperatorOp op ∧ Traverses op
  late : ∀ op ∈ m.late, ReadOnly op ∧ Traverses op
  disjoint : DisjointAlong p m.ops
  cl : VisitsAll m.orders.cl
  cf : ∀ c, VisitsAll (m.orders.cf c)
  pr : ∀ c, VisitsAll (m.orders.pr c)
  inPlace : m.onCopy = false → (∀ a b c e, m.accept a b c e = true) ∨ ∀ op ∈ m.ops, ReadOnly op

/-- Moves along the ideal run. -/
def MovesOk (d : ModelData N F S M nG) (P : PriorFns 𝕜 K N F S M nG) (fromPrior : Bool) :
    Params 𝕜 K N F S M nG → List (Move 𝕜 K N F S M nG) → Prop
  | _, [] => True
  | p, m :: ms => MoveOk p m ∧ MovesOk d P fromPrior (idealStep d P fromPrior p m) ms

end SBayes.Sampler
