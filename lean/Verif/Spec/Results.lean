import Verif.Spec.Log
import Verif.Model.Results
/-
What a user expects to find after loading the files of a run: for every kept sample `y` (the sample and the
relabelling `σ` of its clusters), position by position, the logged values as read back (`rd v` is the value `v` after
formatting and parsing).
-/
namespace SBayes.Log

/-- The values of the states of feature `f` in all samples, given the value `v y f s` in sample `y`. -/
def samplesByState (S : Schema) {α : Type*} (ys : List α) (v : α → ℕ → ℕ → EReal) (f : ℕ) : Str × List (List EReal) :=
  (S.feature f, ys.map (fun y => (List.range (S.nStates f)).map (fun s => v y f s)))

/-- The results of a run in which the samples `ys` were kept. -/
noncomputable def expectedResults (S : Schema) (K N : ℕ) (contrib : Bool) (rd : EReal → EReal)
    (ys : List (Snapshot × (ℕ → ℕ))) : Loaded :=
  { clusters := (List.range K).map (fun i => ys.map (fun y => (List.range N).map (fun j => y.1.clusters (y.2 i) j)))
    groups := S.confs
    clusterNames := (List.range K).map (fun i => 'a' :: Nat.toDigits 10 (i + 1))
    features := S.features.map Prod.fst
    states := S.features.map Prod.snd
    sampleId := ys.map (fun y => rd ((y.1.step : ℝ) : EReal))
    weights := (List.range S.features.length).map (fun f =>
      (S.feature f, ys.map (fun y => (List.range (S.confs.length + 1)).map (fun c => rd ((y.1.weights f c : ℝ) : EReal)))))
    areal := (List.range K).map (fun i => ('a' :: Nat.toDigits 10 (i + 1),
      (List.range S.features.length).map
        (samplesByState S ys (fun y f s => rd ((y.1.clusterEffect (y.2 i) f s : ℝ) : EReal)))))
    confounding := (List.range S.confs.length).map (fun c => (S.confounder c,
      (List.range (S.nGroups c)).map (fun g => (S.group c g,
        (List.range S.features.length).map
          (samplesByState S ys (fun y f s => rd ((y.1.confEffect c g f s : ℝ) : EReal)))))))
    posterior := ys.map (fun y => rd (y.1.lh + y.1.prior))
    likelihood := ys.map (fun y => rd y.1.lh)
    prior := ys.map (fun y => rd y.1.prior)
    posteriorSingle := if contrib then (List.range K).map (fun i => ("post_a".toList ++ Nat.toDigits 10 i,
      ys.map (fun y => rd (y.1.lh1 (y.1.clusters (y.2 i)) (y.1.clusterEffect (y.2 i)) +
        y.1.prior1 (y.1.clusters (y.2 i)) (y.1.clusterEffect (y.2 i)))))) else []
    likelihoodSingle := if contrib then (List.range K).map (fun i => ("lh_a".toList ++ Nat.toDigits 10 i,
      ys.map (fun y => rd (y.1.lh1 (y.1.clusters (y.2 i)) (y.1.clusterEffect (y.2 i)))))) else []
    priorSingle := if contrib then (List.range K).map (fun i => ("prior_a".toList ++ Nat.toDigits 10 i,
      ys.map (fun y => rd (y.1.prior1 (y.1.clusters (y.2 i)) (y.1.clusterEffect (y.2 i)))))) else [] }

end SBayes.Log
