import Verif.Props.Logged
import Verif.Spec.Contrib
import Verif.Model.Contrib
/-
C77: the logged contributions of single clusters.
-/
namespace SBayes.Sampler
open SBayes.Lik SBayes.Cache SBayes.Posterior
open scoped BigOperators
set_option linter.unusedSectionVars false

variable {𝕜 : Type} [Field 𝕜] [DecidableEq 𝕜] {K N F S M : ℕ} {nG : Fin M → ℕ}
variable {d : ModelData N F S M nG} {P : PriorFns 𝕜 K N F S M nG}

/-- Versions do not matter without caching: the result of an evaluation is that for a new sample. -/
theorem evalLh_false_new (s : Sample 𝕜 K N F S M nG) (garbage : Fin N → Fin F → Fin (M + 1) → 𝕜)
    (hs : s.cache = freshCache d s.clusters.value garbage) (clO : List (Fin K)) (cfO : (c : Fin M) → List (Fin (nG c))) :
    (evalLh d s false clO cfO).2 = (evalLh d (Sample.new d s.params garbage) false clO cfO).2 := by
  obtain ⟨cl, w, ce, cf, us, src, cache⟩ := s
  dsimp only at hs
  subst hs
  cases us <;> rfl

theorem evalConf_false (s : Sample 𝕜 K N F S M nG) (c : Fin M) {order : List (Fin (nG c))} (ho : VisitsAll order) :
    (evalConf P s c false order).2 = ∑ g, P.confP c g ((s.confEffect c).value g) := by
  unfold evalConf
  simp only [Bool.false_eq_true, false_and, if_false, Bool.not_false, Bool.true_or, List.filter_true]
  refine Finset.sum_congr rfl fun g _ => ?_
  rw [foldl_conf, if_pos (ho g)]

theorem evalConfs_false {order : (c : Fin M) → List (Fin (nG c))} (ho : ∀ c, VisitsAll (order c)) (cs : List (Fin M))
    (s : Sample 𝕜 K N F S M nG) :
    (evalConfs P false order cs s).2 = (cs.map fun c => ∑ g, P.confP c g ((s.confEffect c).value g)).sum ∧
      (evalConfs P false order cs s).1.useSource = s.useSource := by
  induction cs generalizing s with
  | nil => exact ⟨rfl, rfl⟩
  | cons c cs ih =>
    obtain ⟨h1, h2⟩ := ih (evalConf P s c false (order c)).1
    obtain ⟨-, -, -, -, e5, -⟩ := evalConf_params (P := P) (s := s) c false (order c)
    have hu : (evalConf P s c false (order c)).1.useSource = s.useSource := by
      unfold evalConf; dsimp only; split <;> rfl
    refine ⟨?_, h2.trans hu⟩
    show _ + _ = _
    rw [evalConf_false s c (ho c), h1, e5]; rfl

/-- Neither do versions and caches matter for the prior without caching, if there is no source. -/
theorem evalPrior_false (s : Sample 𝕜 K N F S M nG) (hu : s.useSource = false) {order : (c : Fin M) → List (Fin (nG c))}
    (ho : ∀ c, VisitsAll (order c)) : (evalPrior P false order s).2 = idealPrior d P s.params := by
  have h1 : (evalGeo P (evalSize P s false).1 false).1.confEffect = s.confEffect ∧
      (evalGeo P (evalSize P s false).1 false).1.useSource = s.useSource := by
    simp [evalGeo, evalSize]
  obtain ⟨e1, e2⟩ := evalConfs_false (P := P) ho (List.finRange M) (evalGeo P (evalSize P s false).1 false).1
  unfold evalPrior
  dsimp only
  rw [e2, h1.2, hu, e1, h1.1]
  have hp : s.params.source = none := by simp [Sample.params, hu]
  unfold idealPrior
  rw [hp, Fin.sum_univ_def]
  simp [evalSize, evalGeo, Sample.params]

theorem singleSample_params (s : Sample 𝕜 K N F S M nG) (perm : Fin K → Fin K) (i : Fin K) (garbage) :
    (singleSample d s perm i garbage).params = onlyCluster s.params (perm i) := rfl

/-- **C77.** For every sample (whatever its versions and caches) and every matching of clusters, the values in the columns
`lh_a{i}` and `prior_a{i}` are the log-likelihood and log-prior, recomputed from scratch, of the model with the `i`-th
matched cluster only and with the sources summed out; `post_a{i}` is their sum. -/
theorem C77_contributions_of_single_clusters (d : ModelData N F S M nG) (P1 : PriorFns 𝕜 1 N F S M nG)
    (hc : ∀ c, DisjointGroups (d.confGroups c)) (s : Sample 𝕜 K N F S M nG) (perm : Fin K → Fin K) (o : Orders 1 M nG)
    (h1 : VisitsAll o.cl) (h2 : ∀ c, VisitsAll (o.cf c)) (h3 : ∀ c, VisitsAll (o.pr c))
    (garbage : Fin N → Fin F → Fin (M + 1) → 𝕜) (i : Fin K) :
    contribution d P1 s perm o garbage i =
      (idealLh d P1 false (onlyCluster s.params (perm i)), idealPrior d P1 (onlyCluster s.params (perm i)),
        idealLh d P1 false (onlyCluster s.params (perm i)) + idealPrior d P1 (onlyCluster s.params (perm i))) := by
  have hd : DisjointGroups (singleSample d s perm i garbage).params.clusters := by
    intro n g g' _ _; exact Subsingleton.elim _ _
  have hnew : (Sample.new d (singleSample d s perm i garbage).params garbage).params =
      (singleSample d s perm i garbage).params := rfl
  have hl : ((evalLh d (singleSample d s perm i garbage) false o.cl o.cf).2.map P1.logf).sum =
      idealLh d P1 false (onlyCluster s.params (perm i)) := by
    rw [evalLh_false_new _ garbage rfl]
    have := (evalLh_full hc (good_new (d := d) (P := P1) (singleSample d s perm i garbage).params garbage) (by rw [hnew]; exact hd)
      false h1 h2).2.2
    rw [this, hnew, singleSample_params]
  have hp : (evalLh d (singleSample d s perm i garbage) false o.cl o.cf).1.params = onlyCluster s.params (perm i) := by
    rw [evalLh_params, singleSample_params]
  have hu : (evalLh d (singleSample d s perm i garbage) false o.cl o.cf).1.useSource = false := by
    by_contra hne
    have hsrc : (evalLh d (singleSample d s perm i garbage) false o.cl o.cf).1.params.source = none := by rw [hp]; rfl
    simp [Sample.params, hne] at hsrc
  unfold contribution
  dsimp only
  rw [hl, evalPrior_false (d := d) _ hu h3, hp]

/-- The contributions do not depend on the order of clusters in the sample: with the matching, permuting the clusters of
the sample by `σ` and the matching by `σ⁻¹` gives the same columns. -/
theorem C77_contributions_follow_the_matching (d : ModelData N F S M nG) (P1 : PriorFns 𝕜 1 N F S M nG)
    (hc : ∀ c, DisjointGroups (d.confGroups c)) (s s' : Sample 𝕜 K N F S M nG) (σ : Equiv.Perm (Fin K)) (perm : Fin K → Fin K)
    (hcl : ∀ k, s'.params.clusters k = s.params.clusters (σ k)) (hce : ∀ k, s'.params.clusterEffect k = s.params.clusterEffect (σ k))
    (hw : s'.params.weights = s.params.weights) (hcf : s'.params.confEffect = s.params.confEffect) (o : Orders 1 M nG)
    (h1 : VisitsAll o.cl) (h2 : ∀ c, VisitsAll (o.cf c)) (h3 : ∀ c, VisitsAll (o.pr c))
    (garbage : Fin N → Fin F → Fin (M + 1) → 𝕜) (i : Fin K) :
    contribution d P1 s' (fun j => σ.symm (perm j)) o garbage i = contribution d P1 s perm o garbage i := by
  rw [C77_contributions_of_single_clusters d P1 hc s' _ o h1 h2 h3, C77_contributions_of_single_clusters d P1 hc s _ o h1 h2 h3]
  have : onlyCluster s'.params (σ.symm (perm i)) = onlyCluster s.params (perm i) := by
    unfold onlyCluster
    rw [hcl, hce, hw, hcf, Equiv.apply_symm_apply]
  rw [this]

/-- Two clusters of one object each and a confounder with one group. -/
def twoClusters : Params ℚ 2 2 1 1 1 (fun _ => 1) where
  clusters := fun k n => k == n
  weights := fun _ _ => 1
  clusterEffect := fun k _ _ => if k = 0 then 1 / 2 else 1 / 4
  confEffect := fun _ _ _ _ => 1 / 3
  source := some (fun _ _ c => c == 0)

/-- Case of C77: two clusters, swapped by the matching. The first columns belong to the second cluster: object 0 is left to
the confounder, object 1 is half of each. -/
example : let d : ModelData 2 1 1 1 (fun _ => 1) := ⟨fun _ _ _ => true, fun _ _ _ => true⟩
    let P1 : PriorFns ℚ 1 2 1 1 1 (fun _ => 1) := ⟨fun _ => 1, fun _ => 2, fun _ _ _ => 3, fun x => x⟩
    contribution d P1 (Sample.new d twoClusters (fun _ _ _ => 7)) (fun k => 1 - k) ⟨[0], fun _ => [0], fun _ => [0]⟩
      (fun _ _ _ => 7) 0 = (1 / 3 + (1 / 2 * (1 / 4) + 1 / 2 * (1 / 3)), 6, 1 / 3 + (1 / 2 * (1 / 4) + 1 / 2 * (1 / 3)) + 6) := by
  intro d P1
  rw [C77_contributions_of_single_clusters d P1 (fun c n g g' _ _ => Subsingleton.elim _ _) _ _ _ (fun g => by simp [Subsingleton.elim g 0])
    (fun c g => by simp [Subsingleton.elim g 0]) (fun c g => by simp [Subsingleton.elim g 0])]
  have h1 : idealLh d P1 false (onlyCluster (Sample.new d twoClusters (fun _ _ _ => 7)).params ((fun k => 1 - k) 0)) =
      1 / 3 + (1 / 2 * (1 / 4) + 1 / 2 * (1 / 3)) := by
    rw [idealLh, if_neg (by simp), show (List.finRange 1) = [0] from rfl]
    simp [freshObservationLhs, observationLhs, updateComponents, computeComponentLikelihood, overwriteNA, isNA, writeGroup,
      stateProb, normalizeWeights, hasComponents, anyGroup, b2n, List.finRange_succ, onlyCluster, Sample.new, Sample.params,
      GP.new, twoClusters, d, P1]
    have e1 : (Finset.univ.filter fun x : Fin 2 => (Fin.cons false (fun _ => true) : Fin 2 → Bool) x = true).card = 1 := by decide
    have e2 : (Finset.univ.filter fun x : Fin 2 => (Fin.cons true (fun _ => true) : Fin 2 → Bool) x = true).card = 2 := by decide
    rw [e1, e2]
    norm_num
  rw [h1]
  have h2 : idealPrior d P1 (onlyCluster (Sample.new d twoClusters (fun _ _ _ => 7)).params ((fun k => 1 - k) 0)) = 6 := by
    simp [idealPrior, onlyCluster, P1]; norm_num
  rw [h2]

end SBayes.Sampler
