import Verif.Lemmas.Likelihood
import Mathlib.Tactic.FinCases
import Mathlib.Tactic.NormNum
import Mathlib.Algebra.Order.Field.Rat
/- Properties C08-C12 about the likelihood. -/
namespace SBayes.Lik
open scoped BigOperators
variable {𝕜 : Type} [Field 𝕜] {N F S G C K M : ℕ} {nG : Fin M → ℕ}

/-- **C08.** Normalised weights are a probability distribution over the components available to the
object, with the ratios of the raw weights, whenever an available component has positive weight
(otherwise numpy divides 0 by 0). -/
theorem C08_normalized_weights_are_distribution [LinearOrder 𝕜] [IsStrictOrderedRing 𝕜]
    (w : Fin F → Fin C → 𝕜) (has : Fin N → Fin C → Bool) (hw : ∀ f c, 0 ≤ w f c)
    (n : Fin N) (f : Fin F) (hpos : ∃ c, has n c = true ∧ 0 < w f c) :
    (∀ c, 0 ≤ normalizeWeights w has n f c) ∧
    ∑ c, normalizeWeights w has n f c = 1 ∧
    (∀ c, has n c = false → normalizeWeights w has n f c = 0) ∧
    (∀ c c', has n c = true → has n c' = true →
      normalizeWeights w has n f c * w f c' = normalizeWeights w has n f c' * w f c) := by
  have hnn : ∀ c, 0 ≤ w f c * b2n 𝕜 (has n c) := by
    intro c; unfold b2n; split
    · simpa using hw f c
    · simp
  have hsum : 0 < ∑ c, w f c * b2n 𝕜 (has n c) := by
    obtain ⟨c, hc, hwc⟩ := hpos
    refine Finset.sum_pos' (fun c _ => hnn c) ⟨c, Finset.mem_univ c, ?_⟩
    simpa [b2n, hc] using hwc
  refine ⟨fun c => div_nonneg (hnn c) hsum.le, ?_, ?_, ?_⟩
  · unfold normalizeWeights
    rw [← Finset.sum_div, div_self hsum.ne']
  · intro c hc; simp [normalizeWeights, b2n, hc]
  · intro c c' hc hc'
    simp only [normalizeWeights, b2n, hc, hc']; ring

/-- Non-vacuity of C08: an object outside of all clusters, one confounder weight zero. -/
example : let w : Fin 1 → Fin 3 → ℚ := fun _ => ![1/2, 0, 1/2]
    let has : Fin 1 → Fin 3 → Bool := fun _ => ![false, true, true]
    (∀ f c, 0 ≤ w f c) ∧ (∃ c, has 0 c = true ∧ 0 < w 0 c) ∧ normalizeWeights w has 0 0 2 = 1 := by
  refine ⟨?_, ⟨2, by simp, by show (0:ℚ) < 1/2; norm_num⟩, ?_⟩
  · intro f c; fin_cases c <;> norm_num
  · simp [normalizeWeights, b2n, Fin.sum_univ_three]

/-- **C09.** For pairwise disjoint groups, and whatever the buffer contained before and in whatever
order the set of groups is traversed, the component likelihood is the one specified. -/
theorem C09_component_likelihood_is_specified (x : Features N F S)
    (probs : Fin G → Fin F → Fin S → 𝕜) (groups : Fin G → Fin N → Bool)
    (hd : DisjointGroups groups) (order : List (Fin G)) (ho : VisitsAll order)
    (buf : Fin N → Fin F → 𝕜) :
    IsComponentLh x probs groups
      (overwriteNA x (computeComponentLikelihood x probs groups order buf)) := by
  refine ⟨?_, ?_, ?_⟩
  · intro n f h; simp [overwriteNA, isNA_iff.mpr h]
  · intro n f s i h hi
    simp only [overwriteNA, observed_not_na h]
    rw [compute_member hd _ hi (ho i), stateProb_observed h]; rfl
  · intro n f s h hi
    simp only [overwriteNA, observed_not_na h]
    rw [compute_outside _ hi]; rfl

/-- **C09**, incremental form: if the buffer was right for the old groups and effects, and `order`
visits every group whose members or effect changed, then the result is right for the new ones. -/
theorem C09_incremental_update_is_specified (x : Features N F S)
    (probs probs' : Fin G → Fin F → Fin S → 𝕜) (groups groups' : Fin G → Fin N → Bool)
    (hd : DisjointGroups groups') (order : List (Fin G))
    (hch : ∀ i, i ∉ order → groups' i = groups i ∧ probs' i = probs i)
    (buf : Fin N → Fin F → 𝕜) (hbuf : IsComponentLh x probs groups buf) :
    IsComponentLh x probs' groups'
      (overwriteNA x (computeComponentLikelihood x probs' groups' order buf)) := by
  refine ⟨?_, ?_, ?_⟩
  · intro n f h; simp [overwriteNA, isNA_iff.mpr h]
  · intro n f s i h hi
    simp only [overwriteNA, observed_not_na h]
    by_cases ho : i ∈ order
    · rw [compute_member hd _ hi ho, stateProb_observed h]; rfl
    · rw [compute_unchanged hd _ hi ho]
      obtain ⟨h1, h2⟩ := hch i ho
      rw [h2]; exact hbuf.member n f s i h (h1 ▸ hi)
  · intro n f s h hi
    simp only [overwriteNA, observed_not_na h]
    rw [compute_outside _ hi]; rfl

/-- Non-vacuity of C09: two disjoint groups, one object outside, one missing value. -/
example :
    let x : Features 3 2 2 := fun n f s => (n.val + f.val + s.val) % 2 == 0 && !(n == 2 && f == 1)
    let groups : Fin 2 → Fin 3 → Bool := fun g n => g.val == n.val
    DisjointGroups groups ∧ VisitsAll [(1 : Fin 2), 0] ∧ Observed x 0 0 0 ∧ Missing x 2 1 ∧
    (∀ i, groups i 2 = false) := by
  unfold DisjointGroups VisitsAll Observed Missing; decide

/-- The one-hot source array of an assignment of observations to components. -/
def sourceOf (a : Fin N → Fin F → Fin C) : Fin N → Fin F → Fin C → Bool :=
  fun n f c => decide (a n f = c)

/-- **C10.** Summing (prior of the sources given the weights) × (likelihood given the sources) over
all assignments of observations to components gives the likelihood without sources. -/
theorem C10_sources_marginalise_to_mixture (lh w : Fin N → Fin F → Fin C → 𝕜) :
    ∑ a : Fin N → Fin F → Fin C,
        likelihood (sourceWeights w (sourceOf a)) * likelihood (observationLhs lh w (some (sourceOf a)))
      = likelihood (observationLhs lh w none) := by
  rw [likelihood_none]
  have h1 : ∀ (h : Fin N → Fin F → Fin C → 𝕜) (a : Fin N → Fin F → Fin C),
      (∏ n, ∏ f, ∏ c, if sourceOf a n f c then h n f c else 1) = ∏ n, ∏ f, h n f (a n f) := by
    intro h a
    refine Finset.prod_congr rfl fun n _ => Finset.prod_congr rfl fun f _ => ?_
    rw [Finset.prod_eq_single (a n f)]
    · simp [sourceOf]
    · intro c _ hc; simp [sourceOf, Ne.symm hc]
    · simp
  have h2 : ∀ a : Fin N → Fin F → Fin C,
      likelihood (sourceWeights w (sourceOf a)) * likelihood (observationLhs lh w (some (sourceOf a)))
        = ∏ n, ∏ f, (w n f (a n f) * lh n f (a n f)) := by
    intro a
    unfold likelihood sourceWeights observationLhs
    rw [prod_filter_ravel, prod_filter_ravel, h1, h1, ← Finset.prod_mul_distrib]
    exact Finset.prod_congr rfl fun n _ => Finset.prod_mul_distrib.symm
  rw [Finset.sum_congr rfl fun a _ => h2 a]
  -- exchange sum and product, twice
  have h3 : ∀ n : Fin N, ∏ f, ∑ c, w n f c * lh n f c =
      ∑ b : Fin F → Fin C, ∏ f, (w n f (b f) * lh n f (b f)) := by
    intro n
    rw [Finset.prod_univ_sum]; simp [Fintype.piFinset_univ]
  rw [Finset.prod_congr rfl fun n _ => h3 n, Finset.prod_univ_sum]
  simp [Fintype.piFinset_univ]

/-- Each assignment is one-hot and each one-hot source array is an assignment: the sum in C10 ranges
over exactly the one-hot source arrays. -/
theorem C10_assignments_are_the_onehot_sources (src : Fin N → Fin F → Fin C → Bool) :
    (∀ n f, ∃! c, src n f c = true) ↔ ∃! a : Fin N → Fin F → Fin C, sourceOf a = src := by
  constructor
  · intro h
    choose a ha hu using h
    refine ⟨a, ?_, ?_⟩
    · funext n f c
      by_cases hc : a n f = c
      · subst hc; simp [sourceOf, ha]
      · have : src n f c = false := by
          rw [Bool.eq_false_iff]; intro hs; exact hc (hu n f c hs).symm
        simp [sourceOf, hc, this]
    · intro b hb
      funext n f
      refine hu n f _ ?_
      rw [← hb]; simp [sourceOf]
  · rintro ⟨a, rfl, -⟩ n f
    refine ⟨a n f, by simp [sourceOf], ?_⟩
    intro c hc; simpa [sourceOf, eq_comm] using hc

open Classical in
/-- **C11** without source sampling: a missing observation contributes the factor 1, so the
likelihood is the product over the observed entries only. -/
theorem C11_missing_observations_are_neutral [LinearOrder 𝕜] [IsStrictOrderedRing 𝕜]
    (d : ModelData N F S M nG) (p : Params 𝕜 K N F S M nG) (clO : List (Fin K))
    (cfO : (c : Fin M) → List (Fin (nG c))) (buf : Fin N → Fin F → Fin (M + 1) → 𝕜)
    (hsrc : p.source = none) (hw : ∀ f c, 0 ≤ p.weights f c)
    (hpos : ∀ n f, ∃ c, hasComponents d p.clusters n c = true ∧ 0 < p.weights f c) :
    likelihood (freshObservationLhs d p clO cfO buf) =
      ∏ n, ∏ f, if Missing d.features n f then 1 else
        ∑ c, normalizeWeights p.weights (hasComponents d p.clusters) n f c *
          updateComponents d p clO cfO buf n f c := by
  unfold freshObservationLhs
  rw [hsrc, likelihood_none]
  refine Finset.prod_congr rfl fun n _ => Finset.prod_congr rfl fun f _ => ?_
  split
  · rename_i hm
    rw [← (C08_normalized_weights_are_distribution p.weights (hasComponents d p.clusters) hw n f
      (hpos n f)).2.1]
    refine Finset.sum_congr rfl fun c _ => ?_
    have : updateComponents d p clO cfO buf n f c = 1 := by
      unfold updateComponents
      refine Fin.cases ?_ ?_ c <;> simp [overwriteNA, isNA_iff.mpr hm]
    rw [this, mul_one]
  · rfl

open Classical in
/-- **C11** with source sampling: a missing observation contributes the factor 1 whatever its source. -/
theorem C11_missing_observations_are_neutral_source
    (d : ModelData N F S M nG) (p : Params 𝕜 K N F S M nG) (clO : List (Fin K))
    (cfO : (c : Fin M) → List (Fin (nG c))) (buf : Fin N → Fin F → Fin (M + 1) → 𝕜)
    (src : Fin N → Fin F → Fin (M + 1) → Bool) (hsrc : p.source = some src) :
    likelihood (freshObservationLhs d p clO cfO buf) =
      ∏ n, ∏ f, if Missing d.features n f then 1 else
        ∏ c, if src n f c then updateComponents d p clO cfO buf n f c else 1 := by
  unfold freshObservationLhs
  rw [hsrc]
  unfold likelihood observationLhs
  rw [prod_filter_ravel]
  refine Finset.prod_congr rfl fun n _ => Finset.prod_congr rfl fun f _ => ?_
  split
  · rename_i hm
    refine Finset.prod_eq_one fun c _ => ?_
    have : updateComponents d p clO cfO buf n f c = 1 := by
      unfold updateComponents
      refine Fin.cases ?_ ?_ c <;> simp [overwriteNA, isNA_iff.mpr hm]
    simp [this]
  · rfl

/-- **C11**, the effects at entries where a group has no observation are irrelevant: two parameter
sets whose effects agree for each (group, feature) with at least one observed member have the same
likelihood. -/
theorem C11_unobserved_effects_are_irrelevant
    (d : ModelData N F S M nG) (p p' : Params 𝕜 K N F S M nG)
    (hcl : p'.clusters = p.clusters) (hwt : p'.weights = p.weights) (hsrc : p'.source = p.source)
    (hce : ∀ k f, (∃ n, p.clusters k n = true ∧ ¬ Missing d.features n f) →
      p'.clusterEffect k f = p.clusterEffect k f)
    (hcf : ∀ c g f, (∃ n, d.confGroups c g n = true ∧ ¬ Missing d.features n f) →
      p'.confEffect c g f = p.confEffect c g f)
    (clO : List (Fin K)) (cfO : (c : Fin M) → List (Fin (nG c)))
    (buf : Fin N → Fin F → Fin (M + 1) → 𝕜) :
    freshObservationLhs d p' clO cfO buf = freshObservationLhs d p clO cfO buf := by
  have key : ∀ {G : ℕ} (probs probs' : Fin G → Fin F → Fin S → 𝕜) (groups : Fin G → Fin N → Bool)
      (order : List (Fin G)) (out : Fin N → Fin F → 𝕜)
      (_ : ∀ k f, (∃ n, groups k n = true ∧ ¬ Missing d.features n f) → probs' k f = probs k f),
      overwriteNA d.features (computeComponentLikelihood d.features probs' groups order out) =
      overwriteNA d.features (computeComponentLikelihood d.features probs groups order out) := by
    intro G probs probs' groups order out h
    funext n f
    unfold overwriteNA
    by_cases hna : isNA d.features n f = true
    · simp [hna]
    · simp only [hna]
      unfold computeComponentLikelihood
      generalize (fun (n : Fin N) (f : Fin F) => if anyGroup groups n then out n f else (0 : 𝕜)) = o
      have hm : ¬ Missing d.features n f := fun hh => hna (isNA_iff.mpr hh)
      have : ∀ (order : List (Fin G)) (o o' : Fin N → Fin F → 𝕜), o' n f = o n f →
          order.foldl (writeGroup d.features probs' groups) o' n f =
          order.foldl (writeGroup d.features probs groups) o n f := by
        intro order
        induction order with
        | nil => intro o o' ho; exact ho
        | cons i is ih =>
          intro o o' ho
          simp only [List.foldl_cons]
          apply ih
          unfold writeGroup
          split
          · rename_i hi
            unfold stateProb; rw [h i f ⟨n, hi, hm⟩]
          · exact ho
      simpa using this order o o rfl
  unfold freshObservationLhs
  have hu : updateComponents d p' clO cfO buf = updateComponents d p clO cfO buf := by
    funext n f c
    unfold updateComponents
    rw [hcl, key p.clusterEffect p'.clusterEffect p.clusters clO _ hce]
    refine Fin.cases rfl (fun c => ?_) c
    simp only [Fin.cons_succ]
    rw [key (p.confEffect c) (p'.confEffect c) (d.confGroups c) (cfO c) _ (hcf c)]
  rw [hu, hcl, hwt, hsrc]

/-- Relabelling the clusters together with their effects. -/
def Params.relabel (p : Params 𝕜 K N F S M nG) (σ : Equiv.Perm (Fin K)) : Params 𝕜 K N F S M nG :=
  { p with clusters := fun k => p.clusters (σ k), clusterEffect := fun k => p.clusterEffect (σ k) }

/-- **C12** (likelihood). Permuting cluster labels together with the cluster effects changes no
observation likelihood, in either source mode. -/
theorem C12_cluster_labels_are_exchangeable (d : ModelData N F S M nG)
    (p : Params 𝕜 K N F S M nG) (σ : Equiv.Perm (Fin K)) (hd : DisjointGroups p.clusters)
    (hc : ∀ c, DisjointGroups (d.confGroups c))
    (clO clO' : List (Fin K)) (cfO cfO' : (c : Fin M) → List (Fin (nG c)))
    (h1 : VisitsAll clO) (h2 : VisitsAll clO') (h3 : ∀ c, VisitsAll (cfO c))
    (h4 : ∀ c, VisitsAll (cfO' c)) (buf buf' : Fin N → Fin F → Fin (M + 1) → 𝕜) :
    freshObservationLhs d (p.relabel σ) clO' cfO' buf' = freshObservationLhs d p clO cfO buf := by
  have hany : anyGroup (p.relabel σ).clusters = anyGroup p.clusters := by
    funext n
    rw [Bool.eq_iff_iff, anyGroup_iff, anyGroup_iff]
    constructor
    · rintro ⟨g, hg⟩; exact ⟨σ g, hg⟩
    · rintro ⟨g, hg⟩; exact ⟨σ.symm g, by simpa [Params.relabel] using hg⟩
  have hd' : DisjointGroups (p.relabel σ).clusters := by
    intro i j n hi hj; exact σ.injective (hd _ _ n hi hj)
  have hval : ∀ n f, componentValue d.features (p.relabel σ).clusterEffect (p.relabel σ).clusters n f =
      componentValue d.features p.clusterEffect p.clusters n f := by
    intro n f
    unfold componentValue overwriteNA
    congr 1
    by_cases h : ∃ i, p.clusters i n = true
    · obtain ⟨i, hi⟩ := h
      rw [compute_member hd _ hi (by simp),
        compute_member hd' (i := σ.symm i) _ (by simpa [Params.relabel] using hi) (by simp)]
      simp [Params.relabel]
    · have h' : ∀ i, p.clusters i n = false := by simpa using h
      rw [compute_outside (groups := p.clusters) _ h',
        compute_outside (groups := (p.relabel σ).clusters) _ (fun i => h' (σ i))]
  have hu : updateComponents d (p.relabel σ) clO' cfO' buf' = updateComponents d p clO cfO buf := by
    funext n f c
    unfold updateComponents
    refine Fin.cases ?_ (fun c => ?_) c
    · simp only [Fin.cons_zero]
      rw [compute_all_eq hd' h2, compute_all_eq hd h1, hval]
    · simp only [Fin.cons_succ]
      rw [compute_all_eq (hc c) (h4 c), compute_all_eq (hc c) (h3 c)]
      rfl
  unfold freshObservationLhs
  rw [hu]
  have hh : hasComponents d (p.relabel σ).clusters = hasComponents d p.clusters := by
    funext n; unfold hasComponents; rw [hany]
  rw [hh]; rfl

/-- Non-vacuity of C11/C12: two non-empty disjoint clusters with different effects, a confounder,
missing data, strictly positive weights. -/
example :
    let d : ModelData 3 1 2 1 (fun _ => 1) :=
      ⟨fun n _ s => n.val == s.val, fun _ _ _ => true⟩
    let p : Params ℚ 2 3 1 2 1 (fun _ => 1) :=
      ⟨fun k n => k.val == n.val, fun _ _ => 1/2, fun k _ s => if k.val = s.val then 1/4 else 3/4,
        fun _ _ _ _ => 1/2, none⟩
    DisjointGroups p.clusters ∧ (∀ c, DisjointGroups (d.confGroups c)) ∧
    (∀ n f, ∃ c, hasComponents d p.clusters n c = true ∧ 0 < p.weights f c) ∧
    Missing d.features 2 0 ∧ ¬ Missing d.features 0 0 := by
  refine ⟨?_, ?_, ?_, ?_, ?_⟩
  · unfold DisjointGroups; decide
  · unfold DisjointGroups; decide
  · intro n f; exact ⟨1, by revert n; decide, by norm_num⟩
  · unfold Missing; decide
  · unfold Missing; decide

end SBayes.Lik
