import Verif.Spec.Membership
import Verif.Lemmas.Likelihood
import Mathlib.Tactic.FieldSimp
import Mathlib.Tactic.Ring
import Mathlib.Tactic.FinCases
/- C67: the cluster posterior of the Gibbs-ish operators is the posterior probability of membership. -/
namespace SBayes.Clusters
open SBayes.Lik
open scoped BigOperators
variable {K N F S M : ℕ} {nG : Fin M → ℕ}

theorem compute_congr {G : ℕ} {x : Features N F S} {probs : Fin G → Fin F → Fin S → ℝ} {g g' : Fin G → Fin N → Bool}
    {n : Fin N} (h : ∀ i, g i n = g' i n) (order : List (Fin G)) (out : Fin N → Fin F → ℝ) (f : Fin F) :
    computeComponentLikelihood x probs g order out n f = computeComponentLikelihood x probs g' order out n f := by
  have hany : anyGroup g n = anyGroup g' n := by unfold anyGroup; simp only [h]
  unfold computeComponentLikelihood
  have : ∀ (o o' : Fin N → Fin F → ℝ), o n f = o' n f →
      order.foldl (writeGroup x probs g) o n f = order.foldl (writeGroup x probs g') o' n f := by
    induction order with
    | nil => intro o o' ho; exact ho
    | cons i order ih =>
      intro o o' ho
      rw [List.foldl_cons, List.foldl_cons]
      apply ih
      unfold writeGroup
      rw [h i]
      split
      · rfl
      · exact ho
  apply this
  rw [hany]

/-- The factor of one object in the marginal likelihood. -/
noncomputable def objectLh (d : ModelData N F S M nG) (w : Fin F → Fin (M + 1) → ℝ)
    (ce : Fin K → Fin F → Fin S → ℝ) (cf : (c : Fin M) → Fin (nG c) → Fin F → Fin S → ℝ) (cl : Clus K N) (n : Fin N) : ℝ :=
  ∏ f, ∑ c, normalizeWeights w (hasComponents d cl) n f c * componentLh d ce cf cl n f c

theorem marginalLikelihood_eq (d : ModelData N F S M nG) (w : Fin F → Fin (M + 1) → ℝ)
    (ce : Fin K → Fin F → Fin S → ℝ) (cf : (c : Fin M) → Fin (nG c) → Fin F → Fin S → ℝ) (cl : Clus K N) :
    marginalLikelihood d w ce cf cl = ∏ n, objectLh d w ce cf cl n := by
  unfold marginalLikelihood freshObservationLhs
  rw [likelihood_none]
  rfl

theorem hasComponents_congr (d : ModelData N F S M nG) {cl cl' : Clus K N} {n : Fin N} (h : ∀ k, cl k n = cl' k n) :
    hasComponents d cl n = hasComponents d cl' n := by
  unfold hasComponents
  have : anyGroup cl n = anyGroup cl' n := by unfold anyGroup; simp only [h]
  rw [this]

theorem normalizeWeights_congr {C : ℕ} (w : Fin F → Fin C → ℝ) {h h' : Fin N → Fin C → Bool} {n : Fin N} (e : h n = h' n) :
    normalizeWeights w h n = normalizeWeights w h' n := by
  funext f c; unfold normalizeWeights; rw [e]

theorem objectLh_congr (d : ModelData N F S M nG) (w : Fin F → Fin (M + 1) → ℝ)
    (ce : Fin K → Fin F → Fin S → ℝ) (cf : (c : Fin M) → Fin (nG c) → Fin F → Fin S → ℝ) {cl cl' : Clus K N} {n : Fin N}
    (h : ∀ k, cl k n = cl' k n) : objectLh d w ce cf cl n = objectLh d w ce cf cl' n := by
  unfold objectLh
  rw [normalizeWeights_congr w (hasComponents_congr d h)]
  have : componentLh d ce cf cl n = componentLh d ce cf cl' n := by
    funext f
    unfold componentLh overwriteNA
    rw [compute_congr h]
  rw [this]

theorem setMember_self (cl : Clus K N) (z : Fin K) (n : Fin N) (b : Bool) : setMember cl z n b z n = b := by
  simp [setMember]

theorem setMember_other (cl : Clus K N) (z k : Fin K) (n : Fin N) (b : Bool) (h : k ≠ z) : setMember cl z n b k n = cl k n := by
  simp [setMember, Function.update_of_ne h]

theorem setMember_object (cl : Clus K N) (z k : Fin K) (n n' : Fin N) (b : Bool) (h : n' ≠ n) :
    setMember cl z n b k n' = cl k n' := by
  unfold setMember
  by_cases hk : k = z
  · subst hk; simp [Function.update_of_ne h]
  · rw [Function.update_of_ne hk]

/-- Putting the object into the cluster changes only its own factor. -/
theorem marginal_split (d : ModelData N F S M nG) (w : Fin F → Fin (M + 1) → ℝ)
    (ce : Fin K → Fin F → Fin S → ℝ) (cf : (c : Fin M) → Fin (nG c) → Fin F → Fin S → ℝ) (cl : Clus K N) (z : Fin K)
    (n : Fin N) (b : Bool) : marginalLikelihood d w ce cf (setMember cl z n b) =
      objectLh d w ce cf (setMember cl z n b) n * ∏ n' ∈ Finset.univ.erase n, objectLh d w ce cf cl n' := by
  rw [marginalLikelihood_eq, ← Finset.mul_prod_erase _ _ (Finset.mem_univ n)]
  congr 1
  refine Finset.prod_congr rfl fun n' hn' => ?_
  exact objectLh_congr d w ce cf fun k => setMember_object cl z k n n' b (Finset.ne_of_mem_erase hn')

theorem clusterPosterior_membership (d : ModelData N F S M nG) (w : Fin F → Fin (M + 1) → ℝ)
    (ce : Fin K → Fin F → Fin S → ℝ) (cf : (c : Fin M) → Fin (nG c) → Fin F → Fin S → ℝ) (cl : Clus K N) (z : Fin K)
    (n : Fin N) (havail : ∀ k, k ≠ z → cl k n = false) (hobs : ∀ f, isNA d.features n f = false) :
    clusterPosterior d w ce cf cl z n = objectLh d w ce cf (setMember cl z n true) n /
      (objectLh d w ce cf (setMember cl z n false) n + objectLh d w ce cf (setMember cl z n true) n) := by
  -- the components an object has with and without the cluster
  have hcomp : ∀ b, hasComponents d (setMember cl z n b) n = Function.update (hasComponents d cl n) 0 b := by
    intro b
    funext c
    refine Fin.cases ?_ (fun c => ?_) c
    · rw [Function.update_self]
      show anyGroup (setMember cl z n b) n = b
      cases b with
      | true => exact anyGroup_iff.mpr ⟨z, setMember_self cl z n true⟩
      | false =>
        refine anyGroup_false.mpr fun k => ?_
        by_cases hk : k = z
        · subst hk; exact setMember_self cl _ n false
        · rw [setMember_other cl z k n false hk]; exact havail k hk
    · rw [Function.update_of_ne (Fin.succ_ne_zero c)]; rfl
  have hhas : hasComponents d cl n 0 = cl z n := by
    show anyGroup cl n = cl z n
    cases h : cl z n with
    | true => exact anyGroup_iff.mpr ⟨z, h⟩
    | false =>
      refine anyGroup_false.mpr fun k => ?_
      by_cases hk : k = z
      · subst hk; exact h
      · exact havail k hk
  -- the two versions of the weights
  have hw : ∀ b, (if Function.update (hasComponents d cl n) 0 (!hasComponents d cl n 0) 0 = b then
        normalizeWeights w (fun n => Function.update (hasComponents d cl n) 0 (!hasComponents d cl n 0)) n
      else normalizeWeights w (hasComponents d cl) n) = normalizeWeights w (hasComponents d (setMember cl z n b)) n := by
    intro b
    rw [Function.update_self]
    by_cases h : (!hasComponents d cl n 0) = b
    · rw [if_pos h]
      apply normalizeWeights_congr
      rw [hcomp, h]
    · rw [if_neg h]
      apply normalizeWeights_congr
      rw [hcomp]
      have : hasComponents d cl n 0 = b := by
        revert h; cases hasComponents d cl n 0 <;> cases b <;> simp
      rw [← this, Function.update_eq_self]
  have hw1 := hw true
  have hw0 : (if Function.update (hasComponents d cl n) 0 (!hasComponents d cl n 0) 0 = true then
        normalizeWeights w (hasComponents d cl) n
      else normalizeWeights w (fun n => Function.update (hasComponents d cl n) 0 (!hasComponents d cl n 0)) n) =
      normalizeWeights w (hasComponents d (setMember cl z n false)) n := by
    rw [← hw false]
    cases Function.update (hasComponents d cl n) 0 (!hasComponents d cl n 0) 0 <;> rfl
  unfold clusterPosterior
  dsimp only
  rw [hw1, hw0]
  have key1 : ((List.finRange F).map fun f => ∑ c, (Fin.cons (stateProb d.features (ce z) n f) (confLh d cf n f) : Fin (M + 1) → ℝ) c *
      normalizeWeights w (hasComponents d (setMember cl z n true)) n f c).prod = objectLh d w ce cf (setMember cl z n true) n := by
    rw [prod_finRange]
    unfold objectLh
    refine Finset.prod_congr rfl fun f _ => Finset.sum_congr rfl fun c _ => ?_
    rw [mul_comm]
    congr 1
    refine Fin.cases ?_ (fun c => ?_) c
    · unfold componentLh
      rw [Fin.cons_zero, Fin.cons_zero, overwriteNA, hobs f]
      have hloc : ∀ k, setMember cl z n true k n = (fun (k : Fin K) (_ : Fin N) => decide (k = z)) k n := by
        intro k
        by_cases hk : k = z
        · subst hk; rw [setMember_self]; simp
        · rw [setMember_other cl z k n true hk, havail k hk]; simp [hk]
      rw [compute_congr (g' := fun (k : Fin K) (_ : Fin N) => decide (k = z)) hloc, compute_member (i := z) _ _ (by simp) (by simp)]
      · rfl
      · intro i j m hi hj
        rw [of_decide_eq_true hi, of_decide_eq_true hj]
    · rfl
  have key0 : ((List.finRange F).map fun f => ∑ c, (Fin.cons (stateProb d.features (ce z) n f) (confLh d cf n f) : Fin (M + 1) → ℝ) c *
      normalizeWeights w (hasComponents d (setMember cl z n false)) n f c).prod = objectLh d w ce cf (setMember cl z n false) n := by
    rw [prod_finRange]
    unfold objectLh
    refine Finset.prod_congr rfl fun f _ => Finset.sum_congr rfl fun c _ => ?_
    rw [mul_comm]
    refine Fin.cases ?_ (fun c => ?_) c
    · have : normalizeWeights w (hasComponents d (setMember cl z n false)) n f 0 = 0 := by
        unfold normalizeWeights
        rw [hcomp, Function.update_self]
        simp [b2n]
      rw [this, zero_mul, zero_mul]
    · rfl
  rw [key1, key0]

/-- **C67.** For an object that is in no other cluster and has no missing feature, `compute_cluster_posterior` is the
posterior probability that the object belongs to the cluster, given everything else and with even prior odds: the
likelihood of all data with the object in the cluster over the sum of the likelihoods with and without. -/
theorem C67_cluster_posterior_is_the_membership_posterior_partial (d : ModelData N F S M nG) (w : Fin F → Fin (M + 1) → ℝ)
    (clusterEffect : Fin K → Fin F → Fin S → ℝ) (confEffect : (c : Fin M) → Fin (nG c) → Fin F → Fin S → ℝ)
    (cl : Clus K N) (z : Fin K) (n : Fin N) (havail : ∀ k, k ≠ z → cl k n = false)
    (hobs : ∀ f, ∃ s, Observed d.features n f s)
    (hpos : marginalLikelihood d w clusterEffect confEffect (setMember cl z n false) +
      marginalLikelihood d w clusterEffect confEffect (setMember cl z n true) ≠ 0) :
    clusterPosterior d w clusterEffect confEffect cl z n =
      marginalLikelihood d w clusterEffect confEffect (setMember cl z n true) /
        (marginalLikelihood d w clusterEffect confEffect (setMember cl z n false) +
          marginalLikelihood d w clusterEffect confEffect (setMember cl z n true)) := by
  rw [clusterPosterior_membership d w _ _ cl z n havail fun f => (hobs f).elim fun s hs => observed_not_na hs]
  rw [marginal_split, marginal_split, ← add_mul] at *
  rw [mul_div_mul_right _ _ (right_ne_zero_of_mul hpos)]

section examples
/-- One object, one feature with two states, one cluster, one confounder with one group. -/
private def mD (na : Bool) : ModelData 1 1 2 1 (fun _ => 1) := ⟨fun _ _ s => !na && s.val == 0, fun _ _ _ => true⟩
private noncomputable def mCe : Fin 1 → Fin 1 → Fin 2 → ℝ := fun _ _ s => if s.val = 0 then 3 / 4 else 1 / 4
private noncomputable def mCf : (c : Fin 1) → Fin 1 → Fin 1 → Fin 2 → ℝ := fun _ _ _ _ => 1 / 2
private def mCl : Clus 1 1 := fun _ _ => false

theorem m_lh0 (na : Bool) : marginalLikelihood (mD na) (fun _ _ => 1 / 2) mCe mCf (setMember mCl 0 0 false) =
    if na then 1 else 1 / 2 := by
  rw [marginalLikelihood_eq]
  cases na <;>
  simp [objectLh, normalizeWeights, hasComponents, componentLh, confLh, overwriteNA, isNA, computeComponentLikelihood,
    writeGroup, stateProb, anyGroup, b2n, mD, mCe, mCf, setMember, Fin.sum_univ_two, List.finRange_succ]

theorem m_lh1 (na : Bool) : marginalLikelihood (mD na) (fun _ _ => 1 / 2) mCe mCf (setMember mCl 0 0 true) =
    if na then 1 else 5 / 8 := by
  rw [marginalLikelihood_eq]
  cases na <;>
  simp [objectLh, normalizeWeights, hasComponents, componentLh, confLh, overwriteNA, isNA, computeComponentLikelihood,
    writeGroup, stateProb, anyGroup, b2n, mD, mCe, mCf, setMember, Fin.sum_univ_two, List.finRange_succ] <;> norm_num

/-- The hypotheses are met: probability `5/9` of membership. -/
example : (∀ f, ∃ s, Observed (mD false).features 0 f s) ∧
    marginalLikelihood (mD false) (fun _ _ => 1 / 2) mCe mCf (setMember mCl 0 0 false) +
      marginalLikelihood (mD false) (fun _ _ => 1 / 2) mCe mCf (setMember mCl 0 0 true) ≠ 0 := by
  constructor
  · intro f
    refine ⟨0, fun s => ?_⟩
    fin_cases s <;> simp [mD]
  · rw [m_lh0, m_lh1]; norm_num

/-- **C67 is false of the code for missing features**: without any observation the membership posterior is 1/2, the code
computes 1/3, because the cluster component has likelihood 0 instead of 1 there. -/
theorem C67_missing_features_false :
    marginalLikelihood (mD true) (fun _ _ => 1 / 2) mCe mCf (setMember mCl 0 0 true) /
      (marginalLikelihood (mD true) (fun _ _ => 1 / 2) mCe mCf (setMember mCl 0 0 false) +
        marginalLikelihood (mD true) (fun _ _ => 1 / 2) mCe mCf (setMember mCl 0 0 true)) = 1 / 2 ∧
    clusterPosterior (mD true) (fun _ _ => 1 / 2) mCe mCf mCl 0 0 = 1 / 3 := by
  constructor
  · rw [m_lh0, m_lh1]; norm_num
  · simp [clusterPosterior, normalizeWeights, hasComponents, confLh, overwriteNA, isNA,
      stateProb, anyGroup, b2n, mD, mCl, Fin.sum_univ_two, List.finRange_succ]
    norm_num
end examples

end SBayes.Clusters
