import Verif.Spec.Source
import Verif.Props.Clusters
import Verif.Props.MH
import Verif.Props.Likelihood
import Mathlib.MeasureTheory.Measure.Lebesgue.Basic
set_option linter.unusedSectionVars false
/- Theorems C21, C22, C23: source sampling. -/
namespace SBayes.Source
open SBayes.Lik SBayes.Clusters SBayes.MH
open scoped BigOperators
variable {K N F S M C : ℕ} {nG : Fin M → ℕ}

/-! ### C22 -/

/-- `P(X < k)`. -/
noncomputable def below (p : Fin (M + 1) → ℝ) (k : Fin (M + 1)) : ℝ := ∑ i ∈ Finset.Iio k, p i

theorem cumsum_eq (p : Fin (M + 1) → ℝ) (k : Fin (M + 1)) : cumsum p k = below p k + p k := by
  unfold cumsum below
  rw [← Finset.Iio_insert k, Finset.sum_insert (by simp), add_comm]

theorem find?_eq_some_first {n : ℕ} {b : Fin n → Bool} {k : Fin n} :
    (List.finRange n).find? b = some k ↔ b k = true ∧ ∀ j, j < k → b j = false := by
  rw [List.find?_eq_some_iff_getElem]
  constructor
  · rintro ⟨hk, i, hi, rfl, hlt⟩
    refine ⟨hk, fun j hj => ?_⟩
    rw [List.getElem_finRange] at hj
    have := hlt j.val hj
    simpa using this
  · rintro ⟨hk, hlt⟩
    refine ⟨hk, k.val, by simp, by simp, fun j hj => ?_⟩
    have := hlt ⟨j, by omega⟩ hj
    simpa using this

theorem below_mono {p : Fin (M + 1) → ℝ} (hp : ∀ k, 0 ≤ p k) {j k : Fin (M + 1)} (h : j < k) :
    cumsum p j ≤ below p k := by
  unfold cumsum below
  refine Finset.sum_le_sum_of_subset_of_nonneg (fun i hi => ?_) fun i _ _ => hp i
  rw [Finset.mem_Iic] at hi; rw [Finset.mem_Iio]; exact lt_of_le_of_lt hi h

/-- `below` is 0 at the first category, otherwise the cumulated sum of the previous one. -/
theorem below_cases (p : Fin (M + 1) → ℝ) (k : Fin (M + 1)) :
    below p k = 0 ∨ ∃ j, j < k ∧ below p k = cumsum p j := by
  refine Fin.cases ?_ (fun i => ?_) k
  · left; unfold below; rw [Finset.sum_eq_zero]; intro i hi
    rw [Finset.mem_Iio] at hi; exact absurd hi (Fin.not_lt_zero _)
  · right
    refine ⟨i.castSucc, Fin.castSucc_lt_succ, ?_⟩
    unfold below cumsum
    congr 1

theorem cumsum_last (p : Fin (M + 1) → ℝ) : cumsum p (Fin.last M) = ∑ k, p k := by
  unfold cumsum
  congr 1
  ext x; simp [Fin.le_last]

/-- **C22.** Category `k` is drawn exactly for the uniform numbers in `[P(X<k), P(X<k)+p_k)`. -/
theorem C22_inverse_cdf (p : Fin (M + 1) → ℝ) (hp : ∀ k, 0 ≤ p k) (hs : ∑ k, p k = 1) (z : ℝ)
    (h0 : 0 ≤ z) (h1 : z < 1) (k : Fin (M + 1)) :
    sampleCategorical p z = k ↔ below p k ≤ z ∧ z < below p k + p k := by
  classical
  unfold sampleCategorical argmaxBool
  have hlast : z < cumsum p (Fin.last M) := by rw [cumsum_last, hs]; exact h1
  have hsome : ((List.finRange (M + 1)).find? fun k => decide (z < cumsum p k)).isSome := by
    rw [List.find?_isSome]; exact ⟨Fin.last M, by simp, by simpa using hlast⟩
  obtain ⟨m, hm⟩ := Option.isSome_iff_exists.mp hsome
  have hm' := find?_eq_some_first.mp hm
  simp only [decide_eq_true_eq, decide_eq_false_iff_not, not_lt] at hm'
  have hmb : below p m ≤ z := by
    rcases below_cases p m with h | ⟨j, hj, h⟩
    · rw [h]; exact h0
    · rw [h]; exact hm'.2 j hj
  rw [hm, Option.getD_some]
  constructor
  · rintro rfl; exact ⟨hmb, by rw [← cumsum_eq]; exact hm'.1⟩
  · rintro ⟨ha, hb⟩
    rw [← cumsum_eq] at hb
    rcases lt_trichotomy m k with h | h | h
    · have := below_mono hp h; linarith [hm'.1]
    · exact h
    · have := below_mono hp h; linarith

/-- **C22**: the probability of drawing `k` is `p k`. -/
theorem C22_probability (p : Fin (M + 1) → ℝ) (hp : ∀ k, 0 ≤ p k) (hs : ∑ k, p k = 1) (k : Fin (M + 1)) :
    MeasureTheory.volume {z : ℝ | 0 ≤ z ∧ z < 1 ∧ sampleCategorical p z = k} = ENNReal.ofReal (p k) := by
  have hb0 : 0 ≤ below p k := Finset.sum_nonneg fun i _ => hp i
  have hb1 : below p k + p k ≤ 1 := by
    rw [← cumsum_eq, ← hs]
    exact Finset.sum_le_sum_of_subset_of_nonneg (Finset.subset_univ _) fun i _ _ => hp i
  have hset : {z : ℝ | 0 ≤ z ∧ z < 1 ∧ sampleCategorical p z = k} = Set.Ico (below p k) (below p k + p k) := by
    ext z
    simp only [Set.mem_ofPred_eq, Set.mem_Ico]
    constructor
    · rintro ⟨h0, h1, h⟩; exact (C22_inverse_cdf p hp hs z h0 h1 k).mp h
    · rintro ⟨ha, hb⟩
      have h0 : 0 ≤ z := hb0.trans ha
      have h1 : z < 1 := lt_of_lt_of_le hb hb1
      exact ⟨h0, h1, (C22_inverse_cdf p hp hs z h0 h1 k).mpr ⟨ha, hb⟩⟩
  rw [hset, Real.volume_Ico]
  congr 1; ring

/-- **C22**: a category of probability zero is never drawn. -/
theorem C22_never_impossible (p : Fin (M + 1) → ℝ) (hp : ∀ k, 0 ≤ p k) (hs : ∑ k, p k = 1) (z : ℝ)
    (h0 : 0 ≤ z) (h1 : z < 1) : 0 < p (sampleCategorical p z) := by
  have := (C22_inverse_cdf p hp hs z h0 h1 _).mp rfl
  linarith

/-- **C22**: the binary encoding has exactly one 1, at the drawn category. -/
theorem C22_binary_encoding (k c : Fin (M + 1)) : eye k c = true ↔ c = k := by
  unfold eye; rw [beq_iff_eq, eq_comm]

/-- What happens when rounding makes the cumulated sum end below 1: draws above it fall back to
category 0, even if its probability is 0 (numpy's `argmax` of an all-`False` row). This is why C22
assumes an exact total of 1. -/
theorem C22_short_cdf_falls_back_to_zero (p : Fin (M + 1) → ℝ) (hp : ∀ k, 0 ≤ p k) (z : ℝ)
    (hz : ∑ k, p k ≤ z) : sampleCategorical p z = 0 := by
  classical
  unfold sampleCategorical argmaxBool
  have : ((List.finRange (M + 1)).find? fun k => decide (z < cumsum p k)) = none := by
    rw [List.find?_eq_none]
    intro k _
    simp only [decide_eq_true_eq, not_lt]
    refine le_trans ?_ hz
    exact Finset.sum_le_sum_of_subset_of_nonneg (Finset.subset_univ _) fun i _ _ => hp i
  rw [this]; rfl

/-! ### C21 -/

section C21
variable {d : ModelData N F S M nG}

theorem normalizeWeights_law {w : Fin F → Fin (M + 1) → ℝ} (hw : ∀ f c, 0 < w f c)
    {has : Fin N → Fin (M + 1) → Bool} (n : Fin N) (hn : ∃ c, has n c = true) (f : Fin F) :
    (∀ c, 0 ≤ normalizeWeights w has n f c) ∧ ∑ c, normalizeWeights w has n f c = 1 ∧
      ∀ c, has n c = false → normalizeWeights w has n f c = 0 := by
  obtain ⟨c, hc⟩ := hn
  obtain ⟨h1, h2, h3, -⟩ := C08_normalized_weights_are_distribution w has (fun f c => (hw f c).le) n f
    ⟨c, hc, hw f c⟩
  exact ⟨h1, h2, h3⟩

theorem covered_has {w : Fin F → Fin (M + 1) → ℝ} {ce : Fin K → Fin F → Fin S → ℝ}
    {fe : (c : Fin M) → Fin (nG c) → Fin F → Fin S → ℝ} (hm : PositiveModel d w ce fe) (cl : Clus K N)
    (n : Fin N) : ∃ c, hasComponents d cl n c = true := by
  obtain ⟨c, g, hg⟩ := hm.covered n
  exact ⟨c.succ, anyGroup_iff.mpr ⟨g, hg⟩⟩

theorem has_meaning {cl : Clus K N} {n : Fin N} {c : Fin (M + 1)} (h : hasComponents d cl n c = true) :
    (c = 0 → ∃ k, cl k n = true) ∧ (∀ j : Fin M, c = j.succ → ∃ g, d.confGroups j g n = true) := by
  constructor
  · rintro rfl; exact anyGroup_iff.mp h
  · rintro j rfl; exact anyGroup_iff.mp h

/-- A source drawn from the source posterior applies to the object. -/
theorem drawn_applicable {w : Fin F → Fin (M + 1) → ℝ} {ce : Fin K → Fin F → Fin S → ℝ}
    {fe : (c : Fin M) → Fin (nG c) → Fin F → Fin S → ℝ} (hm : PositiveModel d w ce fe) {cl : Clus K N}
    (hd : DisjointGroups cl) (n : Fin N) (f : Fin F) {z : ℝ} (h0 : 0 ≤ z) (h1 : z < 1) :
    hasComponents d cl n (sampleCategorical (sourcePosterior d w ce fe cl n f) z) = true := by
  have hv : Valid 0 N cl := ⟨hd, fun _ => Nat.zero_le _, fun k => by
    unfold size; exact (Finset.card_le_univ _).trans (by simp)⟩
  have law := sourcePosterior_law hm 0 N
  have hpos := C22_never_impossible _ (law.nonneg cl hv n f) (law.sum_one cl hv n f) z h0 h1
  by_contra h
  have hw := (normalizeWeights_law hm.weights n (covered_has hm cl n) f).2.2 _ (by simpa using h)
  unfold sourcePosterior at hpos
  dsimp only at hpos
  unfold sourcePosterior at hw
  dsimp only at hw
  rw [hw] at hpos
  simp at hpos

theorem drawn_applicable_prior {w : Fin F → Fin (M + 1) → ℝ} {ce : Fin K → Fin F → Fin S → ℝ}
    {fe : (c : Fin M) → Fin (nG c) → Fin F → Fin S → ℝ} (hm : PositiveModel d w ce fe) (cl : Clus K N)
    (n : Fin N) (f : Fin F) {z : ℝ} (h0 : 0 ≤ z) (h1 : z < 1) :
    hasComponents d cl n (sampleCategorical (normalizeWeights w (hasComponents d cl) n f) z) = true := by
  obtain ⟨a, b, c⟩ := normalizeWeights_law hm.weights n (covered_has hm cl n) f
  have hpos := C22_never_impossible _ a b z h0 h1
  by_contra h
  rw [c _ (by simpa using h)] at hpos
  exact lt_irrefl _ hpos

/-- The invariant of a run. -/
structure Inv (d : ModelData N F S M nG) (s : St K N F S M nG) : Prop where
  disjoint : DisjointGroups s.clusters
  model : PositiveModel d s.weights s.clusterEffect s.confEffect

def rowOK (d : ModelData N F S M nG) (cl : Clus K N) (row : Fin (M + 1) → Bool) (n : Fin N) : Prop :=
  ∃ c, (∀ c', row c' = true ↔ c' = c) ∧ (c = 0 → ∃ k, cl k n = true) ∧
    (∀ j : Fin M, c = j.succ → ∃ g, d.confGroups j g n = true)

theorem resample_rows (fromPrior : Bool) {s : St K N F S M nG} (hs : Inv d s) (subset : Fin N → Bool)
    {z : Fin N → Fin F → ℝ} (hz : Unit01 z)
    (hold : ∀ n f, subset n = false → rowOK d s.clusters (s.source n f) n) :
    Inv d (if fromPrior then resampleSourcePrior d subset z s else resampleSource d subset z s) ∧
    WellAttributed d (if fromPrior then resampleSourcePrior d subset z s else resampleSource d subset z s) := by
  cases fromPrior
  · simp only [Bool.false_eq_true, if_false]
    refine ⟨⟨hs.disjoint, hs.model⟩, fun n f => ?_⟩
    by_cases h : subset n = true
    · refine ⟨sampleCategorical (sourcePosterior d s.weights s.clusterEffect s.confEffect s.clusters n f) (z n f), ?_, ?_⟩
      · intro c'
        simp only [resampleSource, h, if_true]
        exact C22_binary_encoding _ _
      · exact has_meaning (drawn_applicable hs.model hs.disjoint n f (hz n f).1 (hz n f).2)
    · have h : subset n = false := by simpa using h
      have := hold n f h
      unfold rowOK at this
      simpa [resampleSource, h] using this
  · simp only [if_true]
    refine ⟨⟨hs.disjoint, hs.model⟩, fun n f => ?_⟩
    by_cases h : subset n = true
    · refine ⟨sampleCategorical (normalizeWeights s.weights (hasComponents d s.clusters) n f) (z n f), ?_, ?_⟩
      · intro c'
        simp only [resampleSourcePrior, h, if_true]
        exact C22_binary_encoding _ _
      · exact has_meaning (drawn_applicable_prior hs.model s.clusters n f (hz n f).1 (hz n f).2)
    · have h : subset n = false := by simpa using h
      have := hold n f h
      unfold rowOK at this
      simpa [resampleSourcePrior, h] using this

/-- **C21.** In every state of every run in source mode, each observation has exactly one source, and
it applies to the object. -/
theorem C21_sources_always_applicable (d : ModelData N F S M nG) (fromPrior : Bool)
    (s : St K N F S M nG) (h : Reachable d fromPrior s) : WellAttributed d s := by
  suffices h : Inv d s ∧ WellAttributed d s from h.2
  induction h with
  | init s hcl hm z hz =>
    exact resample_rows fromPrior ⟨hcl, hm⟩ (fun _ => true) hz (fun n f h => by simp at h)
  | step s t _ hst ih =>
    cases hst with
    | source subset z hz =>
      exact resample_rows fromPrior ih.1 subset hz fun n f _ => ih.2 n f
    | cluster cl hcl z hz =>
      unfold moveCluster
      refine resample_rows fromPrior (s := { s with clusters := cl }) ⟨hcl, ih.1.model⟩ _ hz ?_
      intro n f hn
      have hn' : n ∉ changed s.clusters cl := by simpa using hn
      obtain ⟨c, h1, h2, h3⟩ := ih.2 n f
      refine ⟨c, h1, fun hc => ?_, h3⟩
      obtain ⟨k, hk⟩ := h2 hc
      refine ⟨k, ?_⟩
      show cl k n = true
      by_contra hne
      exact hn' (mem_changed.mpr ⟨k, fun e => hne (by rw [← e]; exact hk)⟩)
    | params w ce fe hm => exact ⟨⟨ih.1.disjoint, hm⟩, ih.2⟩

end C21

/-! ### C23 -/

/-- Posterior of the sources given everything else: prior of the sources (`SourcePrior`) times the
likelihood given the sources. -/
noncomputable def sourcePost (lh w : Fin N → Fin F → Fin C → ℝ) (s : Fin N × Fin F → Fin C) : ℝ :=
  likelihood (sourceWeights w (sourceOf fun n f => s (n, f))) *
    likelihood (observationLhs lh w (some (sourceOf fun n f => s (n, f))))

theorem sourcePost_eq (lh w : Fin N → Fin F → Fin C → ℝ) (s : Fin N × Fin F → Fin C) :
    sourcePost lh w s = ∏ i : Fin N × Fin F, (w i.1 i.2 (s i) * lh i.1 i.2 (s i)) := by
  have h1 : ∀ (h : Fin N → Fin F → Fin C → ℝ) (a : Fin N → Fin F → Fin C),
      (∏ n, ∏ f, ∏ c, if sourceOf a n f c then h n f c else 1) = ∏ n, ∏ f, h n f (a n f) := by
    intro h a
    refine Finset.prod_congr rfl fun n _ => Finset.prod_congr rfl fun f _ => ?_
    rw [Finset.prod_eq_single (a n f)]
    · simp [sourceOf]
    · intro c _ hc; simp [sourceOf, Ne.symm hc]
    · simp
  unfold sourcePost likelihood sourceWeights observationLhs
  rw [prod_filter_ravel, prod_filter_ravel, h1, h1, ← Finset.prod_mul_distrib, Fintype.prod_prod_type]
  exact Finset.prod_congr rfl fun n _ => Finset.prod_mul_distrib.symm

theorem gibbsSource_propMass (p : Fin N → Fin F → Fin C → ℝ) {l : List (Fin N)}
    (s t : Fin N × Fin F → Fin C) :
    propMass (gibbsSource p l) s t = prob (indep (fun i => choice (List.finRange C) (p i.1 i.2)) (positions F l) s) (· = t) := by
  classical
  unfold propMass prob gibbsSource
  rw [E_bind]
  exact E_congr fun q _ => by rw [E_ret]; rfl

/-- **C23**, first part: each redrawn source has the full conditional as its law. For two components
with the same other sources, the ratio of their probabilities is the ratio of the posteriors. -/
theorem C23_full_conditional (lh w : Fin N → Fin F → Fin C → ℝ) (s : Fin N × Fin F → Fin C)
    (n : Fin N) (f : Fin F) (c c' : Fin C) :
    sourceLaw lh w n f c * sourcePost lh w (Function.update s (n, f) c') =
      sourceLaw lh w n f c' * sourcePost lh w (Function.update s (n, f) c) := by
  classical
  rw [sourcePost_eq, sourcePost_eq, ← Finset.mul_prod_erase _ _ (Finset.mem_univ (n, f)),
    ← Finset.mul_prod_erase _ _ (Finset.mem_univ (n, f))]
  have hrest : ∀ c, ∏ x ∈ Finset.univ.erase (n, f), (w x.1 x.2 (Function.update s (n, f) c x) *
      lh x.1 x.2 (Function.update s (n, f) c x)) = ∏ x ∈ Finset.univ.erase (n, f), (w x.1 x.2 (s x) * lh x.1 x.2 (s x)) := by
    intro c
    refine Finset.prod_congr rfl fun x hx => ?_
    rw [Function.update_of_ne (Finset.ne_of_mem_erase hx)]
  rw [hrest, hrest]
  simp only [Function.update_self]
  unfold sourceLaw
  ring

/-- Redrawing the sources of any set of objects is reversible with respect to their posterior. -/
theorem gibbsSource_reversible (lh w : Fin N → Fin F → Fin C → ℝ)
    {l : List (Fin N)} (hl : l.Nodup) (s t : Fin N × Fin F → Fin C) :
    sourcePost lh w s * propMass (gibbsSource (sourceLaw lh w) l) s t =
      sourcePost lh w t * propMass (gibbsSource (sourceLaw lh w) l) t s := by
  classical
  rw [gibbsSource_propMass, gibbsSource_propMass, prob_indep _ _ (nodup_positions hl),
    prob_indep _ _ (nodup_positions hl)]
  by_cases h : ∀ i, i ∉ positions F l → t i = s i
  · rw [if_pos h, if_pos fun i hi => (h i hi).symm]
    have hp : ∀ u : Fin N × Fin F → Fin C,
        ((positions F l).map fun i => prob (choice (List.finRange C) (sourceLaw lh w i.1 i.2)) (· = u i)).prod =
        ∏ i ∈ (positions F l).toFinset, sourceLaw lh w i.1 i.2 (u i) := by
      intro u
      rw [List.prod_toFinset _ (nodup_positions hl)]
      congr 1
      refine List.map_congr_left fun i _ => ?_
      rw [prob_choice (List.nodup_finRange C), if_pos (List.mem_finRange _)]
    rw [hp, hp, sourcePost_eq, sourcePost_eq]
    rw [← Finset.prod_mul_prod_compl (positions F l).toFinset (fun i => w i.1 i.2 (s i) * lh i.1 i.2 (s i)),
      ← Finset.prod_mul_prod_compl (positions F l).toFinset (fun i => w i.1 i.2 (t i) * lh i.1 i.2 (t i))]
    have hc : ∏ i ∈ (positions F l).toFinsetᶜ, (w i.1 i.2 (s i) * lh i.1 i.2 (s i)) =
        ∏ i ∈ (positions F l).toFinsetᶜ, (w i.1 i.2 (t i) * lh i.1 i.2 (t i)) := by
      refine Finset.prod_congr rfl fun i hi => ?_
      rw [h i (by simpa using hi)]
    rw [hc]
    have : (∏ i ∈ (positions F l).toFinset, (w i.1 i.2 (s i) * lh i.1 i.2 (s i))) *
        (∏ i ∈ (positions F l).toFinset, sourceLaw lh w i.1 i.2 (t i)) =
        (∏ i ∈ (positions F l).toFinset, (w i.1 i.2 (t i) * lh i.1 i.2 (t i))) *
        (∏ i ∈ (positions F l).toFinset, sourceLaw lh w i.1 i.2 (s i)) := by
      rw [← Finset.prod_mul_distrib, ← Finset.prod_mul_distrib]
      refine Finset.prod_congr rfl fun i _ => ?_
      unfold sourceLaw; ring
    linear_combination (∏ i ∈ (positions F l).toFinsetᶜ, (w i.1 i.2 (t i) * lh i.1 i.2 (t i))) * this
  · rw [if_neg h, if_neg fun h' => h fun i hi => (h' i hi).symm, mul_zero, mul_zero]

/-- A Gibbs step is always accepted: the chain moves exactly as proposed. -/
theorem gibbs_step_always_accepted {σ : Type} (post : σ → ℝ) (d : σ → Rand σ) (s t : σ) :
    stepMass post (fun s => bind (d s) fun t => ret (gibbs t)) s t =
      propMass (fun s => bind (d s) fun t => ret (gibbs t)) s t := by
  classical
  unfold stepMass propMass prob step
  rw [E_bind, E_bind, E_bind]
  refine E_congr fun q _ => ?_
  rw [E_ret, E_ret, E_bind, E_bernoulli, E_ret, E_ret]
  have : acceptProb (post s) (post (gibbs q.1).new) (gibbs q.1).q (gibbs q.1).qBack = 1 := by
    simp [gibbs, acceptProb]
  rw [this]
  by_cases h : q.1 = t <;> simp [gibbs, h]

/-- **C23.** One MCMC step with `GibbsSampleSource` on any set of objects leaves the posterior of the
sources invariant. -/
theorem C23_source_posterior_is_invariant (lh w : Fin N → Fin F → Fin C → ℝ)
    (hlh : ∀ n f c, 0 ≤ lh n f c) (hw : ∀ n f c, 0 ≤ w n f c)
    (hpos : ∀ n f, ∃ c, 0 < lh n f c * w n f c)
    (l : List (Fin N)) (hl : l.Nodup) (t : Fin N × Fin F → Fin C) :
    ∑ s, sourcePost lh w s * stepMass (sourcePost lh w) (gibbsSource (sourceLaw lh w) l) s t = sourcePost lh w t := by
  classical
  have hstep : ∀ s t, stepMass (sourcePost lh w) (gibbsSource (sourceLaw lh w) l) s t =
      propMass (gibbsSource (sourceLaw lh w) l) s t := fun s t =>
    gibbs_step_always_accepted _ (fun s => indep (fun i => choice (List.finRange C) (sourceLaw lh w i.1 i.2)) (positions F l) s) s t
  simp only [hstep]
  rw [Finset.sum_congr rfl fun s _ => gibbsSource_reversible lh w hl s t, ← Finset.mul_sum]
  have hd : IsDist (indep (fun i => choice (List.finRange C) (sourceLaw lh w i.1 i.2)) (positions F l) t) := by
    refine isDist_indep _ _ (fun i _ => isDist_choice (fun c _ => ?_) ?_) t
    · exact div_nonneg (mul_nonneg (hlh _ _ _) (hw _ _ _))
        (Finset.sum_nonneg fun c _ => mul_nonneg (hlh _ _ _) (hw _ _ _))
    · rw [← List.ofFn_eq_map, List.sum_ofFn]
      unfold sourceLaw
      rw [← Finset.sum_div]
      obtain ⟨c, hc⟩ := hpos i.1 i.2
      exact div_self (Finset.sum_pos' (fun c' _ => mul_nonneg (hlh _ _ c') (hw _ _ c')) ⟨c, Finset.mem_univ c, hc⟩).ne'
  have hone : ∑ s, propMass (gibbsSource (sourceLaw lh w) l) t s = 1 := by
    simp only [gibbsSource_propMass]
    unfold prob
    rw [E_sum]
    refine Eq.trans (E_congr (g := fun _ => 1) fun p _ => ?_) (by rw [E_one]; exact hd.2)
    have := Finset.sum_ite_eq Finset.univ p.1 (fun _ => (1 : ℝ))
    rw [if_pos (Finset.mem_univ _)] at this
    convert this
  rw [hone, mul_one]

/-- The source law of the operators is `sourceLaw` of the component likelihoods and normalised
weights. -/
theorem C23_operator_uses_full_conditional (d : ModelData N F S M nG) (w : Fin F → Fin (M + 1) → ℝ)
    (ce : Fin K → Fin F → Fin S → ℝ) (fe : (c : Fin M) → Fin (nG c) → Fin F → Fin S → ℝ) (cl : Clus K N) :
    sourcePosterior d w ce fe cl =
      sourceLaw (componentLh d ce fe cl) (normalizeWeights w (hasComponents d cl)) := rfl

/-! ### Concrete cases -/

/-- C22 with a zero category. -/
example : (∀ k, 0 ≤ (![1 / 2, 0, 1 / 2] : Fin 3 → ℝ) k) ∧ ∑ k, (![1 / 2, 0, 1 / 2] : Fin 3 → ℝ) k = 1 := by
  constructor
  · intro k; fin_cases k <;> simp
  · simp [Fin.sum_univ_three]; norm_num

/-- C21: a run can start, in the model of four objects with a missing value. -/
example : ∃ s : St 2 4 1 2 1 (fun _ => 1), Reachable exData false s :=
  ⟨_, Reachable.init ⟨exCl, fun _ _ _ => true, fun _ _ => 1 / 2, fun _ _ _ => 1 / 2, fun _ _ _ _ => 1 / 2⟩
    exCl_valid.disjoint exPositive (fun _ _ => 1 / 3) (fun _ _ => by norm_num)⟩

end SBayes.Source
