import Verif.Lemmas.Rounding
import Verif.Props.Likelihood
import Mathlib.MeasureTheory.Measure.Lebesgue.Basic
import Mathlib.Analysis.SpecialFunctions.Exp
/- Property C103: rounding errors in the log-likelihood, the source prior and the acceptance ratio. -/
namespace SBayes.Rounding
open SBayes.Lik
open scoped BigOperators

variable {u v : ℝ} {N F S G C K M : ℕ} {nG : Fin M → ℕ}

/-- Every observation is one state or missing. -/
def OneHot (x : Features N F S) : Prop := ∀ n f, Missing x n f ∨ ∃ s, Observed x n f s

/-- The parameters are as the sampler keeps them: weights are nonnegative, effects are probabilities and
no object is in two clusters, or in two groups of a confounder. -/
structure Proper (d : ModelData N F S M nG) (p : Params ℝ K N F S M nG) : Prop where
  oneHot : OneHot d.features
  weights : ∀ f c, 0 ≤ p.weights f c
  cluster : ∀ k f s, 0 ≤ p.clusterEffect k f s ∧ p.clusterEffect k f s ≤ 1
  conf : ∀ c g f s, 0 ≤ p.confEffect c g f s ∧ p.confEffect c g f s ≤ 1
  disjoint : DisjointGroups p.clusters
  disjointConf : ∀ c, DisjointGroups (d.confGroups c)

/-- **C103.** Floating point does not touch the component likelihoods: for any order of summation the
(re)computed likelihood of a component is bit for bit the exact one. In particular the incremental
update gives the same floats as a computation from scratch. -/
theorem C103_component_likelihoods_are_exact (A : Machine u v) (d : ModelData N F S M nG)
    (h : OneHot d.features) (p : Params ℝ K N F S M nG) (clO : List (Fin K))
    (cfO : (c : Fin M) → List (Fin (nG c))) (buf : Fin N → Fin F → Fin (M + 1) → ℝ) :
    updateComponents A d p clO cfO buf = Lik.updateComponents d p clO cfO buf :=
  updateComponents_exact A d h p clO cfO buf

theorem componentValue_mem {x : Features N F S} (h : OneHot x) {probs : Fin G → Fin F → Fin S → ℝ}
    {groups : Fin G → Fin N → Bool} (hd : DisjointGroups groups)
    (hp : ∀ g f s, 0 ≤ probs g f s ∧ probs g f s ≤ 1) {order : List (Fin G)} (ho : VisitsAll order)
    (out : Fin N → Fin F → ℝ) (n : Fin N) (f : Fin F) :
    0 ≤ overwriteNA x (Lik.computeComponentLikelihood x probs groups order out) n f ∧
      overwriteNA x (Lik.computeComponentLikelihood x probs groups order out) n f ≤ 1 := by
  have hs := C09_component_likelihood_is_specified x probs groups hd order ho out
  rcases h n f with hm | ⟨s, hs'⟩
  · rw [hs.missing n f hm]; norm_num
  · by_cases hg : ∃ i, groups i n = true
    · obtain ⟨i, hi⟩ := hg
      rw [hs.member n f s i hs' hi]; exact hp i f s
    · have : ∀ i, groups i n = false := fun i => by
        rw [Bool.eq_false_iff]; exact fun h => hg ⟨i, h⟩
      rw [hs.outside n f s hs' this]; norm_num

theorem updateComponents_mem {d : ModelData N F S M nG} {p : Params ℝ K N F S M nG} (h : Proper d p)
    {clO : List (Fin K)} {cfO : (c : Fin M) → List (Fin (nG c))} (h1 : VisitsAll clO)
    (h2 : ∀ c, VisitsAll (cfO c)) (buf : Fin N → Fin F → Fin (M + 1) → ℝ) (n : Fin N) (f : Fin F)
    (c : Fin (M + 1)) :
    0 ≤ Lik.updateComponents d p clO cfO buf n f c ∧ Lik.updateComponents d p clO cfO buf n f c ≤ 1 := by
  unfold Lik.updateComponents
  refine Fin.cases ?_ (fun c => ?_) c
  · rw [Fin.cons_zero]; exact componentValue_mem h.oneHot h.disjoint h.cluster h1 _ n f
  · rw [Fin.cons_succ]; exact componentValue_mem h.oneHot (h.disjointConf c) (h.conf c) (h2 c) _ n f

theorem normalizeWeights_mem {w : Fin F → Fin C → ℝ} {has : Fin N → Fin C → Bool} (hw : ∀ f c, 0 ≤ w f c)
    (n : Fin N) (f : Fin F) : (∀ c, 0 ≤ Lik.normalizeWeights w has n f c) ∧
      ∑ c, Lik.normalizeWeights w has n f c ≤ 1 := by
  have hnn : ∀ c, 0 ≤ w f c * b2n ℝ (has n c) := fun c => mul_nonneg (hw f c) (b2n_nonneg _)
  refine ⟨fun c => div_nonneg (hnn c) (Finset.sum_nonneg fun c _ => hnn c), ?_⟩
  unfold Lik.normalizeWeights
  rw [← Finset.sum_div]
  exact div_self_le_one _

theorem mem_pos_of_prod_pos {l : List ℝ} (h0 : ∀ x ∈ l, 0 ≤ x) (h : 0 < l.prod) : ∀ x ∈ l, 0 < x := by
  intro x hx
  refine lt_of_le_of_ne (h0 x hx) fun he => ?_
  exact h.ne' (List.prod_eq_zero (he ▸ hx))

/-- **C103.** Whatever the order in which numpy adds the numbers, the log-likelihood the sampler computes
with mixture components marginalised out (no sources) differs from the exact one by at most
`errorBound`: `2C` relative errors per observation with `C = M+1` components. -/
theorem C103_log_likelihood_without_sources (A : Machine u v) (hu : 0 ≤ u) (hu1 : u < 1) (hv : 0 ≤ v)
    (d : ModelData N F S M nG) (p : Params ℝ K N F S M nG) (hp : Proper d p) (hsrc : p.source = none)
    (clO : List (Fin K)) (cfO : (c : Fin M) → List (Fin (nG c))) (h1 : VisitsAll clO)
    (h2 : ∀ c, VisitsAll (cfO c)) (buf : Fin N → Fin F → Fin (M + 1) → ℝ)
    (hpos : 0 < likelihood (freshObservationLhs d p clO cfO buf)) :
    |logLikelihood A d p clO cfO buf - Real.log (likelihood (freshObservationLhs d p clO cfO buf))| ≤
      errorBound u v (N * F) (2 * (M + 1)) (Real.log (likelihood (freshObservationLhs d p clO cfO buf))) := by
  unfold logLikelihood
  unfold freshObservationLhs likelihood at *
  rw [hsrc] at *
  rw [updateComponents_exact A d hp.oneHot]
  have hl := updateComponents_mem hp h1 h2 buf
  have hle : ∀ x ∈ Lik.observationLhs (Lik.updateComponents d p clO cfO buf)
      (Lik.normalizeWeights p.weights (hasComponents d p.clusters)) none, 0 ≤ x ∧ x ≤ 1 := by
    intro x hx
    unfold Lik.observationLhs at hx
    rw [List.mem_flatMap] at hx
    obtain ⟨n, _, hx⟩ := hx
    rw [List.mem_map] at hx
    obtain ⟨f, _, rfl⟩ := hx
    obtain ⟨w0, w1⟩ := normalizeWeights_mem (has := hasComponents d p.clusters) hp.weights n f
    refine ⟨Finset.sum_nonneg fun c _ => mul_nonneg (w0 c) (hl n f c).1, le_trans ?_ w1⟩
    exact Finset.sum_le_sum fun c _ => mul_le_of_le_one_right (w0 c) (hl n f c).2
  have := logsum_err (A := A.toArith) hu hu1 hv
    (observationLhs_within (has := hasComponents d p.clusters) A hu hu1 hp.weights fun n f c => (hl n f c).1)
    (mem_pos_of_prod_pos (fun x hx => (hle x hx).1) hpos) (fun x hx => (hle x hx).2)
    (A.sum_ok .total _)
  rwa [length_obs_none] at this

/-- **C103.** With sources the observation likelihoods are exact and only the logarithms and their sum are
rounded. -/
theorem C103_log_likelihood_with_sources (A : Machine u v) (hu : 0 ≤ u) (hu1 : u < 1) (hv : 0 ≤ v)
    (d : ModelData N F S M nG) (p : Params ℝ K N F S M nG) (hp : Proper d p)
    (src : Fin N → Fin F → Fin (M + 1) → Bool) (hsrc : p.source = some src)
    (hone : ∀ n f, ∃! c, src n f c = true)
    (clO : List (Fin K)) (cfO : (c : Fin M) → List (Fin (nG c))) (h1 : VisitsAll clO)
    (h2 : ∀ c, VisitsAll (cfO c)) (buf : Fin N → Fin F → Fin (M + 1) → ℝ)
    (hpos : 0 < likelihood (freshObservationLhs d p clO cfO buf)) :
    |logLikelihood A d p clO cfO buf - Real.log (likelihood (freshObservationLhs d p clO cfO buf))| ≤
      ((1 + u) ^ (N * F - 1) * (1 + v) - 1) *
        |Real.log (likelihood (freshObservationLhs d p clO cfO buf))| := by
  unfold logLikelihood
  unfold freshObservationLhs likelihood at *
  rw [hsrc] at *
  rw [updateComponents_exact A d hp.oneHot]
  have hl := updateComponents_mem hp h1 h2 buf
  set lh := Lik.updateComponents d p clO cfO buf
  have hle : ∀ x ∈ Lik.observationLhs lh
      (Lik.normalizeWeights p.weights (hasComponents d p.clusters)) (some src), 0 ≤ x ∧ x ≤ 1 := by
    intro x hx
    unfold Lik.observationLhs at hx
    rw [List.mem_map] at hx
    obtain ⟨t, _, rfl⟩ := hx
    exact hl _ _ _
  have hw : List.Forall₂ (Within u 0) (Lik.observationLhs lh
      (Lik.normalizeWeights p.weights (hasComponents d p.clusters)) (some src))
      (observationLhs A lh (normalizeWeights A p.weights (hasComponents d p.clusters)) (some src)) := by
    unfold Lik.observationLhs observationLhs
    rw [List.forall₂_map_left_iff, List.forall₂_map_right_iff, List.forall₂_same]
    exact fun t _ => Within.refl _ (hl _ _ _).1
  have := logsum_err (A := A.toArith) hu hu1 hv hw
    (mem_pos_of_prod_pos (fun x hx => (hle x hx).1) hpos) (fun x hx => (hle x hx).2)
    (A.sum_ok .total _)
  have hlen : (Lik.observationLhs lh
      (Lik.normalizeWeights p.weights (hasComponents d p.clusters)) (some src)).length = N * F := by
    unfold Lik.observationLhs
    rw [List.length_map]; exact length_filter_ravel hone
  rw [hlen] at this
  simpa [errorBound] using this

/-- **C103.** The same for the prior probability of the sources: `C` relative errors per normalised weight. -/
theorem C103_log_source_prior (A : Machine u v) (hu : 0 ≤ u) (hu1 : u < 1) (hv : 0 ≤ v)
    (d : ModelData N F S M nG) (p : Params ℝ K N F S M nG) (hp : Proper d p)
    (src : Fin N → Fin F → Fin (M + 1) → Bool) (hone : ∀ n f, ∃! c, src n f c = true)
    (hpos : 0 < likelihood (sourceWeights (Lik.normalizeWeights p.weights (hasComponents d p.clusters)) src)) :
    |logSourcePrior A d p src - Real.log (likelihood (sourceWeights
        (Lik.normalizeWeights p.weights (hasComponents d p.clusters)) src))| ≤
      errorBound u v (N * F) (M + 1) (Real.log (likelihood (sourceWeights
        (Lik.normalizeWeights p.weights (hasComponents d p.clusters)) src))) := by
  unfold logSourcePrior
  unfold likelihood sourceWeights at *
  have hmem := fun n f => normalizeWeights_mem (has := hasComponents d p.clusters) hp.weights n f
  have hle : ∀ x ∈ ((ravelIdx N F (M + 1)).filter fun t => src t.1 t.2.1 t.2.2).map
      (fun t => Lik.normalizeWeights p.weights (hasComponents d p.clusters) t.1 t.2.1 t.2.2), 0 ≤ x ∧ x ≤ 1 := by
    intro x hx
    rw [List.mem_map] at hx
    obtain ⟨t, _, rfl⟩ := hx
    refine ⟨(hmem _ _).1 _, le_trans ?_ (hmem t.1 t.2.1).2⟩
    exact Finset.single_le_sum (f := fun c => Lik.normalizeWeights p.weights (hasComponents d p.clusters) t.1 t.2.1 c)
      (fun c _ => (hmem _ _).1 c) (Finset.mem_univ _)
  have hw : List.Forall₂ (Within u (M + 1)) (((ravelIdx N F (M + 1)).filter fun t => src t.1 t.2.1 t.2.2).map
      (fun t => Lik.normalizeWeights p.weights (hasComponents d p.clusters) t.1 t.2.1 t.2.2))
      (((ravelIdx N F (M + 1)).filter fun t => src t.1 t.2.1 t.2.2).map
      (fun t => normalizeWeights A p.weights (hasComponents d p.clusters) t.1 t.2.1 t.2.2)) := by
    rw [List.forall₂_map_left_iff, List.forall₂_map_right_iff, List.forall₂_same]
    exact fun t _ => normalizeWeights_within A hu hu1 hp.weights _ _ _
  have := logsum_err (A := A.toArith) hu hu1 hv hw
    (mem_pos_of_prod_pos (fun x hx => (hle x hx).1) hpos) (fun x hx => (hle x hx).2)
    (A.sum_ok .sourcePrior _)
  rwa [List.length_map, length_filter_ravel hone] at this

theorem neg_log_le (hu1 : u < 1) : -Real.log (1 - u) ≤ u / (1 - u) := by
  rw [← Real.log_inv]
  refine (Real.log_le_sub_one_of_pos (inv_pos.mpr (by linarith))).trans (le_of_eq ?_)
  have : 1 - u ≠ 0 := by linarith
  field_simp; ring

/-- **C103**, in figures: with double precision (unit roundoff 2^-53, logarithms accurate to 2^-52), at most
a million observations and at most 10 components, the error bound is at most
`2·10^-10 · |L| + 3·10^-9`. -/
theorem C103_error_bound_for_doubles {n k : ℕ} (hn : n ≤ 10 ^ 6) (hk : k ≤ 20) (L : ℝ) :
    errorBound (1 / 2 ^ 53) (1 / 2 ^ 52) n k L ≤ 2 / 10 ^ 10 * |L| + 3 / 10 ^ 9 := by
  have hu0 : (0:ℝ) ≤ 1 / 2 ^ 53 := by norm_num
  have hu1 : (1:ℝ) / 2 ^ 53 < 1 := by norm_num
  have hm : ((n - 1 : ℕ) : ℝ) ≤ 10 ^ 6 := by
    have : n - 1 ≤ 10 ^ 6 := by omega
    exact_mod_cast this
  have hn' : (n : ℝ) ≤ 10 ^ 6 := by exact_mod_cast hn
  have hk' : (k : ℝ) ≤ 20 := by exact_mod_cast hk
  have hP : (1 + 1 / 2 ^ 53 : ℝ) ^ (n - 1) ≤ 1 + 12 / 10 ^ 11 := by
    have e1 : (1 + 1 / 2 ^ 53 : ℝ) ≤ Real.exp (1 / 2 ^ 53) := by
      have := Real.add_one_le_exp (1 / 2 ^ 53 : ℝ); linarith
    have e2 : (1 + 1 / 2 ^ 53 : ℝ) ^ (n - 1) ≤ Real.exp (10 ^ 6 * (1 / 2 ^ 53)) := by
      refine (pow_le_pow_left₀ (by positivity) e1 _).trans ?_
      rw [← Real.exp_nat_mul]
      exact Real.exp_le_exp.mpr (mul_le_mul_of_nonneg_right hm hu0)
    refine e2.trans ?_
    have e3 := Real.one_sub_le_exp_neg (10 ^ 6 * (1 / 2 ^ 53) : ℝ)
    rw [Real.exp_neg] at e3
    have e4 : (0:ℝ) < 1 - 10 ^ 6 * (1 / 2 ^ 53) := by norm_num
    have e5 := inv_anti₀ e4 e3
    rw [inv_inv] at e5
    exact e5.trans (by norm_num)
  have hP1 : (1:ℝ) ≤ (1 + 1 / 2 ^ 53) ^ (n - 1) := one_le_pow₀ (by norm_num)
  have he : -Real.log (1 - 1 / 2 ^ 53 : ℝ) ≤ 12 / 10 ^ 17 :=
    (neg_log_le hu1).trans (by norm_num)
  have he0 : 0 ≤ -Real.log (1 - 1 / 2 ^ 53 : ℝ) :=
    neg_nonneg.mpr (Real.log_nonpos (by norm_num) (by norm_num))
  unfold errorBound
  have hT : (n:ℝ) * (k * -Real.log (1 - 1 / 2 ^ 53)) ≤ 24 / 10 ^ 10 := by
    calc (n:ℝ) * (k * -Real.log (1 - 1 / 2 ^ 53)) ≤ 10 ^ 6 * (20 * (12 / 10 ^ 17)) := by
          apply mul_le_mul hn' _ (by positivity) (by positivity)
          exact mul_le_mul hk' he he0 (by norm_num)
      _ = 24 / 10 ^ 10 := by norm_num
  have hT0 : 0 ≤ (n:ℝ) * (k * -Real.log (1 - 1 / 2 ^ 53)) := by positivity
  have hR : (1 + 1 / 2 ^ 53 : ℝ) ^ (n - 1) * (1 + 1 / 2 ^ 52) - 1 ≤ 2 / 10 ^ 10 := by
    have := mul_le_mul_of_nonneg_right hP (by norm_num : (0:ℝ) ≤ 1 + 1 / 2 ^ 52)
    linarith [this, (by norm_num : (1 + 12 / 10 ^ 11 : ℝ) * (1 + 1 / 2 ^ 52) - 1 ≤ 2 / 10 ^ 10)]
  have := mul_le_mul_of_nonneg_right hR (add_nonneg (abs_nonneg L) hT0)
  nlinarith [this]

/-- **C103.** The floating point Metropolis-Hastings ratio, from log-likelihoods and log-priors with errors
at most `eL` and `eP`, is off by at most `2 eL + 2 eP` plus the rounding of six operations. -/
theorem C103_mh_ratio_error (A : Arith u v) (hu : 0 ≤ u) {llN llP prN prP llN' llP' prN' prP' q qb eL eP : ℝ}
    (h1 : |llN' - llN| ≤ eL) (h2 : |llP' - llP| ≤ eL) (h3 : |prN' - prN| ≤ eP) (h4 : |prP' - prP| ≤ eP) :
    |mhRatio A llN' llP' prN' prP' q qb - MH.mhRatio llN llP prN prP q qb 1| ≤
      2 * eL + 2 * eP + ((1 + u) ^ 3 - 1) * (|llN' - llP'| + |q - qb| + |prN' - prP'|) := by
  unfold mhRatio MH.mhRatio
  rw [A.mul_one]
  set a := A.add llN' (-llP')
  set b := A.add q (-qb)
  set c := A.add prN' (-prP')
  have ha := A.add_err llN' (-llP')
  have hb := A.add_err q (-qb)
  have hc := A.add_err prN' (-prP')
  rw [← sub_eq_add_neg] at ha hb hc
  have hs : Sums A ([a] ++ [-b] ++ [c]) (A.add (A.add a (-b)) c) :=
    .add (.add (.one a) (.one (-b))) (.one c)
  have he := hs.err hu
  simp only [List.cons_append, List.nil_append, List.sum_cons, List.sum_nil, List.length_cons, List.length_nil,
    List.map_cons, List.map_nil, abs_neg] at he
  norm_num at he
  set x := llN' - llP' with hx
  set y := q - qb
  set z := prN' - prP' with hz
  have ka : |a| ≤ (1 + u) * |x| := by have := abs_sub_abs_le_abs_sub a x; linarith
  have kb : |b| ≤ (1 + u) * |y| := by have := abs_sub_abs_le_abs_sub b y; linarith
  have kc : |c| ≤ (1 + u) * |z| := by have := abs_sub_abs_le_abs_sub c z; linarith
  have h5 : |x - y + z - ((llN - llP) * 1 - y + (prN - prP))| ≤ 2 * eL + 2 * eP := by
    have : x - y + z - ((llN - llP) * 1 - y + (prN - prP)) =
      ((llN' - llN) + (-(llP' - llP))) + ((prN' - prN) + (-(prP' - prP))) := by rw [hx, hz]; ring
    rw [this]
    refine (abs_add_le _ _).trans ?_
    have t1 := abs_add_le (llN' - llN) (-(llP' - llP))
    have t2 := abs_add_le (prN' - prN) (-(prP' - prP))
    rw [abs_neg] at t1 t2
    linarith
  have h6 : |a + (-b + c) - (x - y + z)| ≤ u * (|x| + |y| + |z|) := by
    have : a + (-b + c) - (x - y + z) = (a - x) + (-(b - y)) + (c - z) := by ring
    rw [this]
    have t1 := abs_add_le ((a - x) + (-(b - y))) (c - z)
    have t2 := abs_add_le (a - x) (-(b - y))
    rw [abs_neg] at t2
    linarith
  have h7 : ((1 + u) ^ 2 - 1) * (|a| + (|b| + |c|)) ≤ ((1 + u) ^ 2 - 1) * ((1 + u) * (|x| + |y| + |z|)) := by
    refine mul_le_mul_of_nonneg_left (by linarith) ?_
    have : (1:ℝ) ≤ (1 + u) ^ 2 := one_le_pow₀ (by linarith)
    linarith
  set R := A.add (A.add a (-b)) c
  have t1 := abs_add_le (R - (a + (-b + c)))
    (a + (-b + c) - ((llN - llP) * 1 - y + (prN - prP)))
  have t2 := abs_add_le (a + (-b + c) - (x - y + z)) (x - y + z - ((llN - llP) * 1 - y + (prN - prP)))
  rw [sub_add_sub_cancel] at t1 t2
  nlinarith [t1, t2, h5, h6, h7, he]

/-- **C103.** The draw `log(random()) < ratio` decides differently for two ratios with probability at most
their distance: rounding changes a step of the chain with at most that probability. -/
theorem C103_decision_changes_rarely (r r' : ℝ) :
    MeasureTheory.volume {z : ℝ | z ∈ Set.Ioo (0:ℝ) 1 ∧ ¬ (Real.log z < r ↔ Real.log z < r')} ≤
      ENNReal.ofReal |r - r'| := by
  wlog h : r ≤ r' generalizing r r'
  · have := this r' r (by linarith)
    rw [abs_sub_comm] at this
    refine le_trans (le_of_eq ?_) this
    congr 1; ext z; simp only [Set.mem_ofPred_eq]; constructor <;> rintro ⟨a, b⟩ <;> exact ⟨a, fun h => b h.symm⟩
  have hsub : {z : ℝ | z ∈ Set.Ioo (0:ℝ) 1 ∧ ¬ (Real.log z < r ↔ Real.log z < r')} ⊆
      Set.Icc (min 1 (Real.exp r)) (min 1 (Real.exp r')) := by
    rintro z ⟨⟨h0, h1⟩, hz⟩
    by_cases a : Real.log z < r
    · exact absurd ⟨fun _ => by linarith, fun _ => a⟩ hz
    · by_cases b : Real.log z < r'
      · constructor
        · refine (min_le_right _ _).trans ?_
          rw [← Real.exp_log h0]; exact Real.exp_le_exp.mpr (not_lt.mp a)
        · refine le_min h1.le ?_
          rw [← Real.exp_log h0]; exact Real.exp_le_exp.mpr b.le
      · exact absurd ⟨fun h => absurd h a, fun h => absurd h b⟩ hz
  refine (MeasureTheory.measure_mono hsub).trans ?_
  rw [Real.volume_Icc]
  refine ENNReal.ofReal_le_ofReal ?_
  rw [abs_sub_comm, abs_of_nonneg (by linarith)]
  rcases le_total (Real.exp r') 1 with h1 | h1
  · rw [min_eq_right h1, min_eq_right ((Real.exp_le_exp.mpr h).trans h1)]
    -- exp r' - exp r = exp r' (1 - exp (r - r')) ≤ r' - r
    have e : Real.exp r = Real.exp r' * Real.exp (r - r') := by rw [← Real.exp_add]; ring_nf
    have := Real.add_one_le_exp (r - r')
    rw [e]
    nlinarith [Real.exp_pos r']
  · rw [min_eq_left h1]
    rcases le_total 1 (Real.exp r) with h2 | h2
    · rw [min_eq_left h2]; linarith
    · rw [min_eq_right h2]
      have := Real.add_one_le_exp r
      have : 0 ≤ r' := by
        by_contra hc
        have := Real.exp_lt_exp.mpr (not_le.mp hc); rw [Real.exp_zero] at this; linarith
      linarith

/-! Non-vacuity: a machine that really rounds, and a case. -/

/-- Every operation is too large by the factor `1 + u`, unless it is exact in IEEE arithmetic. -/
noncomputable def upArith (u : ℝ) (hu : 0 ≤ u) : Arith u u where
  add x y := if x = 0 then y else if y = 0 then x else (x + y) * (1 + u)
  mul x y := if x = 1 then y else if y = 1 then x else (x * y) * (1 + u)
  div x y := (x / y) * (1 + u)
  log x := Real.log x * (1 + u)
  add_err x y := by
    have h : 0 ≤ u * |x + y| := by positivity
    split
    · simp_all
    · split
      · simp_all
      · rw [show (x + y) * (1 + u) - (x + y) = u * (x + y) by ring, abs_mul, abs_of_nonneg hu]
  mul_err x y := by
    have h : 0 ≤ u * |x * y| := by positivity
    split
    · simp_all
    · split
      · simp_all
      · rw [show (x * y) * (1 + u) - (x * y) = u * (x * y) by ring, abs_mul, abs_of_nonneg hu]
  div_err x y := by rw [show (x / y) * (1 + u) - (x / y) = u * (x / y) by ring, abs_mul, abs_of_nonneg hu]
  log_err x _ := by
    rw [show Real.log x * (1 + u) - Real.log x = u * Real.log x by ring, abs_mul, abs_of_nonneg hu]
  add_zero x := by by_cases h : x = 0 <;> simp [h]
  zero_add x := by simp
  mul_one x := by by_cases h : x = 1 <;> simp [h]
  one_mul x := by simp

/-- Summation from right to left. -/
theorem sums_foldr (A : Arith u v) (l : List ℝ) : Sums A l (l.foldr A.add 0) := by
  induction l with
  | nil => exact .nil
  | cons x l ih => exact .add (.one x) ih

/-- The machine that rounds up. -/
noncomputable def upMachine (u : ℝ) (hu : 0 ≤ u) : Machine u u where
  toArith := upArith u hu
  sum _ l := l.foldr (upArith u hu).add 0
  sum_ok _ l := sums_foldr _ l

/-- One object with one feature (state 0 observed), in the cluster and in the group of the confounder. -/
def exData : ModelData 1 1 2 1 (fun _ => 1) := ⟨fun _ _ s => s == 0, fun _ _ _ => true⟩

noncomputable def exParams (src : Option (Fin 1 → Fin 1 → Fin 2 → Bool)) : Params ℝ 1 1 1 2 1 (fun _ => 1) :=
  ⟨fun _ _ => true, fun _ _ => 1 / 2, fun _ _ _ => 1 / 2, fun _ _ _ _ => 1 / 4, src⟩

theorem ex_proper (src) : Proper exData (exParams src) where
  oneHot _ _ := Or.inr ⟨0, fun s => by simp [exData]⟩
  weights _ _ := by norm_num [exParams]
  cluster _ _ _ := by norm_num [exParams]
  conf _ _ _ _ := by norm_num [exParams]
  disjoint i j _ _ _ := Subsingleton.elim i j
  disjointConf _ i j _ _ _ := Subsingleton.elim i j

theorem ex_likelihood : likelihood (freshObservationLhs exData (exParams none) [0] (fun _ => [0])
    (fun _ _ _ => 7)) = 3 / 8 := by
  norm_num [likelihood, freshObservationLhs, Lik.observationLhs, Lik.updateComponents, overwriteNA, isNA, exData,
    exParams, Lik.computeComponentLikelihood, Lik.writeGroup, Lik.stateProb, anyGroup, hasComponents,
    Lik.normalizeWeights, b2n, Fin.sum_univ_succ, List.finRange, Fin.cons]

/-- The hypotheses of the C103 theorems are met by a machine that rounds and a sample with likelihood 3/8. -/
example : |logLikelihood (upMachine (1 / 2 ^ 53) (by norm_num)) exData (exParams none) [0] (fun _ => [0])
    (fun _ _ _ => 7) - Real.log (3 / 8)| ≤ errorBound (1 / 2 ^ 53) (1 / 2 ^ 53) (1 * 1) (2 * 2) (Real.log (3 / 8)) := by
  have h := C103_log_likelihood_without_sources (upMachine (1 / 2 ^ 53) (by norm_num)) (by norm_num) (by norm_num)
    (by norm_num) exData (exParams none) (ex_proper none) rfl [0] (fun _ => [0])
    (fun g => by simp [Subsingleton.elim g 0]) (fun _ g => by simp [Subsingleton.elim g 0]) (fun _ _ _ => 7)
    (by rw [ex_likelihood]; norm_num)
  rwa [ex_likelihood] at h

/-- The observation is attributed to the confounder. -/
def exSrc : Fin 1 → Fin 1 → Fin 2 → Bool := fun _ _ c => c == 1

theorem exSrc_one (n f) : ∃! c, exSrc n f c = true := ⟨1, by simp [exSrc], fun c h => by simpa [exSrc] using h⟩

theorem ex_likelihood_src : likelihood (freshObservationLhs exData (exParams (some exSrc)) [0] (fun _ => [0])
    (fun _ _ _ => 7)) = 1 / 4 := by
  norm_num [likelihood, freshObservationLhs, Lik.observationLhs, Lik.updateComponents, overwriteNA, isNA, exData,
    exParams, exSrc, ravelIdx, Lik.computeComponentLikelihood, Lik.writeGroup, Lik.stateProb, anyGroup, hasComponents,
    Lik.normalizeWeights, b2n, Fin.sum_univ_succ, List.finRange, Fin.cons]
  rfl

example : |logLikelihood (upMachine (1 / 2 ^ 53) (by norm_num)) exData (exParams (some exSrc)) [0] (fun _ => [0])
    (fun _ _ _ => 7) - Real.log (1 / 4)| ≤ ((1 + 1 / 2 ^ 53) ^ (1 * 1 - 1) * (1 + 1 / 2 ^ 53) - 1) * |Real.log (1 / 4)| := by
  have h := C103_log_likelihood_with_sources (upMachine (1 / 2 ^ 53) (by norm_num)) (by norm_num) (by norm_num)
    (by norm_num) exData (exParams (some exSrc)) (ex_proper _) exSrc rfl exSrc_one [0] (fun _ => [0])
    (fun g => by simp [Subsingleton.elim g 0]) (fun _ g => by simp [Subsingleton.elim g 0]) (fun _ _ _ => 7)
    (by rw [ex_likelihood_src]; norm_num)
  rwa [ex_likelihood_src] at h

theorem ex_source_prior : likelihood (sourceWeights (Lik.normalizeWeights (exParams none).weights
    (hasComponents exData (exParams none).clusters)) exSrc) = 1 / 2 := by
  norm_num [likelihood, sourceWeights, exData, exParams, exSrc, ravelIdx, anyGroup, hasComponents,
    Lik.normalizeWeights, b2n, Fin.sum_univ_succ, List.finRange, Fin.cons]
  rfl

example : |logSourcePrior (upMachine (1 / 2 ^ 53) (by norm_num)) exData (exParams none) exSrc - Real.log (1 / 2)| ≤
    errorBound (1 / 2 ^ 53) (1 / 2 ^ 53) (1 * 1) (1 + 1) (Real.log (1 / 2)) := by
  have h := C103_log_source_prior (upMachine (1 / 2 ^ 53) (by norm_num)) (by norm_num) (by norm_num)
    (by norm_num) exData (exParams none) (ex_proper _) exSrc exSrc_one (by rw [ex_source_prior]; norm_num)
  rwa [ex_source_prior] at h

end SBayes.Rounding
