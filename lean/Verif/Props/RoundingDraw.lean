import Verif.Lemmas.RoundingDraw
import Verif.Props.Rounding
import Mathlib.Data.Fin.VecNotation
/- Property C104: drawing sources from rounded distributions. -/
namespace SBayes.Rounding
open SBayes.Lik MeasureTheory
open scoped BigOperators

variable {u v : ℝ} {N F S G C K M : ℕ} {nG : Fin M → ℕ}

/-- **C104.** Whatever the rounding, a component other than the first one that has probability 0 (a
confounder that does not apply to the object, or under which the observed state is impossible) is never
drawn. -/
theorem C104_excluded_component_is_never_drawn (A : Arith u v) (p : Fin (M + 1) → ℝ) (k : Fin (M + 1))
    (hk : k ≠ 0) (hp : p k = 0) (z : ℝ) : sampleCategorical A p z ≠ k := by
  intro h
  obtain ⟨j, rfl⟩ := Fin.exists_succ_eq.mpr hk
  have hc : cumsum A p j.succ = cumsum A p j.castSucc := by rw [cumsum_succ, hp, A.add_zero]
  unfold sampleCategorical at h
  rcases argmaxBool_spec (fun k => decide (z < cumsum A p k)) with ⟨h1, h2⟩ | ⟨h1, _⟩
  · rw [h] at h1 h2
    have := h2 j.castSucc (Fin.castSucc_lt_succ)
    rw [decide_eq_true_eq] at h1
    rw [decide_eq_false_iff_not] at this
    exact this (hc ▸ h1)
  · exact hk (h ▸ h1)

/-- **C104.** The first component (the cluster effect), if it has probability 0, is drawn only if the draw is
not below the rounded total of the probabilities. -/
theorem C104_first_component_needs_total_below_one (A : Arith u v) (p : Fin (M + 1) → ℝ) (hp : p 0 = 0) (z : ℝ)
    (hz : 0 ≤ z) (h : sampleCategorical A p z = 0) : cumsum A p (Fin.last M) ≤ z := by
  unfold sampleCategorical at h
  rcases argmaxBool_spec (fun k => decide (z < cumsum A p k)) with ⟨h1, _⟩ | ⟨_, h1⟩
  · rw [h, decide_eq_true_eq, cumsum_zero, hp] at h1; linarith
  · have := h1 (Fin.last M)
    rw [decide_eq_false_iff_not] at this
    exact not_lt.mp this

/-- **C104.** If the probabilities are known up to `j` relative errors, rounding changes the component drawn
with probability at most `(M+1)((1-u)^(-(j+M)) - 1)`. -/
theorem C104_rounded_draw_rarely_differs (A : Arith u v) (hu : 0 ≤ u) (hu1 : u < 1) {j : ℕ}
    {p p' : Fin (M + 1) → ℝ} (h : ∀ k, Within u j (p k) (p' k)) (hp : ∑ k, p k ≤ 1) :
    volume {z : ℝ | z ∈ Set.Ico (0:ℝ) 1 ∧ sampleCategorical A p' z ≠ Source.sampleCategorical p z} ≤
      ENNReal.ofReal ((M + 1) * (((1 - u) ^ (j + M))⁻¹ - 1)) := by
  have hm : (0:ℝ) < (1 - u) ^ (j + M) := pow_pos (by linarith) _
  have hm1 : (1 - u) ^ (j + M) ≤ 1 := pow_le_one₀ (by linarith) (by linarith)
  have hinv : 1 ≤ ((1 - u) ^ (j + M))⁻¹ := (one_le_inv₀ hm).mpr hm1
  have hc : ∀ k, |cumsum A p' k - Source.cumsum p k| ≤ ((1 - u) ^ (j + M))⁻¹ - 1 := by
    intro k
    have hw := (cumsum_within A hu hu1 h k).mono hu hu1 (show j + (k:ℕ) ≤ j + M by omega)
    have hle : Source.cumsum p k ≤ 1 :=
      (Finset.sum_le_sum_of_subset_of_nonneg (Finset.subset_univ _) fun i _ _ => (h i).1).trans hp
    obtain ⟨h0, h0', h1, h2⟩ := hw
    set c := Source.cumsum p k
    set c' := cumsum A p' k
    have h3 : c' ≤ c * ((1 - u) ^ (j + M))⁻¹ := by rw [← div_eq_mul_inv, le_div_iff₀ hm]; exact h2
    have h4 : 1 - (1 - u) ^ (j + M) ≤ ((1 - u) ^ (j + M))⁻¹ - 1 := by
      have := mul_inv_cancel₀ hm.ne'
      nlinarith [sq_nonneg ((1 - u) ^ (j + M) - 1)]
    rw [abs_le]
    constructor
    · nlinarith
    · nlinarith
  have hsub : {z : ℝ | z ∈ Set.Ico (0:ℝ) 1 ∧ sampleCategorical A p' z ≠ Source.sampleCategorical p z} ⊆
      ⋃ k : Fin (M + 1), Set.Icc (min (cumsum A p' k) (Source.cumsum p k)) (max (cumsum A p' k) (Source.cumsum p k)) := by
    rintro z ⟨_, hz⟩
    rw [Set.mem_iUnion]
    by_contra hno
    push Not at hno
    apply hz
    unfold sampleCategorical Source.sampleCategorical
    congr 1
    funext k
    have := hno k
    rw [Set.mem_Icc, not_and_or, not_le, not_le, lt_min_iff, max_lt_iff] at this
    rw [decide_eq_decide]
    rcases this with ⟨a, b⟩ | ⟨a, b⟩
    · exact ⟨fun _ => b, fun _ => a⟩
    · exact ⟨fun h => absurd h (by linarith), fun h => absurd h (by linarith)⟩
  refine (measure_mono hsub).trans ((measure_iUnion_fintype_le _ _).trans ?_)
  have : ∀ k : Fin (M + 1), volume (Set.Icc (min (cumsum A p' k) (Source.cumsum p k))
      (max (cumsum A p' k) (Source.cumsum p k))) ≤ ENNReal.ofReal (((1 - u) ^ (j + M))⁻¹ - 1) := by
    intro k
    rw [Real.volume_Icc, max_sub_min_eq_abs']
    exact ENNReal.ofReal_le_ofReal (hc k)
  refine (Finset.sum_le_sum fun k _ => this k).trans ?_
  rw [Finset.sum_const, Finset.card_univ, Fintype.card_fin, nsmul_eq_mul, ENNReal.ofReal_mul (by positivity)]
  refine mul_le_mul_left (le_of_eq ?_) _
  rw [ENNReal.ofReal_add (by positivity) (by norm_num)]
  simp

/-- **C104.** One source as `GibbsSampleSource` draws it: with weights normalised, multiplied by the
component likelihoods, normalised again and accumulated in floating point, the component drawn differs from
the one exact arithmetic would draw with the same random number with probability at most
`(M+1)((1-u)^(-(4M+5)) - 1)`. -/
theorem C104_gibbs_source_draw (A : Machine u v) (hu : 0 ≤ u) (hu1 : u < 1)
    (d : ModelData N F S M nG) (p : Params ℝ K N F S M nG) (hp : Proper d p)
    (clO : List (Fin K)) (cfO : (c : Fin M) → List (Fin (nG c))) (h1 : VisitsAll clO)
    (h2 : ∀ c, VisitsAll (cfO c)) (buf : Fin N → Fin F → Fin (M + 1) → ℝ) (n : Fin N) (f : Fin F) :
    volume {z : ℝ | z ∈ Set.Ico (0:ℝ) 1 ∧
        sampleCategorical A.toArith (sourceLaw A (updateComponents A d p clO cfO buf)
          (normalizeWeights A p.weights (hasComponents d p.clusters)) n f) z ≠
        Source.sampleCategorical (Source.sourceLaw (Lik.updateComponents d p clO cfO buf)
          (Lik.normalizeWeights p.weights (hasComponents d p.clusters)) n f) z} ≤
      ENNReal.ofReal ((M + 1) * (((1 - u) ^ (4 * M + 5))⁻¹ - 1)) := by
  rw [updateComponents_exact A d hp.oneHot]
  have hl := updateComponents_mem hp h1 h2 buf
  have hw := sourceLaw_within A hu hu1 (lh := Lik.updateComponents d p clO cfO buf)
    (fun n f c => normalizeWeights_within (has := hasComponents d p.clusters) A hu hu1 hp.weights n f c)
    (fun n f c => (hl n f c).1) n f
  have := C104_rounded_draw_rarely_differs A.toArith hu hu1 hw (by
    unfold Source.sourceLaw
    rw [← Finset.sum_div]
    exact div_self_le_one _)
  rwa [show 2 * (M + 1) + M + 3 + M = 4 * M + 5 by ring] at this

/-- **C104**, in figures: with doubles and at most 10 components the probability is below 10^-13. -/
theorem C104_bound_for_doubles (hM : M ≤ 9) :
    ((M:ℝ) + 1) * (((1 - 1 / 2 ^ 53) ^ (4 * M + 5))⁻¹ - 1) ≤ 1 / 10 ^ 13 := by
  have h0 : (0:ℝ) < (1 - 1 / 2 ^ 53) ^ 41 := by positivity
  have h1 : ((1:ℝ) - 1 / 2 ^ 53) ^ 41 ≤ (1 - 1 / 2 ^ 53) ^ (4 * M + 5) :=
    pow_le_pow_of_le_one (by norm_num) (by norm_num) (by omega)
  have h2 : (((1:ℝ) - 1 / 2 ^ 53) ^ (4 * M + 5))⁻¹ ≤ ((1 - 1 / 2 ^ 53) ^ 41)⁻¹ := inv_anti₀ h0 h1
  have h3 : ((1:ℝ) - 41 / 2 ^ 53) ≤ (1 - 1 / 2 ^ 53) ^ 41 := by
    have := one_add_mul_le_pow (show (-2:ℝ) ≤ -(1 / 2 ^ 53) by norm_num) 41
    norm_num at this ⊢
  have h4 : (((1:ℝ) - 1 / 2 ^ 53) ^ 41)⁻¹ ≤ (1 - 41 / 2 ^ 53)⁻¹ := inv_anti₀ (by norm_num) h3
  have h5 : ((1:ℝ) - 41 / 2 ^ 53)⁻¹ - 1 ≤ 1 / 10 ^ 14 := by norm_num
  have hM' : (M:ℝ) ≤ 9 := by exact_mod_cast hM
  have h6 : (((1:ℝ) - 1 / 2 ^ 53) ^ (4 * M + 5))⁻¹ - 1 ≤ 1 / 10 ^ 14 := by linarith
  have h7 : 0 ≤ (((1:ℝ) - 1 / 2 ^ 53) ^ (4 * M + 5))⁻¹ - 1 := by
    have : (1:ℝ) ≤ (((1:ℝ) - 1 / 2 ^ 53) ^ (4 * M + 5))⁻¹ :=
      (one_le_inv₀ (by positivity)).mpr (pow_le_one₀ (by norm_num) (by norm_num))
    linarith
  nlinarith

/-- The probabilities of an object outside of all clusters with weights 4, 1, 1 of three confounders, as
doubles: 0, 2/3, 1/6, 1/6 rounded to nearest. -/
noncomputable def exP : Fin 4 → ℝ :=
  ![0, (6004799503160661:ℤ) * 2 ^ (0 - 53 : ℤ), (6004799503160661:ℤ) * 2 ^ (-2 - 53 : ℤ),
    (6004799503160661:ℤ) * 2 ^ (-2 - 53 : ℤ)]

/-- Their cumulative sums, each rounded to nearest: the last one is `1 - 2^-53`. -/
noncomputable def exC : Fin 4 → ℝ :=
  ![0, (6004799503160661:ℤ) * 2 ^ (0 - 53 : ℤ), (7505999378950826:ℤ) * 2 ^ (0 - 53 : ℤ),
    (9007199254740991:ℤ) * 2 ^ (0 - 53 : ℤ)]

/-- **C104**, finding: an object outside of all clusters can get the cluster effect as the source of an
observation. In IEEE double arithmetic, rounding to nearest in every operation, the weights (0, 4, 1, 1)
normalise to probabilities `exP` whose cumulative sums `exC` end at `1 - 2^-53`; the draw `z = 1 - 2^-53`
(a value of `np.random.random()`) is below none of them, so `np.argmax` returns 0, the cluster effect. -/
theorem C104_outsider_gets_cluster_source_false :
    exP 0 = 0 ∧ Nearest (4 / (4 + 1 + 1)) (exP 1) ∧ Nearest (1 / (4 + 1 + 1)) (exP 2) ∧
      Nearest (1 / (4 + 1 + 1)) (exP 3) ∧
      exC 0 = exP 0 ∧ exC 1 = exC 0 + exP 1 ∧ Nearest (exC 1 + exP 2) (exC 2) ∧ Nearest (exC 2 + exP 3) (exC 3) ∧
      ∃ z : ℝ, IsDouble z ∧ 0 ≤ z ∧ z < 1 ∧ Source.argmaxBool (fun k => @decide (z < exC k) (Classical.dec _)) = 0 := by
  have n1 : Nearest (1 / (4 + 1 + 1)) ((6004799503160661:ℤ) * 2 ^ (-2 - 53 : ℤ)) :=
    nearest_of (by norm_num) (by norm_num) (by rw [abs_le]; constructor <;> norm_num)
  have n2 : Nearest ((6004799503160661:ℤ) * 2 ^ (0 - 53 : ℤ) + (6004799503160661:ℤ) * 2 ^ (-2 - 53 : ℤ))
      ((7505999378950826:ℤ) * 2 ^ (0 - 53 : ℤ)) :=
    nearest_of (by norm_num) (by norm_num) (by rw [abs_le]; constructor <;> norm_num)
  have n3 : Nearest ((7505999378950826:ℤ) * 2 ^ (0 - 53 : ℤ) + (6004799503160661:ℤ) * 2 ^ (-2 - 53 : ℤ))
      ((9007199254740991:ℤ) * 2 ^ (0 - 53 : ℤ)) :=
    nearest_of (by norm_num) (by norm_num) (by rw [abs_le]; constructor <;> norm_num)
  refine ⟨rfl, ?_, n1, n1, rfl, ?_, ?_, ?_, ?_⟩
  · exact nearest_of (by norm_num) (by norm_num) (by rw [abs_le]; constructor <;> norm_num)
  · show _ = (0:ℝ) + _; rw [zero_add]; rfl
  · exact n2
  · exact n3
  · refine ⟨(9007199254740991:ℤ) * 2 ^ (0 - 53 : ℤ), ⟨9007199254740991, 0 - 53, by norm_num, rfl⟩,
      by norm_num, by norm_num, ?_⟩
    refine argmaxBool_none fun k => ?_
    rw [decide_eq_false_iff_not]
    fin_cases k <;> norm_num [exC]

/-- Non-vacuity: the machine that rounds up and the sample of the C103 example. -/
example (z : ℝ) : sampleCategorical (upArith (1 / 2 ^ 53) (by norm_num)) ![1 / 2, 0, 1 / 2] z ≠ 1 :=
  C104_excluded_component_is_never_drawn _ _ 1 (by decide) rfl z

example := C104_gibbs_source_draw (upMachine (1 / 2 ^ 53) (by norm_num)) (by norm_num) (by norm_num)
  exData (exParams none) (ex_proper none) [0] (fun _ => [0])
  (fun g => by simp [Subsingleton.elim g 0]) (fun _ g => by simp [Subsingleton.elim g 0]) (fun _ _ _ => 7) 0 0

end SBayes.Rounding
