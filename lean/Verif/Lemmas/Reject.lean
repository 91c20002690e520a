import Verif.Lemmas.WeightsBound
/- The probability that a proposal of `GibbsSampleWeights` is rejected, while the weights of both components are not too small. -/
namespace SBayes.Meas
set_option linter.unusedSectionVars false
open SBayes.Lik SBayes.Clusters SBayes.MH SBayes.Source SBayes.Effects SBayes.Posterior SBayes.Draws SBayes.Kernel MeasureTheory
open scoped BigOperators ENNReal

variable {K N F S M C G : ℕ} {nG : Fin M → ℕ} {m : Setup K N F S M nG}

/-- The probability that the proposal for a feature is rejected. -/
noncomputable def rejects (m : Setup K N F S M nG) (d : Disc K N F M) (ij : Fin (M + 1) × Fin (M + 1)) (c : Cont K F S M nG) (f : Fin F) :
    ℝ≥0∞ := ∫⁻ a, ∫⁻ u, (if f ∈ accepted m d ij c a u then 0 else 1) ∂Measure.pi (fun _ : Fin F => uniform01)
      ∂Measure.pi fun f => shareLaw m d ij f

theorem rejects_le_one (d : Disc K N F M) (ij : Fin (M + 1) × Fin (M + 1)) (c : Cont K F S M nG) (f : Fin F) : rejects m d ij c f ≤ 1 := by
  have hu : IsProbabilityMeasure uniform01 := ⟨by unfold uniform01; simp⟩
  unfold rejects
  refine (lintegral_mono fun a => lintegral_mono (g := fun _ => 1) fun u => ?_).trans (by simp)
  dsimp only
  split
  · exact zero_le_one
  · exact le_rfl

theorem uniform01_Iio {r : ℝ} (h0 : 0 < r) (h1 : r ≤ 1) : uniform01 (Set.Iio r) = ENNReal.ofReal r := by
  unfold uniform01
  rw [Measure.restrict_apply measurableSet_Iio]
  have : Set.Iio r ∩ Set.Ico (0 : ℝ) 1 = Set.Ico 0 r := by
    ext x
    simp only [Set.mem_inter_iff, Set.mem_Iio, Set.mem_Ico]
    constructor
    · rintro ⟨h, h', _⟩; exact ⟨h', h⟩
    · rintro ⟨h, h'⟩; exact ⟨h', h, h'.trans_le h1⟩
  rw [this, Real.volume_Ico, sub_zero]

theorem rejects_bound {d : Disc K N F M} (hd : Good m d) {ij : Fin (M + 1) × Fin (M + 1)} (hij : ij.1 ≠ ij.2) (f : Fin F) {ε : ℝ} (hε : 0 < ε) :
    ∃ δ : ℝ≥0∞, δ ≠ 0 ∧ ∀ c : Cont K F S M nG, Row Finset.univ (c.1 f) → ε ≤ c.1 f ij.1 → ε ≤ c.1 f ij.2 → rejects m d ij c f + δ ≤ 1 := by
  have hu : IsProbabilityMeasure uniform01 := ⟨by unfold uniform01; simp⟩
  set A : ℝ := min 1 ((3 / 16 * ε ^ 2) ^ N * (ε ^ pairCounts (sourceArray d.2) (hasComponents m.d d.1) ij.1 ij.2 f ij.2 *
    ε ^ pairCounts (sourceArray d.2) (hasComponents m.d d.1) ij.1 ij.2 f ij.1)) with hA
  have hA0 : 0 < A := lt_min one_pos (by positivity)
  have hA1 : A ≤ 1 := min_le_left _ _
  set I : Set ℝ := Set.Ioo (1 / 4) (3 / 4) with hI
  have hIm : MeasurableSet I := measurableSet_Ioo
  have hIpos : shareLaw m d ij f I ≠ 0 := by
    unfold shareLaw
    rw [betaLaw_density, withDensity_apply _ hIm]
    refine (setLIntegral_pos_iff (ProbabilityTheory.measurable_betaPDFReal _ _).ennreal_ofReal).mpr ?_ |>.ne'
    rw [Measure.restrict_apply (measurableSet_support (ProbabilityTheory.measurable_betaPDFReal _ _).ennreal_ofReal |>.inter hIm)]
    have hsub : I ⊆ (Function.support (fun t => ENNReal.ofReal (ProbabilityTheory.betaPDFReal
        (1 + pairCounts (sourceArray d.2) (hasComponents m.d d.1) ij.1 ij.2 f ij.2)
        (1 + pairCounts (sourceArray d.2) (hasComponents m.d d.1) ij.1 ij.2 f ij.1) t)) ∩ I) ∩ Set.Ioo (0 : ℝ) 1 := by
      intro t ht
      have h0 : 0 < t := by have := ht.1; linarith
      have h1 : t < 1 := by have := ht.2; linarith
      refine ⟨⟨?_, ht⟩, h0, h1⟩
      exact (ENNReal.ofReal_pos.mpr (ProbabilityTheory.betaPDFReal_pos h0 h1 (counts_pos _ _ _ _ _ _) (counts_pos _ _ _ _ _ _))).ne'
    refine lt_of_lt_of_le ?_ (measure_mono hsub)
    rw [hI, Real.volume_Ioo]
    norm_num
  refine ⟨shareLaw m d ij f I * ENNReal.ofReal A, mul_ne_zero hIpos (ENNReal.ofReal_pos.mpr hA0).ne', fun c hc h1 h2 => ?_⟩
  have hmI : Measurable fun a : Fin F → ℝ => I.indicator (1 : ℝ → ℝ≥0∞) (a f) := (measurable_one.indicator hIm).comp (measurable_pi_apply f)
  have hmA : Measurable fun u : Fin F → ℝ => (Set.Iio A).indicator (1 : ℝ → ℝ≥0∞) (u f) :=
    (measurable_one.indicator measurableSet_Iio).comp (measurable_pi_apply f)
  have e1 : ∫⁻ a, I.indicator (1 : ℝ → ℝ≥0∞) (a f) ∂Measure.pi (fun f => shareLaw m d ij f) = shareLaw m d ij f I := by
    have := (measurePreserving_eval (fun f => shareLaw m d ij f) f).lintegral_comp (measurable_one.indicator hIm)
    rw [lintegral_indicator_one hIm] at this
    exact this
  have e2 : ∫⁻ u, (Set.Iio A).indicator (1 : ℝ → ℝ≥0∞) (u f) ∂Measure.pi (fun _ : Fin F => uniform01) = ENNReal.ofReal A := by
    have := (measurePreserving_eval (fun _ : Fin F => uniform01) f).lintegral_comp
      ((measurable_one : Measurable (1 : ℝ → ℝ≥0∞)).indicator (measurableSet_Iio (a := A)))
    rw [lintegral_indicator_one measurableSet_Iio, uniform01_Iio hA0 hA1] at this
    exact this
  have hsum : ∀ a u : Fin F → ℝ, (if f ∈ accepted m d ij c a u then (0 : ℝ≥0∞) else 1) +
      I.indicator (1 : ℝ → ℝ≥0∞) (a f) * (Set.Iio A).indicator (1 : ℝ → ℝ≥0∞) (u f) ≤ 1 := by
    intro a u
    by_cases ha : a f ∈ I
    · by_cases hu : u f ∈ Set.Iio A
      · have h01 : a f ∈ Set.Ioo (0 : ℝ) 1 := ⟨by have := ha.1; linarith, by have := ha.2; linarith⟩
        have hl := rowAcc_lower f (sourceArray_unique d.2) (fun n f c hc => by rw [sourceArray_iff.mp hc]; exact hd.2 n f) hij hc hε h1 h2 h01
        have hge : (3 / 16 * ε ^ 2) ^ N ≤ (a f * (1 - a f) * ε ^ 2) ^ N := by
          refine pow_le_pow_left₀ (by positivity) (mul_le_mul_of_nonneg_right ?_ (by positivity)) N
          have := ha.1
          have := ha.2
          nlinarith
        have hacc : f ∈ accepted m d ij c a u := by
          unfold accepted
          rw [Finset.mem_filter]
          refine ⟨Finset.mem_univ f, ?_⟩
          calc u f < A := hu
            _ ≤ _ := min_le_right _ _
            _ ≤ _ := mul_le_mul_of_nonneg_right hge (by positivity)
            _ ≤ _ := hl
        rw [if_pos hacc, Set.indicator_of_mem ha, Set.indicator_of_mem hu]
        simp
      · rw [Set.indicator_of_notMem hu, mul_zero, add_zero]
        split
        · exact zero_le_one
        · exact le_rfl
    · rw [Set.indicator_of_notMem ha, zero_mul, add_zero]
      split
      · exact zero_le_one
      · exact le_rfl
  have hin : ∀ a : Fin F → ℝ, ∫⁻ u, (if f ∈ accepted m d ij c a u then (0 : ℝ≥0∞) else 1) ∂Measure.pi (fun _ : Fin F => uniform01) +
      I.indicator (1 : ℝ → ℝ≥0∞) (a f) * ENNReal.ofReal A ≤ 1 := by
    intro a
    rw [← e2, ← lintegral_const_mul _ hmA, ← lintegral_add_right _ (hmA.const_mul _)]
    refine (lintegral_mono (hsum a)).trans ?_
    simp
  unfold rejects
  rw [← e1, ← lintegral_mul_const _ hmI, ← lintegral_add_right _ (hmI.mul_const _)]
  refine (lintegral_mono hin).trans ?_
  simp

/-- A positive lower bound of finitely many positive numbers. -/
theorem exists_common {ι : Type} [Finite ι] {P : ι → ℝ≥0∞ → Prop} (hmono : ∀ i x y, y ≤ x → P i x → P i y)
    (h : ∀ i, ∃ δ, δ ≠ 0 ∧ P i δ) : ∃ δ, δ ≠ 0 ∧ ∀ i, P i δ := by
  classical
  choose δ h0 hP using h
  rcases isEmpty_or_nonempty ι with he | hne
  · exact ⟨1, one_ne_zero, fun i => he.elim i⟩
  · obtain ⟨i0, hi0⟩ := Finite.exists_min δ
    exact ⟨δ i0, h0 i0, fun i => hmono i _ _ (hi0 i) (hP i)⟩

/-- One bound for all states of the discrete parameters and all pairs of components. -/
theorem rejects_uniform (m : Setup K N F S M nG) (f : Fin F) {ε : ℝ} (hε : 0 < ε) :
    ∃ δ : ℝ≥0∞, δ ≠ 0 ∧ ∀ d, Good m d → ∀ ij : Fin (M + 1) × Fin (M + 1), ij.1 ≠ ij.2 → ∀ c : Cont K F S M nG,
      Row Finset.univ (c.1 f) → ε ≤ c.1 f ij.1 → ε ≤ c.1 f ij.2 → rejects m d ij c f + δ ≤ 1 := by
  obtain ⟨δ, h0, hδ⟩ := exists_common (ι := {p : Disc K N F M × (Fin (M + 1) × Fin (M + 1)) // Good m p.1 ∧ p.2.1 ≠ p.2.2})
    (P := fun p δ => ∀ c : Cont K F S M nG, Row Finset.univ (c.1 f) → ε ≤ c.1 f p.1.2.1 → ε ≤ c.1 f p.1.2.2 → rejects m p.1.1 p.1.2 c f + δ ≤ 1)
    (fun p x y hxy h c h1 h2 h3 => (add_le_add le_rfl hxy).trans (h c h1 h2 h3)) fun p => rejects_bound p.2.1 p.2.2 f hε
  exact ⟨δ, h0, fun d hd ij hij => hδ ⟨(d, ij), hd, hij⟩⟩

end SBayes.Meas
