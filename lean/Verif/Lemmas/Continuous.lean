import Verif.Spec.Effects
import Mathlib.MeasureTheory.Measure.Prod
import Mathlib.MeasureTheory.Measure.Lebesgue.Basic
/- Reversibility in density form gives stationarity. -/
namespace SBayes.Effects
open SBayes.Lik SBayes.MH MeasureTheory
open scoped BigOperators ENNReal

theorem stationary_of_reversible (pi : ℝ → ℝ) (q acc : ℝ → ℝ → ℝ)
    (hpim : AEMeasurable pi (volume.restrict (Set.Ioo 0 1)))
    (hm : AEMeasurable (fun p : ℝ × ℝ => q p.1 p.2 * acc p.1 p.2)
      ((volume.restrict (Set.Ioo (0 : ℝ) 1)).prod (volume.restrict (Set.Ioo 0 1))))
    (hqm : ∀ a ∈ Set.Ioo (0 : ℝ) 1, AEMeasurable (fun b => q a b * acc a b) (volume.restrict (Set.Ioo 0 1)))
    (hq : ∀ a ∈ Set.Ioo (0 : ℝ) 1, ∀ b ∈ Set.Ioo (0 : ℝ) 1, 0 ≤ q a b)
    (hacc : ∀ a ∈ Set.Ioo (0 : ℝ) 1, ∀ b ∈ Set.Ioo (0 : ℝ) 1, 0 ≤ acc a b ∧ acc a b ≤ 1)
    (hpi : ∀ a ∈ Set.Ioo (0 : ℝ) 1, 0 ≤ pi a)
    (hone : ∀ a ∈ Set.Ioo (0 : ℝ) 1, ∫⁻ b in Set.Ioo 0 1, ENNReal.ofReal (q a b) = 1)
    (hrev : ∀ a ∈ Set.Ioo (0 : ℝ) 1, ∀ b ∈ Set.Ioo (0 : ℝ) 1,
      pi a * (q a b * acc a b) = pi b * (q b a * acc b a)) :
    Stationary pi q acc := by
  refine ⟨hone, fun B hB => ?_⟩
  set I := Set.Ioo (0 : ℝ) 1
  have hI : MeasurableSet I := measurableSet_Ioo
  set μ := (volume : Measure ℝ).restrict I
  have hind : Measurable (B.indicator (1 : ℝ → ℝ≥0∞)) := measurable_one.indicator hB
  -- the flow from a into B
  have hflow : AEMeasurable (fun p : ℝ × ℝ => ENNReal.ofReal (pi p.1) *
      (B.indicator 1 p.2 * ENNReal.ofReal (q p.1 p.2 * acc p.1 p.2))) (μ.prod μ) := by
    refine AEMeasurable.mul ?_ (AEMeasurable.mul ?_ hm.ennreal_ofReal)
    · exact (hpim.comp_fst).ennreal_ofReal
    · exact (hind.comp measurable_snd).aemeasurable
  have hflow2 : AEMeasurable (fun p : ℝ × ℝ =>
      (B.indicator 1 p.1 * (ENNReal.ofReal (pi p.1) * ENNReal.ofReal (q p.1 p.2 * acc p.1 p.2)))) (μ.prod μ) := by
    refine AEMeasurable.mul ?_ (AEMeasurable.mul ?_ hm.ennreal_ofReal)
    · exact (hind.comp measurable_fst).aemeasurable
    · exact (hpim.comp_fst).ennreal_ofReal
  have h1 : ∫⁻ a in I, ENNReal.ofReal (pi a) * stepProb q acc a B =
      (∫⁻ a in I, ∫⁻ b in I, ENNReal.ofReal (pi a) * (B.indicator 1 b * ENNReal.ofReal (q a b * acc a b))) +
      ∫⁻ a in I, B.indicator 1 a * (ENNReal.ofReal (pi a) * ∫⁻ b in I, ENNReal.ofReal (q a b * (1 - acc a b))) := by
    rw [← lintegral_add_left']
    · refine setLIntegral_congr_fun hI fun a ha => ?_
      unfold stepProb
      try simp only
      rw [mul_add, lintegral_const_mul'']
      · ring
      · exact hind.aemeasurable.mul (hqm a ha).ennreal_ofReal
    · exact hflow.lintegral_prod_right'
  have h2 : (∫⁻ a in I, ∫⁻ b in I, ENNReal.ofReal (pi a) * (B.indicator 1 b * ENNReal.ofReal (q a b * acc a b))) =
      ∫⁻ b in I, ∫⁻ a in I, B.indicator 1 b * (ENNReal.ofReal (pi b) * ENNReal.ofReal (q b a * acc b a)) := by
    rw [lintegral_lintegral_swap hflow]
    refine setLIntegral_congr_fun hI fun b hb => setLIntegral_congr_fun hI fun a ha => ?_
    try simp only
    rw [mul_left_comm, ← ENNReal.ofReal_mul (hpi a ha), ← ENNReal.ofReal_mul (hpi b hb), hrev a ha b hb]
  rw [h1, h2, ← lintegral_add_left']
  · refine setLIntegral_congr_fun hI fun a ha => ?_
    try simp only
    rw [lintegral_const_mul'', lintegral_const_mul'', ← mul_add, ← mul_add, ← lintegral_add_left']
    · have : ∫⁻ b in I, (ENNReal.ofReal (q a b * acc a b) + ENNReal.ofReal (q a b * (1 - acc a b))) = 1 := by
        rw [← hone a ha]
        refine setLIntegral_congr_fun hI fun b hb => ?_
        try simp only
        rw [← ENNReal.ofReal_add (mul_nonneg (hq a ha b hb) (hacc a ha b hb).1)
          (mul_nonneg (hq a ha b hb) (sub_nonneg.mpr (hacc a ha b hb).2))]
        congr 1; ring
      rw [this, mul_one]
    · exact (hqm a ha).ennreal_ofReal
    · exact (hqm a ha).ennreal_ofReal
    · exact ((hqm a ha).ennreal_ofReal).const_mul _
  · exact hflow2.lintegral_prod_right'

end SBayes.Effects
