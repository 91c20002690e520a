import Mathlib.MeasureTheory.Integral.Marginal
import Mathlib.MeasureTheory.Measure.WithDensity
import Mathlib.MeasureTheory.Measure.Prod
/- Integrals over finite products of measures. -/
namespace SBayes.Meas
open MeasureTheory
open scoped BigOperators ENNReal

variable {ι : Type} [Fintype ι] [DecidableEq ι] {X : ι → Type} [∀ i, MeasurableSpace (X i)]
  {ν : (i : ι) → Measure (X i)} [∀ i, SigmaFinite (ν i)]

/-- Two functions with the same partial integrals over coordinate `i` have the same integral. -/
theorem lintegral_pi_congr (i : ι) {G H : (∀ i, X i) → ℝ≥0∞} (hG : Measurable G) (hH : Measurable H)
    (h : ∀ x, ∫⁻ a, G (Function.update x i a) ∂ν i = ∫⁻ a, H (Function.update x i a) ∂ν i) :
    ∫⁻ x, G x ∂Measure.pi ν = ∫⁻ x, H x ∂Measure.pi ν := by
  refine lintegral_eq_of_lmarginal_eq {i} hG hH ?_
  rw [lmarginal_singleton, lmarginal_singleton]
  funext x
  exact h x

omit [Fintype ι] in
theorem measurable_update_pair (i : ι) : Measurable fun p : (∀ i, X i) × X i => Function.update p.1 i p.2 := by
  rw [measurable_pi_iff]
  intro j
  by_cases h : j = i
  · subst h; simpa using measurable_snd
  · simp only [Function.update_of_ne h]
    exact (measurable_pi_apply j).comp measurable_fst

omit [Fintype ι] in
theorem measurable_lintegral_update (i : ι) {G : (∀ i, X i) → ℝ≥0∞} (hG : Measurable G) :
    Measurable fun x => ∫⁻ a, G (Function.update x i a) ∂ν i :=
  Measurable.lintegral_prod_right' (hG.comp (measurable_update_pair i))

/-- Redrawing one coordinate of a product of probability measures changes nothing. -/
theorem lintegral_pi_update [∀ i, IsProbabilityMeasure (ν i)] (i : ι) {G : (∀ i, X i) → ℝ≥0∞} (hG : Measurable G) :
    ∫⁻ x, ∫⁻ a, G (Function.update x i a) ∂ν i ∂Measure.pi ν = ∫⁻ x, G x ∂Measure.pi ν := by
  refine lintegral_pi_congr i (measurable_lintegral_update i hG) hG fun x => ?_
  simp

theorem lmarginal_prod (f : (i : ι) → X i → ℝ≥0∞) (hf : ∀ i, Measurable (f i)) (s : Finset ι) (x : ∀ i, X i) :
    (∫⋯∫⁻_s, (fun x => ∏ i, f i (x i)) ∂ν) x = (∏ i ∈ s, ∫⁻ a, f i a ∂ν i) * ∏ i ∈ sᶜ, f i (x i) := by
  have hm : Measurable fun x : (∀ i, X i) => ∏ i, f i (x i) :=
    Finset.measurable_prod _ fun i _ => (hf i).comp (measurable_pi_apply i)
  induction s using Finset.induction_on generalizing x with
  | empty => simp
  | insert i s hi ih =>
    rw [lmarginal_insert _ hm hi]
    have h1 : ∀ a, (∫⋯∫⁻_s, (fun x => ∏ i, f i (x i)) ∂ν) (Function.update x i a) =
        ((∏ i ∈ s, ∫⁻ a, f i a ∂ν i) * ∏ j ∈ (insert i s)ᶜ, f j (x j)) * f i a := by
      intro a
      rw [ih]
      have : sᶜ = insert i (insert i s)ᶜ := by ext j; simp; by_cases h : j = i <;> simp [h, hi]
      rw [this, Finset.prod_insert (by simp), Function.update_self]
      have : ∏ j ∈ (insert i s)ᶜ, f j (Function.update x i a j) = ∏ j ∈ (insert i s)ᶜ, f j (x j) := by
        refine Finset.prod_congr rfl fun j hj => ?_
        rw [Function.update_of_ne]
        rintro rfl
        simp at hj
      rw [this]
      ring
    simp only [h1]
    rw [lintegral_const_mul _ (hf i), Finset.prod_insert hi]
    ring

theorem lintegral_pi_prod (f : (i : ι) → X i → ℝ≥0∞) (hf : ∀ i, Measurable (f i)) :
    ∫⁻ x, ∏ i, f i (x i) ∂Measure.pi ν = ∏ i, ∫⁻ a, f i a ∂ν i := by
  by_cases h : Nonempty (∀ i, X i)
  · obtain ⟨x⟩ := h
    rw [lintegral_eq_lmarginal_univ x, lmarginal_prod f hf]
    simp
  · have : ∃ i, IsEmpty (X i) := by
      by_contra h'
      push Not at h'
      exact h ⟨fun i => Classical.choice (by simpa using h' i)⟩
    obtain ⟨i, hi⟩ := this
    have e : IsEmpty (∀ i, X i) := not_nonempty_iff.mp h
    rw [lintegral_of_isEmpty, Finset.prod_eq_zero (Finset.mem_univ i)]
    exact lintegral_of_isEmpty _ _

/-- A product of measures with densities has the product of the densities. -/
theorem pi_withDensity (f : (i : ι) → X i → ℝ≥0∞) (hf : ∀ i, Measurable (f i))
    [∀ i, SigmaFinite ((ν i).withDensity (f i))] :
    Measure.pi (fun i => (ν i).withDensity (f i)) = (Measure.pi ν).withDensity fun x => ∏ i, f i (x i) := by
  refine Measure.pi_eq fun s hs => ?_
  rw [withDensity_apply _ (MeasurableSet.univ_pi hs), ← lintegral_indicator (MeasurableSet.univ_pi hs)]
  have : ∀ x : (∀ i, X i), (Set.univ.pi s).indicator (fun x => ∏ i, f i (x i)) x =
      ∏ i, (s i).indicator (f i) (x i) := by
    intro x
    by_cases h : x ∈ Set.univ.pi s
    · rw [Set.indicator_of_mem h]
      exact Finset.prod_congr rfl fun i _ => (Set.indicator_of_mem (h i (Set.mem_univ i)) _).symm
    · rw [Set.indicator_of_notMem h]
      have : ∃ i, x i ∉ s i := by simpa [Set.mem_pi] using h
      obtain ⟨i, hi⟩ := this
      rw [Finset.prod_eq_zero (Finset.mem_univ i)]
      exact Set.indicator_of_notMem hi _
  simp only [this]
  rw [lintegral_pi_prod _ fun i => (hf i).indicator (hs i)]
  exact Finset.prod_congr rfl fun i _ => by rw [withDensity_apply _ (hs i), ← lintegral_indicator (hs i)]

end SBayes.Meas
