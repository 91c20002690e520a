import Verif.Lemmas.Keeps
/- Laws without invariant sets have only one invariant distribution. -/
namespace SBayes.Meas
open MeasureTheory SBayes.MH SBayes.Kernel
open scoped BigOperators ENNReal

variable {X : Type} [MeasurableSpace X]

/-- The law never enters `A` from outside and never leaves it. -/
structure Splits (π : Measure X) (T : X → Law X) (A : Set X) : Prop where
  out : ∀ᵐ x ∂π, x ∉ A → T x (A.indicator 1) = 0
  stay : ∀ᵐ x ∂π, x ∈ A → T x (Aᶜ.indicator 1) = 0

/-- A random choice between laws: every law that can be chosen has the set. -/
theorem Splits.of_mix {π : Measure X} {α : Type} {l : Rand α} {T : α → X → Law X} {A : Set X}
    (h : Splits π (fun x => Law.bind (Law.ofRand l) fun a => T a x) A) {a : α} {p : ℝ} (ha : (a, p) ∈ l) (hp : 0 < p) :
    Splits π (T a) A := by
  have key : ∀ x (g : X → ℝ≥0∞), (Law.bind (Law.ofRand l) fun a => T a x) g = 0 → T a x g = 0 := by
    intro x g h0
    unfold Law.bind Law.ofRand at h0
    have := List.sum_eq_zero_iff.mp h0 (ENNReal.ofReal p * T a x g) (List.mem_map.mpr ⟨(a, p), ha, rfl⟩)
    rcases mul_eq_zero.mp this with h1 | h1
    · exact absurd (ENNReal.ofReal_eq_zero.mp h1) (not_le.mpr hp)
    · exact h1
  constructor
  · filter_upwards [h.out] with x hx hxA using key x _ (hx hxA)
  · filter_upwards [h.stay] with x hx hxA using key x _ (hx hxA)

/-- The sets where the density of an invariant distribution is large. -/
theorem splits_of_invariant {π : Measure X} [IsFiniteMeasure π] {T : X → Law X} (hT : Keeps π T)
    (hadd : ∀ x (f g : X → ℝ≥0∞), T x f + T x g ≤ T x fun y => f y + g y)
    (hone : ∀ᵐ x ∂π, T x 1 = 1) {h : X → ℝ≥0∞} (hh : Measurable h)
    (hfin : ∫⁻ x, h x ∂π ≠ ⊤) (hinv : ∀ B, MeasurableSet B → ∫⁻ x, h x * T x (B.indicator 1) ∂π = ∫⁻ x in B, h x ∂π)
    {c : ℝ≥0∞} (hc : c ≠ ⊤) : Splits π T {x | c < h x} := by
  classical
  set A := {x | c < h x} with hA
  have hAm : MeasurableSet A := measurableSet_lt measurable_const hh
  obtain ⟨m1, i1⟩ := hT _ (measurable_one.indicator hAm)
  rw [lintegral_indicator_one hAm] at i1
  obtain ⟨m2, i2⟩ := hT _ (measurable_one.indicator hAm.compl)
  rw [lintegral_indicator_one hAm.compl] at i2
  have hcompl : ∀ᵐ x ∂π, T x (A.indicator 1) + T x (Aᶜ.indicator 1) = 1 := by
    refine ae_eq_of_ae_le_of_lintegral_le (g := fun _ => 1) ?_ ?_ aemeasurable_const ?_
    · filter_upwards [hone] with x hx
      refine (hadd x _ _).trans (le_of_eq ?_)
      rw [← hx]
      congr 1
      funext y
      by_cases hy : y ∈ A <;> simp [hy]
    · rw [lintegral_add_left m1, i1, i2]
      exact ENNReal.add_ne_top.mpr ⟨measure_ne_top π A, measure_ne_top π _⟩
    · rw [lintegral_add_left m1, i1, i2, lintegral_const, one_mul, measure_add_measure_compl hAm]
  set t := fun x => T x (A.indicator 1) with ht
  have hle : ∀ᵐ x ∂π, t x ≤ 1 := by
    filter_upwards [hcompl] with x hx
    rw [← hx]
    exact le_self_add
  have hI := hinv A hAm
  have tm : Measurable t := m1
  have htm : Measurable fun x => h x * t x := hh.mul tm
  have um : Measurable fun x => 1 - t x := measurable_const.sub tm
  have hum : Measurable fun x => h x * (1 - t x) := hh.mul um
  have cum : Measurable fun x => c * (1 - t x) := measurable_const.mul um
  -- inside and outside
  have e1 : ∫⁻ x, t x ∂π = ∫⁻ x in A, t x ∂π + ∫⁻ x in Aᶜ, t x ∂π := (lintegral_add_compl _ hAm).symm
  have e2 : ∫⁻ x, h x * t x ∂π = ∫⁻ x in A, h x * t x ∂π + ∫⁻ x in Aᶜ, h x * t x ∂π := (lintegral_add_compl _ hAm).symm
  -- mass that is not kept inside `A`
  have e3 : ∫⁻ x in A, h x ∂π = ∫⁻ x in A, h x * t x ∂π + ∫⁻ x in A, h x * (1 - t x) ∂π := by
    rw [← lintegral_add_left htm]
    refine lintegral_congr_ae ((ae_restrict_of_ae hle).mono fun x hx => ?_)
    dsimp only
    rw [← mul_add, add_tsub_cancel_of_le hx, mul_one]
  have e4 : π A = ∫⁻ x in A, t x ∂π + ∫⁻ x in A, (1 - t x) ∂π := by
    rw [← lintegral_add_left tm, ← setLIntegral_one]
    refine lintegral_congr_ae ((ae_restrict_of_ae hle).mono fun x hx => ?_)
    dsimp only
    rw [add_tsub_cancel_of_le hx]
  have hfA : ∫⁻ x in A, h x * t x ∂π ≠ ⊤ := by
    refine ne_top_of_le_ne_top hfin ((setLIntegral_le_lintegral A _).trans ?_)
    refine lintegral_mono_ae (hle.mono fun x hx => ?_)
    exact (mul_le_mul_right hx (h x)).trans (mul_one _).le
  have htA : ∫⁻ x in A, t x ∂π ≠ ⊤ := by
    refine ne_top_of_le_ne_top (measure_ne_top π Set.univ) ((setLIntegral_le_lintegral A _).trans ?_)
    rw [← lintegral_one]
    exact lintegral_mono_ae hle
  have out : ∫⁻ x in Aᶜ, h x * t x ∂π = ∫⁻ x in A, h x * (1 - t x) ∂π := by
    have := hI.symm.trans e2
    rw [e3] at this
    exact ((ENNReal.add_right_inj hfA).mp this).symm
  have out' : ∫⁻ x in Aᶜ, t x ∂π = ∫⁻ x in A, (1 - t x) ∂π := by
    have := i1.symm.trans e1
    rw [e4] at this
    exact ((ENNReal.add_right_inj htA).mp this).symm
  -- `∫_A h (1 - t) = ∫_Aᶜ h t ≤ c ∫_Aᶜ t = c ∫_A (1 - t)`
  have hb : ∫⁻ x in A, h x * (1 - t x) ∂π ≤ ∫⁻ x in A, c * (1 - t x) ∂π := by
    rw [← out, lintegral_const_mul _ um, ← out', ← lintegral_const_mul _ tm]
    refine setLIntegral_mono' hAm.compl fun x hx => ?_
    exact mul_le_mul_left (not_lt.mp (show ¬ c < h x from hx)) _
  have hcfin : ∫⁻ x in A, c * (1 - t x) ∂π ≠ ⊤ := by
    rw [lintegral_const_mul _ um]
    refine ENNReal.mul_ne_top hc ?_
    have : ∫⁻ x in A, (1 - t x) ∂π ≤ π A := by rw [e4]; exact le_add_self
    exact ne_top_of_le_ne_top (measure_ne_top π A) this
  have hz : ∀ᵐ x ∂π.restrict A, 1 - t x = 0 := by
    have hdiff : ∫⁻ x in A, (h x * (1 - t x) - c * (1 - t x)) ∂π = 0 := by
      rw [lintegral_sub cum hcfin]
      · exact tsub_eq_zero_of_le hb
      · refine (ae_restrict_mem hAm).mono fun x hx => ?_
        exact mul_le_mul_left (le_of_lt hx) _
    rw [lintegral_eq_zero_iff (show Measurable fun x => h x * (1 - t x) - c * (1 - t x) from hum.sub cum)] at hdiff
    filter_upwards [hdiff, ae_restrict_mem hAm] with x hx hxA
    by_contra hne
    have h1 : h x * (1 - t x) ≤ c * (1 - t x) := tsub_eq_zero_iff_le.mp hx
    have h2 : 1 - t x ≠ ⊤ := ne_top_of_le_ne_top ENNReal.one_ne_top tsub_le_self
    exact absurd ((ENNReal.mul_le_mul_iff_left hne h2).mp h1) (not_le.mpr hxA)
  constructor
  · have h0 : ∫⁻ x in Aᶜ, t x ∂π = 0 := by
      rw [out', lintegral_congr_ae hz]
      simp
    rw [lintegral_eq_zero_iff tm] at h0
    exact (ae_restrict_iff' hAm.compl).mp h0
  · have := (ae_restrict_iff' hAm).mp hz
    filter_upwards [this, hcompl] with x hx hx1 hxA
    have ht1 : 1 ≤ t x := tsub_eq_zero_iff_le.mp (hx hxA)
    have h2 : T x (A.indicator 1) = t x := rfl
    rw [h2] at hx1
    have : t x = 1 := le_antisymm (by rw [← hx1]; exact le_self_add) ht1
    rw [this] at hx1
    have := (ENNReal.add_right_inj (b := T x (Aᶜ.indicator 1)) (c := 0) ENNReal.one_ne_top).mp (by rw [hx1, add_zero])
    exact this

/-- A function whose upper sets are trivial is constant. -/
theorem ae_const_of_levels {π : Measure X} {h : X → ℝ≥0∞} (htriv : ∀ c : ℝ≥0∞, c ≠ ⊤ → (∀ᵐ x ∂π, c < h x) ∨ ∀ᵐ x ∂π, ¬ c < h x)
    : ∃ c, ∀ᵐ x ∂π, h x = c := by
  obtain ⟨s, hs, hd⟩ := TopologicalSpace.exists_countable_dense ℝ≥0∞
  set B := {c : ℝ≥0∞ | ∀ᵐ x ∂π, c ≤ h x} with hB
  refine ⟨sSup B, ?_⟩
  have hlow : ∀ᵐ x ∂π, sSup B ≤ h x := by
    obtain ⟨u, -, hu, hux⟩ := exists_seq_tendsto_sSup (S := B) ⟨0, ae_of_all _ fun x => bot_le⟩ (OrderTop.bddAbove B)
    have : ∀ᵐ x ∂π, ∀ n, u n ≤ h x := ae_all_iff.mpr hux
    filter_upwards [this] with x hx
    exact le_of_tendsto' hu hx
  have hup : ∀ᵐ x ∂π, ∀ c ∈ s, sSup B < c → h x ≤ c := by
    rw [ae_ball_iff hs]
    intro c _
    by_cases hcB : sSup B < c
    · by_cases hct : c = ⊤
      · exact ae_of_all _ fun x _ => hct ▸ le_top
      rcases htriv c hct with h1 | h1
      · have : c ∈ B := h1.mono fun x hx => hx.le
        exact absurd (le_sSup this) (not_le.mpr hcB)
      · exact h1.mono fun x hx _ => not_lt.mp hx
    · exact ae_of_all _ fun x h' => absurd h' hcB
  filter_upwards [hlow, hup] with x h1 h2
  refine le_antisymm ?_ h1
  by_contra hlt
  obtain ⟨c, hcs, hc⟩ := hd.exists_between (not_le.mp hlt)
  exact absurd (h2 c hcs hc.1) (not_le.mpr hc.2)

/-- A law that leaves `π` invariant and has only trivial invariant sets has no other invariant distribution with a density. -/
theorem unique_invariant {π : Measure X} [IsFiniteMeasure π] {T : X → Law X} (hT : Keeps π T)
    (hadd : ∀ x (f g : X → ℝ≥0∞), T x f + T x g ≤ T x fun y => f y + g y)
    (hone : ∀ᵐ x ∂π, T x 1 = 1)
    (htriv : ∀ A, MeasurableSet A → Splits π T A → (∀ᵐ x ∂π, x ∈ A) ∨ ∀ᵐ x ∂π, x ∉ A)
    {P : Measure X} [IsProbabilityMeasure P] (hP : P ≪ π)
    (hinv : ∀ B, MeasurableSet B → ∫⁻ x, T x (B.indicator 1) ∂P = P B) : P = (π Set.univ)⁻¹ • π := by
  set h := P.rnDeriv π with hh
  have hm : Measurable h := P.measurable_rnDeriv π
  have hwd : π.withDensity h = P := Measure.withDensity_rnDeriv_eq P π hP
  have hfin : ∫⁻ x, h x ∂π ≠ ⊤ := by
    rw [← setLIntegral_univ, ← withDensity_apply _ MeasurableSet.univ, hwd]
    exact measure_ne_top P _
  obtain ⟨c, hc⟩ := ae_const_of_levels (π := π) (h := h) fun c hc => by
    refine htriv _ (measurableSet_lt measurable_const hm) (splits_of_invariant hT hadd hone hm hfin (fun B hB => ?_) hc)
    rw [← withDensity_apply _ hB, hwd, ← hinv B hB, ← hwd,
      lintegral_withDensity_eq_lintegral_mul _ hm (hT _ (measurable_one.indicator hB)).1]
    rfl
  have hPc : P = c • π := by
    rw [← hwd, withDensity_congr_ae (g := fun _ => c) hc, withDensity_const]
  have h1 : c * π Set.univ = 1 := by
    have : P Set.univ = 1 := measure_univ
    rwa [hPc, Measure.smul_apply, smul_eq_mul] at this
  have h0 : π Set.univ ≠ 0 := fun h => by rw [h, mul_zero] at h1; exact zero_ne_one h1
  rw [hPc, ← ENNReal.eq_inv_of_mul_eq_one_left h1]

end SBayes.Meas
