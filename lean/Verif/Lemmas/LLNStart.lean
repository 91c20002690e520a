import Verif.Lemmas.MarkovLLN
import Mathlib.MeasureTheory.Measure.Decomposition.RadonNikodym
/- Averages along a chain: convergence in probability, for start distributions with a density. -/
namespace SBayes.Meas
open MeasureTheory ProbabilityTheory Filter Topology
open scoped BigOperators ENNReal

variable {X : Type} [MeasurableSpace X]

/-- Probabilities that vanish in the mean vanish in the mean of any distribution with a density. -/
theorem ac_tendsto_le {μ P : Measure X} [SigmaFinite μ] [IsFiniteMeasure P] (hone : P Set.univ ≤ 1) (hP : P ≪ μ) {p : ℕ → X → ℝ≥0∞}
    (hm : ∀ n, AEMeasurable (p n) μ) (h1 : ∀ n, ∀ᵐ x ∂μ, p n x ≤ 1) (h : Tendsto (fun n => ∫⁻ x, p n x ∂μ) atTop (𝓝 0)) :
    Tendsto (fun n => ∫⁻ x, p n x ∂P) atTop (𝓝 0) := by
  rw [ENNReal.tendsto_nhds_zero]
  intro ε hε
  have hε2 : ε / 2 ≠ 0 := by simp [hε.ne']
  by_cases htop : ε = ⊤
  · exact Eventually.of_forall fun n => by rw [htop]; exact le_top
  have hfin : ∫⁻ x, P.rnDeriv μ x ∂μ ≠ ⊤ := by
    rw [← setLIntegral_univ, ← withDensity_apply _ MeasurableSet.univ, Measure.withDensity_rnDeriv_eq P μ hP]
    exact measure_ne_top P _
  obtain ⟨δ, hδ, hδP⟩ := exists_pos_setLIntegral_lt_of_measure_lt hfin hε2
  have hlim : ∀ᶠ n in atTop, ∫⁻ x, p n x ∂μ < (ε / 2) * δ := by
    refine (tendsto_order.mp h).2 _ ?_
    exact (ENNReal.mul_pos hε2 hδ.ne')
  filter_upwards [hlim] with n hn
  set q := (hm n).mk (p n) with hq
  have hqm : Measurable q := (hm n).measurable_mk
  have hqe : p n =ᵐ[μ] q := (hm n).ae_eq_mk
  set S := {x | ε / 2 ≤ q x} with hS
  have hSm : MeasurableSet S := measurableSet_le measurable_const hqm
  have hε2t : ε / 2 ≠ ⊤ := ENNReal.div_ne_top htop two_ne_zero
  have hSμ : μ S < δ := by
    have := mul_meas_ge_le_lintegral hqm (ε / 2) (μ := μ)
    rw [← lintegral_congr_ae hqe] at this
    have := this.trans_lt hn
    exact (ENNReal.mul_lt_mul_iff_right hε2 hε2t).mp this
  have hSP : P S < ε / 2 := by
    have := hδP S hSμ
    rwa [← withDensity_apply _ hSm, Measure.withDensity_rnDeriv_eq P μ hP] at this
  calc ∫⁻ x, p n x ∂P ≤ ∫⁻ x, (S.indicator 1 x + ε / 2) ∂P := by
        refine lintegral_mono_ae ?_
        filter_upwards [hP.ae_le (h1 n), hP.ae_le hqe] with x hx1 hxe
        by_cases hx : x ∈ S
        · rw [Set.indicator_of_mem hx]
          exact hx1.trans le_self_add
        · rw [Set.indicator_of_notMem hx, zero_add, hxe]
          exact (not_le.mp hx).le
    _ ≤ P S + ε / 2 := by
        rw [lintegral_add_right _ measurable_const, lintegral_indicator_one hSm, lintegral_const]
        exact add_le_add le_rfl (mul_le_of_le_one_right' hone)
    _ ≤ ε / 2 + ε / 2 := by gcongr
    _ = ε := ENNReal.add_halves ε

theorem ac_tendsto {μ P : Measure X} [SigmaFinite μ] [IsProbabilityMeasure P] (hP : P ≪ μ) {p : ℕ → X → ℝ≥0∞}
    (hm : ∀ n, AEMeasurable (p n) μ) (h1 : ∀ n, ∀ᵐ x ∂μ, p n x ≤ 1) (h : Tendsto (fun n => ∫⁻ x, p n x ∂μ) atTop (𝓝 0)) :
    Tendsto (fun n => ∫⁻ x, p n x ∂P) atTop (𝓝 0) := ac_tendsto_le measure_univ.le hP hm h1 h

variable {μ : Measure X} [IsProbabilityMeasure μ] {K : Kernel X X} [IsMarkovKernel K]

/-- The average over the first `n` states is far from the mean with vanishing probability. -/
theorem lln_kernel (hK : K ∘ₘ μ = μ) (hE : Ergo μ K) {f : X → ℝ} {B c : ℝ} (h : Bdd f B) (hc : ∫ x, f x ∂μ = c) {ε : ℝ}
    (hε : 0 < ε) : Tendsto (fun n : ℕ => ∫⁻ x, sumKer K f n x {s | ε * n ≤ |s - n * c|} ∂μ) atTop (𝓝 0) := by
  have hB : |c| ≤ B := by
    rw [← hc]
    have := norm_integral_le_of_norm_le_const (μ := μ) (f := f) (C := B) (ae_of_all _ h.le)
    simpa using this
  have h2 := (second_mean hK hE h hc).const_mul (1 / ε ^ 2)
  rw [mul_zero] at h2
  have h3 : Tendsto (fun n : ℕ => ENNReal.ofReal (1 / ε ^ 2 * ((∫ x, second K f c n x ∂μ) / (n : ℝ) ^ 2))) atTop (𝓝 0) := by
    have := (ENNReal.continuous_ofReal.tendsto 0).comp h2
    rwa [ENNReal.ofReal_zero] at this
  refine tendsto_of_tendsto_of_tendsto_of_le_of_le' tendsto_const_nhds h3 (Eventually.of_forall fun _ => bot_le) ?_
  filter_upwards [eventually_gt_atTop 0] with n hn
  have hn' : (0 : ℝ) < n := by exact_mod_cast hn
  have hmk := sumKer_markov (K := K) h.meas n
  have hpt : ∀ x, sumKer K f n x {s | ε * n ≤ |s - n * c|} ≤ ENNReal.ofReal (1 / ε ^ 2 * (second K f c n x / (n : ℝ) ^ 2)) := by
    intro x
    have hms : Measurable fun s : ℝ => ENNReal.ofReal ((s - n * c) ^ 2) :=
      ((measurable_id.sub measurable_const).pow_const 2).ennreal_ofReal
    have hi2 : Integrable (fun s : ℝ => (s - n * c) ^ 2) (sumKer K f n x) :=
      sumKer_integrable h n x ((measurable_id.sub measurable_const).pow_const 2) fun s hs => sq_excess hB hs
    have hmarkov := mul_meas_ge_le_lintegral hms (ENNReal.ofReal ((ε * n) ^ 2)) (μ := sumKer K f n x)
    rw [← ofReal_integral_eq_lintegral_ofReal hi2 (ae_of_all _ fun s => sq_nonneg _)] at hmarkov
    have hsub : {s : ℝ | ε * n ≤ |s - n * c|} ⊆ {s | ENNReal.ofReal ((ε * n) ^ 2) ≤ ENNReal.ofReal ((s - n * c) ^ 2)} := by
      intro s hs
      refine ENNReal.ofReal_le_ofReal ?_
      rw [← sq_abs (s - n * c)]
      exact pow_le_pow_left₀ (by positivity) hs 2
    have hpos : (0 : ℝ) < (ε * n) ^ 2 := by positivity
    have h4 : ENNReal.ofReal ((ε * n) ^ 2) * sumKer K f n x {s | ε * n ≤ |s - n * c|} ≤ ENNReal.ofReal (second K f c n x) :=
      (mul_le_mul_right (measure_mono hsub) _).trans hmarkov
    have e : 1 / ε ^ 2 * (second K f c n x / (n : ℝ) ^ 2) = second K f c n x / (ε * n) ^ 2 := by
      field_simp
    rw [e, ENNReal.ofReal_div_of_pos hpos, ENNReal.le_div_iff_mul_le (Or.inl (ENNReal.ofReal_pos.mpr hpos).ne') (Or.inl ENNReal.ofReal_ne_top), mul_comm]
    exact h4
  refine (lintegral_mono hpt).trans_eq ?_
  have hb := second_bdd (K := K) h hB n
  have hi : Integrable (fun x => 1 / ε ^ 2 * (second K f c n x / (n : ℝ) ^ 2)) μ := ((hb.integrable μ).div_const _).const_mul _
  rw [← ofReal_integral_eq_lintegral_ofReal hi (ae_of_all _ fun x => ?_), integral_const_mul, integral_div]
  refine mul_nonneg (by positivity) (div_nonneg ?_ (by positivity))
  exact integral_nonneg fun s => sq_nonneg _

end SBayes.Meas
