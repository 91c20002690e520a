import Verif.Lemmas.Thin
/- Averages over the log. -/
namespace SBayes.Meas
set_option linter.unusedSectionVars false
open SBayes.MH SBayes.Kernel MeasureTheory Filter Topology
open scoped BigOperators ENNReal

variable {X : Type} [MeasurableSpace X] {π : Measure X}

theorem close_of_close {ε B c t v : ℝ} {q : ℕ} (hB : |c| ≤ B) (hv : |v| ≤ B) (hq : 2 * B ≤ ε / 2 * q) (hε : 0 < ε)
    (h : |t - q * c| < ε / 2 * q) : |(v + t) / ((q + 1 : ℕ) : ℝ) - c| < ε := by
  have hq1 : (0 : ℝ) < ((q + 1 : ℕ) : ℝ) := by positivity
  have e : (v + t) / ((q + 1 : ℕ) : ℝ) - c = ((t - q * c) + (v - c)) / ((q + 1 : ℕ) : ℝ) := by
    field_simp
    push_cast
    ring
  rw [e, abs_div, abs_of_pos hq1, div_lt_iff₀ hq1]
  have h1 := abs_add_le (t - q * c) (v - c)
  have h2 := abs_sub v c
  push_cast
  linarith

/-- The averages over the log converge in probability. -/
theorem lln_law [IsFiniteMeasure π] {T : X → Law X} (hT : Keeps π T) (hsup : ∀ x, Super (T x))
    {K : ProbabilityTheory.Kernel X X} [ProbabilityTheory.IsMarkovKernel K] (hR : Represents π T K) {s : ℕ} (hs : 0 < s)
    (htriv : ∀ A, MeasurableSet A → Splits π (run T s) A → (∀ᵐ x ∂π, x ∈ A) ∨ ∀ᵐ x ∂π, x ∉ A)
    {P : Measure X} [IsProbabilityMeasure P] (hP : P ≪ π) {f : X → ℝ} {B : ℝ} (hf : Bdd f B) {ε : ℝ} (hε : 0 < ε) :
    Tendsto (fun q : ℕ => ∫⁻ x, (sampleLoop T s (s * q + 1) 0 x).prob
      {l | |(l.map f).sum / (l.length : ℝ) - (∫ x, f x ∂π) / (π Set.univ).toReal| < ε} ∂P) atTop (𝓝 1) := by
  have h0 : π Set.univ ≠ 0 := fun h => by
    have := hP h
    rw [measure_univ] at this
    exact one_ne_zero this
  have hi0 : (π Set.univ)⁻¹ ≠ 0 := ENNReal.inv_ne_zero.mpr (measure_ne_top _ _)
  have hit : (π Set.univ)⁻¹ ≠ ⊤ := ENNReal.inv_ne_top.mpr h0
  set μ : Measure X := (π Set.univ)⁻¹ • π with hμ
  have hμp : IsProbabilityMeasure μ := ⟨by
    rw [hμ, Measure.smul_apply, smul_eq_mul, ENNReal.inv_mul_cancel h0 (measure_ne_top _ _)]⟩
  have hμπ : μ ≪ π := Measure.smul_absolutelyContinuous
  have hπμ : π ≪ μ := Measure.absolutelyContinuous_smul hi0
  set c := (∫ x, f x ∂π) / (π Set.univ).toReal with hcdef
  have hc : ∫ x, f x ∂μ = c := by
    rw [hμ, integral_smul_measure, ENNReal.toReal_inv, smul_eq_mul, hcdef, div_eq_inv_mul]
  have hB : |c| ≤ B := by
    rw [← hc]
    have := norm_integral_le_of_norm_le_const (μ := μ) (f := f) (C := B) (ae_of_all _ hf.le)
    simpa using this
  obtain ⟨K', hK'm, hR'⟩ := run_isMeas hR hT hsup s
  have hTs : Keeps π (run T s) := Keeps.run hT s
  have hsups := super_run hsup s
  have hinv : Measure.bind μ K' = μ := by
    rw [hμ, Measure.bind_smul, hR'.invariant hTs]
  have hErgo : Ergo μ K' := by
    intro A hA h1 h2
    have hsp : Splits π (run T s) A := by
      constructor
      · filter_upwards [hπμ.ae_le h1, hR'] with x hx hRx hxA
        rw [hRx _ (measurable_one.indicator hA), lintegral_indicator_one hA]
        exact hx hxA
      · filter_upwards [hπμ.ae_le h2, hR'] with x hx hRx hxA
        rw [hRx _ (measurable_one.indicator hA.compl), lintegral_indicator_one hA.compl]
        exact hx hxA
    exact (htriv A hA hsp).imp (fun h => hμπ.ae_le h) fun h => hμπ.ae_le h
  have hlln := lln_kernel hinv hErgo hf hc (half_pos hε)
  have hmk : ∀ n, ProbabilityTheory.IsMarkovKernel (sumKer K' f n) := fun n => sumKer_markov hf.meas n
  -- the events
  set Gd : ℕ → Set (X × ℝ) := fun q => {p | |(f p.1 + p.2) / ((q + 1 : ℕ) : ℝ) - c| < ε} with hGd
  have hGm : ∀ q, MeasurableSet (Gd q) := fun q => by
    have : Measurable fun p : X × ℝ => |(f p.1 + p.2) / ((q + 1 : ℕ) : ℝ) - c| := by
      have h1 : Measurable fun p : X × ℝ => (f p.1 + p.2) / ((q + 1 : ℕ) : ℝ) - c :=
        (((hf.meas.comp measurable_fst).add measurable_snd).div_const _).sub_const _
      exact measurable_norm.comp h1
    exact measurableSet_lt this measurable_const
  set Hd : ℕ → X → ℝ≥0∞ := fun q y => ∫⁻ t, (Gd q).indicator 1 (y, t) ∂sumKer K' f q y with hHd
  set Bd : ℕ → X → ℝ≥0∞ := fun q y => ∫⁻ t, (Gd q)ᶜ.indicator 1 (y, t) ∂sumKer K' f q y with hBd
  have hHm : ∀ q, Measurable (Hd q) := fun q =>
    Measurable.lintegral_kernel_prod_right' (κ := sumKer K' f q) (f := (Gd q).indicator 1) (measurable_one.indicator (hGm q))
  have hBm : ∀ q, Measurable (Bd q) := fun q =>
    Measurable.lintegral_kernel_prod_right' (κ := sumKer K' f q) (f := (Gd q)ᶜ.indicator 1) (measurable_one.indicator (hGm q).compl)
  have hsum : ∀ q y, Hd q y + Bd q y = 1 := by
    intro q y
    have hm1 : Measurable fun t => (Gd q).indicator (1 : X × ℝ → ℝ≥0∞) (y, t) :=
      (measurable_one.indicator (hGm q)).comp (measurable_const.prodMk measurable_id)
    rw [hHd, hBd]
    dsimp only
    rw [← lintegral_add_left hm1]
    have : ∀ t, (Gd q).indicator (1 : X × ℝ → ℝ≥0∞) (y, t) + (Gd q)ᶜ.indicator 1 (y, t) = 1 := fun t => by
      by_cases h : (y, t) ∈ Gd q <;> simp [h]
    simp only [this, lintegral_one, measure_univ]
  have hBle : ∀ q y, Bd q y ≤ 1 := fun q y => by rw [← hsum q y]; exact le_add_self
  have hBp : ∀ᶠ q in atTop, ∀ y, Bd q y ≤ sumKer K' f q y {t | ε / 2 * q ≤ |t - q * c|} := by
    have hlarge : ∀ᶠ q : ℕ in atTop, 2 * B ≤ ε / 2 * q := by
      have : Tendsto (fun q : ℕ => ε / 2 * (q : ℝ)) atTop atTop := tendsto_natCast_atTop_atTop.const_mul_atTop (half_pos hε)
      exact this.eventually_ge_atTop _
    filter_upwards [hlarge] with q hq y
    have hms : MeasurableSet {t : ℝ | ε / 2 * q ≤ |t - q * c|} :=
      measurableSet_le measurable_const (measurable_norm.comp (measurable_id.sub measurable_const))
    rw [← lintegral_indicator_one hms]
    refine lintegral_mono fun t => ?_
    by_cases ht : t ∈ {t : ℝ | ε / 2 * q ≤ |t - q * c|}
    · rw [Set.indicator_of_mem ht]
      exact Set.indicator_le_self' (fun _ _ => zero_le_one) _
    · have : (y, t) ∉ (Gd q)ᶜ := fun h => h (close_of_close hB (hf.le y) hq hε (not_le.mp ht))
      rw [Set.indicator_of_notMem this]
      exact bot_le
  -- what the loop gives
  have hloop : ∀ q, ∀ᵐ x ∂π, (sampleLoop T s (s * q + 1) 0 x).prob {l | |(l.map f).sum / (l.length : ℝ) - c| < ε} = ∫⁻ y, Hd q y ∂K x := by
    intro q
    have hfur := further_sum hR' hTs hsups hf.meas q
    filter_upwards [hR.null_ae hT hsup hfur] with x hx
    unfold Law.prob
    rw [sampleLoop_further T hs q 0 (Nat.zero_mod s) x]
    refine hx _ _ (hHm q) fun y hy => ?_
    have hgm : Measurable fun t => (Gd q).indicator (1 : X × ℝ → ℝ≥0∞) (y, t) :=
      (measurable_one.indicator (hGm q)).comp (measurable_const.prodMk measurable_id)
    have := hy _ hgm
    show further T s q y (fun l => _) = Hd q y
    rw [hHd]
    dsimp only
    rw [← this]
    refine further_length T s q y fun l hl => ?_
    have hiff : y :: l ∈ {l : List X | |(l.map f).sum / (l.length : ℝ) - c| < ε} ↔ (y, (l.map f).sum) ∈ Gd q := by
      rw [hGd, Set.mem_ofPred_eq, Set.mem_ofPred_eq, List.map_cons, List.sum_cons, List.length_cons, hl]
    by_cases h : (y, (l.map f).sum) ∈ Gd q
    · rw [Set.indicator_of_mem h]
      exact Set.indicator_of_mem (hiff.mpr h) 1
    · rw [Set.indicator_of_notMem h]
      exact Set.indicator_of_notMem (fun h' => h (hiff.mp h')) 1
  have hbad : Tendsto (fun q => ∫⁻ x, (∫⁻ y, Bd q y ∂K x) ∂P) atTop (𝓝 0) := by
    refine ac_tendsto (μ := μ) (hP.trans hπμ) (fun q => (hBm q).lintegral_kernel.aemeasurable) (fun q => ae_of_all _ fun x => ?_) ?_
    · refine (lintegral_mono (hBle q)).trans ?_
      simp
    · have hstep : ∀ q, ∫⁻ x, (∫⁻ y, Bd q y ∂K x) ∂μ = ∫⁻ y, Bd q y ∂μ := by
        intro q
        rw [← Measure.lintegral_bind K.measurable.aemeasurable (hBm q).aemeasurable, hμ, Measure.bind_smul, hR.invariant hT]
      simp only [hstep]
      refine tendsto_of_tendsto_of_tendsto_of_le_of_le' tendsto_const_nhds hlln (Eventually.of_forall fun _ => bot_le) ?_
      filter_upwards [hBp] with q hq using lintegral_mono hq
  have hgood : ∀ q, ∫⁻ x, (sampleLoop T s (s * q + 1) 0 x).prob {l | |(l.map f).sum / (l.length : ℝ) - c| < ε} ∂P =
      1 - ∫⁻ x, (∫⁻ y, Bd q y ∂K x) ∂P := by
    intro q
    rw [lintegral_congr_ae (hP.ae_le (hloop q))]
    have e : ∫⁻ x, (∫⁻ y, Hd q y ∂K x) ∂P + ∫⁻ x, (∫⁻ y, Bd q y ∂K x) ∂P = 1 := by
      rw [← lintegral_add_left (hHm q).lintegral_kernel]
      have : ∀ x, ∫⁻ y, Hd q y ∂K x + ∫⁻ y, Bd q y ∂K x = 1 := fun x => by
        rw [← lintegral_add_left (hHm q)]
        simp only [hsum, lintegral_one, measure_univ]
      simp only [this, lintegral_one, measure_univ]
    refine ENNReal.eq_sub_of_add_eq ?_ e
    exact ne_top_of_le_ne_top ENNReal.one_ne_top (e ▸ le_add_self)
  simp only [hgood]
  have := ENNReal.Tendsto.sub (tendsto_const_nhds (x := (1 : ℝ≥0∞))) hbad (Or.inl ENNReal.one_ne_top)
  rwa [tsub_zero] at this

end SBayes.Meas
