import Verif.Lemmas.KernelOn
/- Averages along a chain, from every point. -/
namespace SBayes.Meas
set_option linter.unusedSectionVars false
open SBayes.MH SBayes.Kernel MeasureTheory Filter Topology
open scoped BigOperators ENNReal

variable {X : Type} [MeasurableSpace X] {G : Set X} {κ : ProbabilityTheory.Kernel X X} [ProbabilityTheory.IsMarkovKernel κ]

/-- How likely the sum over `q` states is off by `r` or more. -/
noncomputable def dev (κ : ProbabilityTheory.Kernel X X) (f : X → ℝ) (c : ℝ) (q : ℕ) (r : ℝ) (x : X) : ℝ≥0∞ :=
  sumKer κ f q x {t | r ≤ |t - q * c|}

theorem devSet_meas (q : ℕ) (r c : ℝ) : MeasurableSet {t : ℝ | r ≤ |t - q * c|} :=
  measurableSet_le measurable_const (measurable_norm.comp (measurable_id.sub measurable_const))

variable {f : X → ℝ} {B c : ℝ}

theorem dev_meas (q : ℕ) (r : ℝ) : Measurable (dev κ f c q r) := ProbabilityTheory.Kernel.measurable_coe _ (devSet_meas q r c)

theorem dev_le_one (hf : Bdd f B) (q : ℕ) (r : ℝ) (x : X) : dev κ f c q r x ≤ 1 := by
  have := sumKer_markov (K := κ) hf.meas q
  exact prob_le_one

theorem dev_mono (q : ℕ) {r r' : ℝ} (h : r' ≤ r) (x : X) : dev κ f c q r x ≤ dev κ f c q r' x :=
  measure_mono fun _ ht => h.trans ht

theorem dev_succ (hf : Bdd f B) (hc : |c| ≤ B) (q : ℕ) (r : ℝ) (x : X) : dev κ f c (q + 1) r x ≤ ∫⁻ y, dev κ f c q (r - 2 * B) y ∂κ x := by
  unfold dev
  rw [← lintegral_indicator_one (devSet_meas (q + 1) r c), lintegral_sumKer_succ hf.meas q x (measurable_one.indicator (devSet_meas _ _ _))]
  refine lintegral_mono fun y => ?_
  rw [← lintegral_indicator_one (devSet_meas q (r - 2 * B) c)]
  refine lintegral_mono fun t => ?_
  by_cases ht : t ∈ {t : ℝ | r - 2 * B ≤ |t - q * c|}
  · rw [Set.indicator_of_mem ht]
    exact Set.indicator_le_self' (fun _ _ => zero_le_one) _
  · have : t + f y ∉ {t : ℝ | r ≤ |t - (q + 1 : ℕ) * c|} := by
      intro h
      refine ht ?_
      have h' : r ≤ |t + f y - (q + 1 : ℕ) * c| := h
      show r - 2 * B ≤ |t - q * c|
      have e : t + f y - ((q + 1 : ℕ) : ℝ) * c = (t - q * c) + (f y - c) := by push_cast; ring
      rw [e] at h'
      have h1 := abs_add_le (t - q * c) (f y - c)
      have h2 := abs_sub (f y) c
      have h3 := hf.le y
      linarith
    rw [Set.indicator_of_notMem this]
    exact bot_le

theorem dev_add (hf : Bdd f B) (hc : |c| ≤ B) (q m : ℕ) (r : ℝ) (x : X) :
    dev κ f c (q + m) r x ≤ ∫⁻ y, dev κ f c q (r - m * (2 * B)) y ∂kpow κ m x := by
  induction m generalizing r x with
  | zero =>
    show _ ≤ ∫⁻ y, dev κ f c q (r - ((0 : ℕ) : ℝ) * (2 * B)) y ∂(ProbabilityTheory.Kernel.id : ProbabilityTheory.Kernel X X) x
    rw [ProbabilityTheory.Kernel.id_apply, lintegral_dirac' _ (dev_meas _ _), Nat.cast_zero, zero_mul, sub_zero, Nat.add_zero]
  | succ m ih =>
    show dev κ f c ((q + m) + 1) r x ≤ ∫⁻ y, dev κ f c q (r - ((m + 1 : ℕ) : ℝ) * (2 * B)) y ∂((kpow κ m).comp κ) x
    rw [ProbabilityTheory.Kernel.lintegral_comp _ _ _ (dev_meas _ _)]
    refine (dev_succ hf hc _ r x).trans (lintegral_mono fun y => ?_)
    refine (ih (r - 2 * B) y).trans (le_of_eq ?_)
    have : r - 2 * B - m * (2 * B) = r - ((m + 1 : ℕ) : ℝ) * (2 * B) := by push_cast; ring
    rw [this]

variable {μ : Measure X} [IsProbabilityMeasure μ]

/-- **Averages converge from every point of the set.** -/
theorem dev_tendsto (hinv : Measure.bind μ κ = μ) (hE : Ergo μ κ)
    (hvan : ∀ B, MeasurableSet B → μ B = 0 → ∀ x ∈ G, Tendsto (fun n => kpow κ n x B) atTop (𝓝 0))
    (hf : Bdd f B) (hc : ∫ x, f x ∂μ = c) {ε : ℝ} (hε : 0 < ε) : ∀ x ∈ G, Tendsto (fun q : ℕ => dev κ f c q (ε * q) x) atTop (𝓝 0) := by
  intro x hx
  have hB : |c| ≤ B := by
    rw [← hc]
    have := norm_integral_le_of_norm_le_const (μ := μ) (f := f) (C := B) (ae_of_all _ hf.le)
    simpa using this
  -- the null set that the chain might visit
  set N : ℕ → Set X := fun n => (Measure.mutuallySingular_singularPart (kpow κ n x) μ).nullSetᶜ with hN
  have hNm : ∀ n, MeasurableSet (N n) := fun n => (Measure.mutuallySingular_singularPart (kpow κ n x) μ).measurableSet_nullSet.compl
  have hN0 : ∀ n, μ (N n) = 0 := fun n => (Measure.mutuallySingular_singularPart (kpow κ n x) μ).measure_compl_nullSet
  set U := ⋃ n, N n with hU
  have hUm : MeasurableSet U := MeasurableSet.iUnion hNm
  have hU0 : μ U = 0 := measure_iUnion_null hN0
  have hac : ∀ n, (kpow κ n x).restrict Uᶜ ≪ μ := by
    intro n
    refine Measure.AbsolutelyContinuous.mk fun A hA hA0 => ?_
    rw [Measure.restrict_apply hA, Measure.haveLebesgueDecomposition_add (kpow κ n x) μ, Measure.add_apply]
    have h1 : (kpow κ n x).singularPart μ (A ∩ Uᶜ) = 0 := by
      refine measure_mono_null (fun y hy => ?_) (Measure.mutuallySingular_singularPart (kpow κ n x) μ).measure_nullSet
      by_contra h
      exact hy.2 (Set.mem_iUnion.mpr ⟨n, h⟩)
    have h2 : μ.withDensity ((kpow κ n x).rnDeriv μ) (A ∩ Uᶜ) = 0 :=
      withDensity_absolutelyContinuous μ _ (measure_mono_null Set.inter_subset_left hA0)
    rw [h1, h2, add_zero]
  -- for every number of steps, the limit is at most the probability of that set
  have hle : ∀ n, limsup (fun q : ℕ => dev κ f c q (ε * q) x) atTop ≤ kpow κ n x U := by
    intro n
    have h1 : Tendsto (fun q : ℕ => ∫⁻ y, dev κ f c q (ε / 2 * q) y ∂(kpow κ n x).restrict Uᶜ) atTop (𝓝 0) := by
      refine ac_tendsto_le (μ := μ) ?_ (hac n) (fun q => (dev_meas q _).aemeasurable) (fun q => ae_of_all _ fun y => dev_le_one hf q _ y)
        (lln_kernel hinv hE hf hc (half_pos hε))
      rw [Measure.restrict_apply_univ]
      exact prob_le_one
    have h2 : ∀ᶠ q : ℕ in atTop, dev κ f c (q + n) (ε * ((q + n : ℕ) : ℝ)) x ≤
        ∫⁻ y, dev κ f c q (ε / 2 * q) y ∂(kpow κ n x).restrict Uᶜ + kpow κ n x U := by
      have hlarge : ∀ᶠ q : ℕ in atTop, n * (2 * B) ≤ ε / 2 * q := by
        have : Tendsto (fun q : ℕ => ε / 2 * (q : ℝ)) atTop atTop := tendsto_natCast_atTop_atTop.const_mul_atTop (half_pos hε)
        exact this.eventually_ge_atTop _
      filter_upwards [hlarge] with q hq
      refine (dev_add hf hB q n _ x).trans ?_
      rw [← lintegral_add_compl _ hUm.compl, compl_compl]
      refine add_le_add (lintegral_mono fun y => dev_mono q ?_ y) ?_
      · push_cast
        have : 0 ≤ ε * n := by positivity
        linarith
      · calc ∫⁻ y in U, dev κ f c q (ε * ((q + n : ℕ) : ℝ) - n * (2 * B)) y ∂kpow κ n x ≤ ∫⁻ _ in U, 1 ∂kpow κ n x :=
            lintegral_mono fun y => dev_le_one hf q _ y
          _ = kpow κ n x U := by rw [lintegral_one, Measure.restrict_apply_univ]
    have h3 : Tendsto (fun q : ℕ => ∫⁻ y, dev κ f c q (ε / 2 * q) y ∂(kpow κ n x).restrict Uᶜ + kpow κ n x U) atTop (𝓝 (kpow κ n x U)) := by
      have := h1.add (tendsto_const_nhds (x := kpow κ n x U))
      rwa [zero_add] at this
    rw [← limsup_nat_add _ n]
    exact (limsup_le_limsup h2).trans h3.limsup_eq.le
  have hlim : limsup (fun q : ℕ => dev κ f c q (ε * q) x) atTop ≤ 0 := ge_of_tendsto' (hvan U hUm hU0 x hx) hle
  exact tendsto_of_le_liminf_of_limsup_le bot_le hlim

end SBayes.Meas
