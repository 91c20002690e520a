import Verif.Lemmas.StrongLoop
import Verif.Lemmas.LawPoint
/- Averages over the log settle, from every point. -/
namespace SBayes.Meas
set_option linter.unusedSectionVars false
open SBayes.MH SBayes.Kernel MeasureTheory Filter Topology
open scoped BigOperators ENNReal

variable {X : Type} [MeasurableSpace X] {π : Measure X} {G : Set X} {κ : ProbabilityTheory.Kernel X X} [ProbabilityTheory.IsMarkovKernel κ]
variable {f : X → ℝ} {B c : ℝ}

/-! ### Any number of first states does not matter -/

/-- The excess is large up to `r`, at some time. -/
def badR (f : X → ℝ) (c ε r : ℝ) (n0 n : ℕ) : Set (Path X n) := {p | ∃ m, n0 ≤ m ∧ m ≤ n ∧ ε * m - r ≤ |psum (fun x => f x - c) n m p|}

theorem badR_meas (hf : Measurable f) (c ε r : ℝ) (n0 n : ℕ) : MeasurableSet (badR f c ε r n0 n) := by
  have e : badR f c ε r n0 n = ⋃ m, ({_p | n0 ≤ m} ∩ ({_p | m ≤ n} ∩ {p | ε * m - r ≤ |psum (fun x => f x - c) n m p|})) := by
    ext p
    rw [Set.mem_iUnion]
    rfl
  rw [e]
  refine MeasurableSet.iUnion fun m => (MeasurableSet.const _).inter ((MeasurableSet.const _).inter ?_)
  exact measurableSet_le measurable_const (measurable_norm.comp (psum_meas (hf.sub measurable_const) n m))

theorem badR_succ (hf : Bdd f B) (hc : |c| ≤ B) {ε : ℝ} (hε : 0 ≤ ε) (r : ℝ) (n0 n : ℕ) (x : X) :
    pathKer κ (n + 1) x (badR f c ε r (n0 + 1) (n + 1)) ≤ ∫⁻ y, pathKer κ n y (badR f c ε (r + 2 * B) n0 n) ∂κ x := by
  have h1 := badR_meas hf.meas c ε r (n0 + 1) (n + 1)
  rw [← lintegral_indicator_one h1]
  have hG : Measurable fun p : X × Path X n => (badR f c ε r (n0 + 1) (n + 1)).indicator (1 : Path X (n + 1) → ℝ≥0∞) p :=
    measurable_one.indicator h1
  refine (lintegral_pathKer_succ n x hG).trans_le (lintegral_mono fun y => ?_)
  rw [← lintegral_indicator_one (badR_meas hf.meas c ε (r + 2 * B) n0 n)]
  refine lintegral_mono fun p => ?_
  by_cases hp : p ∈ badR f c ε (r + 2 * B) n0 n
  · rw [Set.indicator_of_mem hp]
    exact Set.indicator_le_self' (fun _ _ => zero_le_one) _
  · have : ((y, p) : Path X (n + 1)) ∉ badR f c ε r (n0 + 1) (n + 1) := by
      rintro ⟨m, h2, h3, h4⟩
      obtain ⟨k, rfl⟩ : ∃ k, m = k + 1 := ⟨m - 1, by omega⟩
      refine hp ⟨k, by omega, by omega, ?_⟩
      have e : psum (fun x => f x - c) (n + 1) (k + 1) (y, p) = psum (fun x => f x - c) n k p + (f y - c) := rfl
      rw [e] at h4
      have h5 := abs_add_le (psum (fun x => f x - c) n k p) (f y - c)
      have h6 := abs_sub (f y) c
      have h7 := hf.le y
      push_cast at h4
      linarith
    exact (Set.indicator_of_notMem (α := Path X (n + 1)) this _).trans_le bot_le

theorem badR_add (hf : Bdd f B) (hc : |c| ≤ B) {ε : ℝ} (hε : 0 ≤ ε) (n0 n m : ℕ) (r : ℝ) (x : X) :
    pathKer κ (n + m) x (badR f c ε r (n0 + m) (n + m)) ≤ ∫⁻ y, pathKer κ n y (badR f c ε (r + m * (2 * B)) n0 n) ∂kpow κ m x := by
  induction m generalizing r x with
  | zero =>
    show _ ≤ ∫⁻ y, pathKer κ n y (badR f c ε (r + ((0 : ℕ) : ℝ) * (2 * B)) n0 n) ∂(ProbabilityTheory.Kernel.id : ProbabilityTheory.Kernel X X) x
    rw [ProbabilityTheory.Kernel.id_apply, lintegral_dirac' _ (ProbabilityTheory.Kernel.measurable_coe _ (badR_meas hf.meas _ _ _ _ _)),
      Nat.cast_zero, zero_mul, add_zero r]
    rfl
  | succ m ih =>
    show pathKer κ ((n + m) + 1) x (badR f c ε r ((n0 + m) + 1) ((n + m) + 1)) ≤
      ∫⁻ y, pathKer κ n y (badR f c ε (r + ((m + 1 : ℕ) : ℝ) * (2 * B)) n0 n) ∂((kpow κ m).comp κ) x
    rw [ProbabilityTheory.Kernel.lintegral_comp _ _ _ (ProbabilityTheory.Kernel.measurable_coe _ (badR_meas hf.meas _ _ _ _ _))]
    refine (badR_succ hf hc hε r _ _ x).trans (lintegral_mono fun y => ?_)
    refine (ih (r + 2 * B) y).trans (le_of_eq ?_)
    have : r + 2 * B + m * (2 * B) = r + ((m + 1 : ℕ) : ℝ) * (2 * B) := by push_cast; ring
    rw [this]

theorem badR_le {ε r : ℝ} {n0 : ℕ} (hr : r ≤ ε / 2 * n0) (hε : 0 < ε) (n : ℕ) :
    badR f c ε r n0 n ⊆ (badPath f c (ε / 2) n0 n : Set (Path X n)) := by
  rintro p ⟨m, h1, h2, h3⟩
  refine ⟨m, h1, h2, ?_⟩
  have h4 : ε / 2 * n0 ≤ ε / 2 * m := mul_le_mul_of_nonneg_left (by exact_mod_cast h1) (by positivity)
  linarith

theorem badPath_eq {ε : ℝ} (n0 n : ℕ) : (badPath f c ε n0 n : Set (Path X n)) = badR f c ε 0 n0 n := by
  unfold badPath badR
  simp only [sub_zero]

/-- How likely the averages are off at some time from the `j`-th on, in runs of any length. -/
noncomputable def worst (κ : ProbabilityTheory.Kernel X X) (f : X → ℝ) (c ε : ℝ) (j : ℕ) (x : X) : ℝ≥0∞ :=
  ⨆ q, pathKer κ q x (badPath f c ε j q)

theorem worst_meas (hf : Measurable f) (c ε : ℝ) (j : ℕ) : Measurable (worst κ f c ε j) :=
  Measurable.iSup fun q => ProbabilityTheory.Kernel.measurable_coe _ (badPath_meas hf c ε j q)

theorem worst_le (c ε : ℝ) (j : ℕ) (x : X) : worst κ f c ε j x ≤ 1 := iSup_le fun q => by
  have := pathKer_markov (K := κ) q
  exact prob_le_one

theorem worst_anti (c ε : ℝ) {i j : ℕ} (h : i ≤ j) (x : X) : worst κ f c ε j x ≤ worst κ f c ε i x :=
  iSup_mono fun _ => measure_mono (badPath_mono h)

variable {μ : Measure X} [IsProbabilityMeasure μ]

theorem strong_point (hinv : Measure.bind μ κ = μ) (hE : Ergo μ κ)
    (hvan : ∀ B, MeasurableSet B → μ B = 0 → ∀ x ∈ G, Tendsto (fun n => kpow κ n x B) atTop (𝓝 0))
    (hf : Bdd f B) (hc : ∫ x, f x ∂μ = c) {ε : ℝ} (hε : 0 < ε) : ∀ x ∈ G, Tendsto (fun j : ℕ => worst κ f c ε j x) atTop (𝓝 0) := by
  intro x hx
  have hB : |c| ≤ B := by
    rw [← hc]
    have := norm_integral_le_of_norm_le_const (μ := μ) (f := f) (C := B) (ae_of_all _ hf.le)
    simpa using this
  have hB0 : 0 ≤ B := (abs_nonneg _).trans hB
  set N : ℕ → Set X := fun n => (Measure.mutuallySingular_singularPart (kpow κ n x) μ).nullSetᶜ with hN
  have hNm : ∀ n, MeasurableSet (N n) := fun n => (Measure.mutuallySingular_singularPart (kpow κ n x) μ).measurableSet_nullSet.compl
  have hN0 : ∀ n, μ (N n) = 0 := fun n => (Measure.mutuallySingular_singularPart (kpow κ n x) μ).measure_compl_nullSet
  set U := ⋃ n, N n with hU
  have hUm : MeasurableSet U := MeasurableSet.iUnion hNm
  have hU0 : μ U = 0 := measure_iUnion_null hN0
  have hac : ∀ n, (kpow κ n x).restrict Uᶜ ≪ μ := by
    intro n
    refine Measure.AbsolutelyContinuous.mk fun A hA hA0 => ?_
    rw [Measure.restrict_apply hA, Measure.haveLebesgueDecomposition_add (kpow κ n x) μ, Measure.add_apply]
    have h1 : (kpow κ n x).singularPart μ (A ∩ Uᶜ) = 0 := by
      refine measure_mono_null (fun y hy => ?_) (Measure.mutuallySingular_singularPart (kpow κ n x) μ).measure_nullSet
      by_contra h
      exact hy.2 (Set.mem_iUnion.mpr ⟨n, h⟩)
    have h2 : μ.withDensity ((kpow κ n x).rnDeriv μ) (A ∩ Uᶜ) = 0 :=
      withDensity_absolutelyContinuous μ _ (measure_mono_null Set.inter_subset_left hA0)
    rw [h1, h2, add_zero]
  have hmeas : ∀ ε j q, Measurable fun y => pathKer κ q y (badPath f c ε j q) := fun ε j q =>
    ProbabilityTheory.Kernel.measurable_coe _ (badPath_meas hf.meas c ε j q)
  have hmk : ∀ n, ProbabilityTheory.IsMarkovKernel (pathKer κ n) := fun n => pathKer_markov n
  -- enough to find one time for every probability
  suffices h : ∀ δ : ℝ≥0∞, 0 < δ → ∃ j, worst κ f c ε j x ≤ δ by
    rw [ENNReal.tendsto_nhds_zero]
    intro δ hδ
    obtain ⟨j, hj⟩ := h δ hδ
    filter_upwards [eventually_ge_atTop j] with i hi using (worst_anti c ε hi x).trans hj
  intro δ hδ
  have hδ2 : 0 < δ / 2 := ENNReal.half_pos hδ.ne'
  obtain ⟨M, hM⟩ := ((tendsto_order.mp (hvan U hUm hU0 x hx)).2 _ hδ2).exists
  by_contra hno
  push Not at hno
  have hq : ∀ j : ℕ, ∃ q, δ < pathKer κ q x (badPath f c ε (j + M) q) := fun j => lt_iSup_iff.mp (hno (j + M))
  choose q hq using hq
  have hqM : ∀ j, j + M ≤ q j := by
    intro j
    by_contra h
    have : (badPath f c ε (j + M) (q j) : Set (Path X (q j))) = ∅ := by
      ext p
      refine ⟨fun ⟨m, h1, h2, _⟩ => by omega, fun h => h.elim⟩
    have h2 := hq j
    rw [this, measure_empty] at h2
    exact absurd h2 (not_lt.mpr bot_le)
  have hlim : Tendsto (fun j => ∫⁻ y, pathKer κ (q j - M) y (badPath f c (ε / 2) j (q j - M)) ∂(kpow κ M x).restrict Uᶜ) atTop (𝓝 0) := by
    refine ac_tendsto_le (μ := μ) ?_ (hac M) (fun j => (hmeas _ _ _).aemeasurable) (fun j => ae_of_all _ fun y => prob_le_one) ?_
    · rw [Measure.restrict_apply_univ]
      exact prob_le_one
    · rw [ENNReal.tendsto_nhds_zero]
      intro η hη
      by_cases hηt : η = ⊤
      · exact Eventually.of_forall fun j => by rw [hηt]; exact le_top
      obtain ⟨n0, hn0⟩ := strong_kernel hinv hE hf hc (half_pos hε) (ENNReal.toReal_pos hη.ne' hηt)
      filter_upwards [eventually_ge_atTop n0] with j hj
      refine (lintegral_mono fun y => measure_mono (badPath_mono hj)).trans ((hn0 (q j - M)).trans_eq ?_)
      exact ENNReal.ofReal_toReal hηt
  have hlarge : ∀ᶠ j : ℕ in atTop, M * (2 * B) ≤ ε / 2 * j := by
    have : Tendsto (fun q : ℕ => ε / 2 * (q : ℝ)) atTop atTop := tendsto_natCast_atTop_atTop.const_mul_atTop (half_pos hε)
    exact this.eventually_ge_atTop _
  obtain ⟨j, hj1, hj2⟩ := (((tendsto_order.mp hlim).2 _ hδ2).and hlarge).exists
  have h1 : pathKer κ (q j) x (badPath f c ε (j + M) (q j)) ≤ ∫⁻ y, pathKer κ (q j - M) y (badR f c ε (0 + M * (2 * B)) j (q j - M)) ∂kpow κ M x := by
    have := badR_add (κ := κ) hf hB hε.le j (q j - M) M 0 x
    rw [← badPath_eq, Nat.sub_add_cancel (by have := hqM j; omega)] at this
    exact this
  have h2 : ∫⁻ y, pathKer κ (q j - M) y (badR f c ε (0 + M * (2 * B)) j (q j - M)) ∂kpow κ M x ≤ δ / 2 + δ / 2 := by
    rw [← lintegral_add_compl _ hUm.compl, compl_compl]
    refine add_le_add ?_ ?_
    · refine le_trans (lintegral_mono fun y => measure_mono (badR_le (by rw [zero_add]; exact hj2) hε _)) hj1.le
    · calc ∫⁻ y in U, pathKer κ (q j - M) y (badR f c ε (0 + M * (2 * B)) j (q j - M)) ∂kpow κ M x ≤ ∫⁻ _ in U, 1 ∂kpow κ M x :=
            lintegral_mono fun y => prob_le_one
        _ = kpow κ M x U := by rw [lintegral_one, Measure.restrict_apply_univ]
        _ ≤ δ / 2 := hM.le
  rw [ENNReal.add_halves] at h2
  exact absurd (hq j) (not_lt.mpr (h1.trans h2))

/-! ### The log -/

theorem RepOn.further_path {T : X → Law X} {s : ℕ} (hR : RepOn G (Kernel.run T s) κ) (n : ℕ) :
    ∀ y ∈ G, ∀ g : List X → ℝ≥0∞, Measurable (fun p => g (ofPath n p)) → further T s n y g = ∫⁻ p, g (ofPath n p) ∂pathKer κ n y := by
  induction n with
  | zero =>
    refine fun y _ g hg => ?_
    show g [] = ∫⁻ p : Path X 0, g (ofPath 0 p) ∂pathKer κ 0 y
    have e : ∀ p : Path X 0, g (ofPath 0 p) = g [] := fun p => rfl
    have := pathKer_markov (K := κ) 0
    simp [e]
  | succ n ih =>
    have hmk := pathKer_markov (K := κ) n
    intro y hy g hg
    have hg' : Measurable fun p : X × Path X n => g (p.1 :: ofPath n p.2) := hg
    refine Eq.trans ?_ (lintegral_pathKer_succ n y hg').symm
    refine hR.rep y hy _ _ hg'.lintegral_kernel_prod_right' fun z hz => ?_
    exact ih z hz (fun l => g (z :: l)) (hg'.comp (measurable_const.prodMk measurable_id))

theorem settles_meas (hf : Measurable f) (c ε : ℝ) (j n : ℕ) : MeasurableSet {p : Path X n | Settles f c ε j (ofPath n p)} := by
  have e : {p : Path X n | Settles f c ε j (ofPath n p)} =
      ⋂ m, ({_p | ¬ (j ≤ m ∧ m ≤ n)} ∪ {p | |psum f n m p / (m : ℝ) - c| < ε}) := by
    ext p
    rw [Set.mem_iInter]
    constructor
    · intro h m
      by_cases hm : j ≤ m ∧ m ≤ n
      · right
        have := h m hm.1 (by rw [ofPath_length]; exact hm.2)
        show |psum f n m p / (m : ℝ) - c| < ε
        rwa [psum_ofPath]
      · exact Or.inl hm
    · intro h m h1 h2
      rw [ofPath_length] at h2
      rcases h m with h | h
      · exact absurd ⟨h1, h2⟩ h
      · have h' : |psum f n m p / (m : ℝ) - c| < ε := h
        rwa [psum_ofPath] at h'
  rw [e]
  refine MeasurableSet.iInter fun m => (MeasurableSet.const _).union ?_
  exact measurableSet_lt (measurable_norm.comp (((psum_meas hf n m).div_const _).sub_const _)) measurable_const

/-- The probability that the averages over `y` and `q` further states settle. -/
noncomputable def settle (κ : ProbabilityTheory.Kernel X X) (f : X → ℝ) (c ε : ℝ) (j q : ℕ) (y : X) : ℝ≥0∞ :=
  ∫⁻ p, ({p | Settles f c ε j (y :: ofPath q p)} : Set (Path X q)).indicator 1 p ∂pathKer κ q y

theorem settle_set_meas (hf : Measurable f) (c ε : ℝ) (j q : ℕ) : MeasurableSet {p : X × Path X q | Settles f c ε j (p.1 :: ofPath q p.2)} :=
  settles_meas hf c ε j (q + 1)

theorem settle_set_meas' (hf : Measurable f) (c ε : ℝ) (j q : ℕ) (y : X) : MeasurableSet {p : Path X q | Settles f c ε j (y :: ofPath q p)} :=
  (measurable_prodMk_left (x := y)) (settle_set_meas hf c ε j q)

theorem settle_meas (hf : Measurable f) (c ε : ℝ) (j q : ℕ) : Measurable (settle κ f c ε j q) := by
  have := pathKer_markov (K := κ) q
  exact Measurable.lintegral_kernel_prod_right' (κ := pathKer κ q)
    (f := ({p : X × Path X q | Settles f c ε j (p.1 :: ofPath q p.2)}).indicator 1) (measurable_one.indicator (settle_set_meas hf c ε j q))

theorem settle_ge (hf : Bdd f B) (hc : |c| ≤ B) {ε : ℝ} (hε : 0 < ε) {j : ℕ} (hj : 2 * B ≤ ε / 2 * j) (q : ℕ) (y : X) :
    1 - worst κ f c (ε / 2) j y ≤ settle κ f c ε (j + 1) q y := by
  have := pathKer_markov (K := κ) q
  unfold settle
  rw [lintegral_indicator_one (settle_set_meas' hf.meas c ε (j + 1) q y)]
  refine (tsub_le_tsub_left (le_iSup (fun q => pathKer κ q y (badPath f c (ε / 2) j q)) q) _).trans ?_
  rw [← prob_compl_eq_one_sub (badPath_meas hf.meas c (ε / 2) j q)]
  exact measure_mono fun p hp => settles_of_good hc hf.le hε hj ((goodList_ofPath p).mpr hp) y

theorem loop_settle {T : X → Law X} (hG : MeasurableSet G) (hR : RepOn G T κ) {s : ℕ} (hs : 0 < s) (hf : Measurable f) (c ε : ℝ)
    (j : ℕ) {n : ℕ} (hn : 0 < n) : ∀ x ∈ G, (sampleLoop T s n 0 x).prob {l | Settles f c ε j l} =
      ∫⁻ y, settle (kpow κ s) f c ε j ((n - 1) / s) y ∂κ x := by
  intro x hx
  have e : n = (s * ((n - 1) / s) + 1) + (n - 1) % s := by have := Nat.div_add_mod (n - 1) s; omega
  unfold Law.prob
  conv_lhs => rw [e]
  have htail : sampleLoop T s ((s * ((n - 1) / s) + 1) + (n - 1) % s) 0 x (Set.indicator {l | Settles f c ε j l} 1) =
      sampleLoop T s (s * ((n - 1) / s) + 1) 0 x (Set.indicator {l | Settles f c ε j l} 1) := by
    refine loop_tail hR _ _ 0 _ (fun t ht => ?_) x hx
    have hlt := Nat.mod_lt (n - 1) hs
    rw [show 0 + (s * ((n - 1) / s) + 1) + t = (t + 1) + s * ((n - 1) / s) by ring, Nat.add_mul_mod_self_left, Nat.mod_eq_of_lt (by omega)]
    omega
  refine htail.trans ?_
  set q := (n - 1) / s
  rw [sampleLoop_further T hs q 0 (Nat.zero_mod s) x]
  refine hR.rep x hx _ _ (settle_meas hf c ε j q) fun y hy => ?_
  exact RepOn.further_path (hR.run hG s) q y hy (fun l => Set.indicator {l | Settles f c ε j l} 1 (y :: l))
    (measurable_one.indicator (settle_set_meas' hf c ε j q y))

/-- **The averages over the log settle, from every point of the set.** -/
theorem settle_on [IsFiniteMeasure π] (hπ0 : π Set.univ ≠ 0) {T : X → Law X} (hT : Keeps π T) (hG : MeasurableSet G) (hGπ : ∀ᵐ x ∂π, x ∈ G)
    (hR : RepOn G T κ) (hno : NoEscape π G κ) {s : ℕ} (hs : 0 < s)
    (htriv : ∀ A, MeasurableSet A → Splits π (run T s) A → (∀ᵐ x ∂π, x ∈ A) ∨ ∀ᵐ x ∂π, x ∉ A)
    (hf : Bdd f B) {ε : ℝ} (hε : 0 < ε) :
    ∃ (a : ℕ) (q : ℕ → ℕ → X → ℝ≥0∞) (W : ℕ → X → ℝ≥0∞), (∀ j n, Measurable (q j n)) ∧ (∀ j, Measurable (W j)) ∧ (∀ j x, W j x ≤ 1) ∧
      (∀ j n, ∀ x ∈ G, 0 < n → (sampleLoop T s n 0 x).prob {l | Settles f ((∫ x, f x ∂π) / (π Set.univ).toReal) ε (a + j) l} = q j n x) ∧
      (∀ j n, ∀ x, 1 - W j x ≤ q j n x) ∧ ∀ x ∈ G, Tendsto (fun j => W j x) atTop (𝓝 0) := by
  have hi0 : (π Set.univ)⁻¹ ≠ 0 := ENNReal.inv_ne_zero.mpr (measure_ne_top _ _)
  set μ : Measure X := (π Set.univ)⁻¹ • π with hμ
  have hμp : IsProbabilityMeasure μ := ⟨by
    rw [hμ, Measure.smul_apply, smul_eq_mul, ENNReal.inv_mul_cancel hπ0 (measure_ne_top _ _)]⟩
  have hμπ : μ ≪ π := Measure.smul_absolutelyContinuous
  have hπμ : π ≪ μ := Measure.absolutelyContinuous_smul hi0
  set c := (∫ x, f x ∂π) / (π Set.univ).toReal with hcdef
  have hc : ∫ x, f x ∂μ = c := by
    rw [hμ, integral_smul_measure, ENNReal.toReal_inv, smul_eq_mul, hcdef, div_eq_inv_mul]
  have hB : |c| ≤ B := by
    rw [← hc]
    have := norm_integral_le_of_norm_le_const (μ := μ) (f := f) (C := B) (ae_of_all _ hf.le)
    simpa using this
  have hinv1 : Measure.bind μ κ = μ := by
    rw [hμ, Measure.bind_smul, (hR.represents hGπ).invariant hT]
  have hinv : Measure.bind μ (kpow κ s) = μ := kpow_inv hinv1 s
  have hRs : Represents π (run T s) (kpow κ s) := (hR.run hG s).represents hGπ
  have hErgo : Ergo μ (kpow κ s) := by
    intro A hA h1 h2
    have hsp : Splits π (run T s) A := by
      constructor
      · filter_upwards [hπμ.ae_le h1, hRs] with x hx hRx hxA
        rw [hRx _ (measurable_one.indicator hA), lintegral_indicator_one hA]
        exact hx hxA
      · filter_upwards [hπμ.ae_le h2, hRs] with x hx hRx hxA
        rw [hRx _ (measurable_one.indicator hA.compl), lintegral_indicator_one hA.compl]
        exact hx hxA
    exact (htriv A hA hsp).imp (fun h => hμπ.ae_le h) fun h => hμπ.ae_le h
  have hno' : NoEscape μ G κ := fun w h1 h2 h3 h4 => hno w h1 h2 h3 (hπμ.ae_le h4)
  have hvan : ∀ B, MeasurableSet B → μ B = 0 → ∀ x ∈ G, Tendsto (fun n => kpow (kpow κ s) n x B) atTop (𝓝 0) := by
    intro B hB h0 x hx
    simp only [kpow_mul]
    have hsn : Tendsto (fun n : ℕ => s * n) atTop atTop := tendsto_id.const_mul_atTop' hs
    exact (vanish hinv1 hno' hB h0 x hx).comp hsn
  have hw := strong_point (G := G) hinv hErgo hvan hf hc (half_pos hε)
  obtain ⟨n1, hn1⟩ : ∃ n1 : ℕ, 2 * B ≤ ε / 2 * n1 := by
    obtain ⟨n1, hn1⟩ := exists_nat_ge (2 * B / (ε / 2))
    exact ⟨n1, by rw [div_le_iff₀ (half_pos hε)] at hn1; linarith⟩
  refine ⟨n1 + 1, fun j n x => ∫⁻ y, settle (kpow κ s) f c ε (n1 + 1 + j) ((n - 1) / s) y ∂κ x,
    fun j x => ∫⁻ y, worst (kpow κ s) f c (ε / 2) (n1 + j) y ∂κ x, fun j n => (settle_meas hf.meas _ _ _ _).lintegral_kernel,
    fun j => (worst_meas hf.meas _ _ _).lintegral_kernel, fun j x => ?_, fun j n x hx hn => loop_settle hG hR hs hf.meas c ε _ hn x hx,
    fun j n x => ?_, fun x hx => ?_⟩
  · calc _ ≤ ∫⁻ y, 1 ∂κ x := lintegral_mono fun y => worst_le _ _ _ y
      _ = 1 := by rw [lintegral_one, measure_univ]
  · have h1 := lintegral_sub_le (μ := κ x) (fun y => worst (kpow κ s) f c (ε / 2) (n1 + j) y) (fun _ => 1) (worst_meas hf.meas _ _ _)
    rw [lintegral_one, measure_univ] at h1
    refine h1.trans (lintegral_mono fun y => ?_)
    rw [show n1 + 1 + j = (n1 + j) + 1 by omega]
    refine settle_ge hf hB hε (hn1.trans (mul_le_mul_of_nonneg_left ?_ (by positivity))) _ y
    push_cast
    have : (0 : ℝ) ≤ j := Nat.cast_nonneg j
    linarith
  · have hae : ∀ᵐ y ∂κ x, y ∈ G := (measure_eq_zero_iff_ae_notMem.mp (hR.stay x hx)).mono fun y hy => not_not.mp hy
    have hlim : Tendsto (fun j : ℕ => ∫⁻ y, worst (kpow κ s) f c (ε / 2) (n1 + j) y ∂κ x) atTop (𝓝 (∫⁻ _, 0 ∂κ x)) := by
      refine tendsto_lintegral_of_dominated_convergence (fun _ => 1) (fun j => worst_meas hf.meas _ _ _)
        (fun j => ae_of_all _ fun y => worst_le _ _ _ y) (by simp) (hae.mono fun y hy => ?_)
      have := (tendsto_add_atTop_iff_nat n1).mpr (hw y hy)
      simpa only [add_comm] using this
    rwa [lintegral_zero] at hlim

end SBayes.Meas
