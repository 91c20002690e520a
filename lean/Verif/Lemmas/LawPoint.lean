import Verif.Lemmas.LLNPoint
/- Averages over the log, from every point. -/
namespace SBayes.Meas
set_option linter.unusedSectionVars false
open SBayes.MH SBayes.Kernel MeasureTheory Filter Topology
open scoped BigOperators ENNReal

variable {X : Type} [MeasurableSpace X] {π : Measure X} {G : Set X} {κ : ProbabilityTheory.Kernel X X} [ProbabilityTheory.IsMarkovKernel κ]

theorem RepOn.represents {T : X → Law X} (hR : RepOn G T κ) (hG : ∀ᵐ x ∂π, x ∈ G) : Represents π T κ :=
  hG.mono fun x hx g hg => hR.rep x hx g g hg fun _ _ => rfl

/-- What the averages over the log are close to `c` with: a kernel integral. -/
noncomputable def near (κ : ProbabilityTheory.Kernel X X) (f : X → ℝ) (c ε : ℝ) (q : ℕ) (y : X) : ℝ≥0∞ :=
  ∫⁻ t, ({t | |(f y + t) / ((q + 1 : ℕ) : ℝ) - c| < ε} : Set ℝ).indicator 1 t ∂sumKer κ f q y

theorem near_set_meas {f : X → ℝ} (hf : Measurable f) (c ε : ℝ) (q : ℕ) :
    MeasurableSet {p : X × ℝ | |(f p.1 + p.2) / ((q + 1 : ℕ) : ℝ) - c| < ε} := by
  have : Measurable fun p : X × ℝ => |(f p.1 + p.2) / ((q + 1 : ℕ) : ℝ) - c| := by
    have h1 : Measurable fun p : X × ℝ => (f p.1 + p.2) / ((q + 1 : ℕ) : ℝ) - c :=
      (((hf.comp measurable_fst).add measurable_snd).div_const _).sub_const _
    exact measurable_norm.comp h1
  exact measurableSet_lt this measurable_const

theorem near_set_meas' {f : X → ℝ} (hf : Measurable f) (c ε : ℝ) (q : ℕ) (y : X) :
    MeasurableSet {t : ℝ | |(f y + t) / ((q + 1 : ℕ) : ℝ) - c| < ε} :=
  (measurable_prodMk_left (x := y)) (near_set_meas hf c ε q)

theorem near_meas {f : X → ℝ} (hf : Measurable f) (c ε : ℝ) (q : ℕ) : Measurable (near κ f c ε q) := by
  have := sumKer_markov (K := κ) hf q
  exact Measurable.lintegral_kernel_prod_right' (κ := sumKer κ f q)
    (f := ({p : X × ℝ | |(f p.1 + p.2) / ((q + 1 : ℕ) : ℝ) - c| < ε}).indicator 1) (measurable_one.indicator (near_set_meas hf c ε q))

theorem near_le {f : X → ℝ} (hf : Measurable f) (c ε : ℝ) (q : ℕ) (y : X) : near κ f c ε q y ≤ 1 := by
  have := sumKer_markov (K := κ) hf q
  unfold near
  rw [lintegral_indicator_one (near_set_meas' hf c ε q y)]
  exact prob_le_one

theorem near_ge {f : X → ℝ} {B c ε : ℝ} (hf : Bdd f B) (hB : |c| ≤ B) (hε : 0 < ε) :
    ∀ᶠ q : ℕ in atTop, ∀ y, 1 ≤ near κ f c ε q y + dev κ f c q (ε / 2 * q) y := by
  have hlarge : ∀ᶠ q : ℕ in atTop, 2 * B ≤ ε / 2 * q := by
    have : Tendsto (fun q : ℕ => ε / 2 * (q : ℝ)) atTop atTop := tendsto_natCast_atTop_atTop.const_mul_atTop (half_pos hε)
    exact this.eventually_ge_atTop _
  filter_upwards [hlarge] with q hq y
  have := sumKer_markov (K := κ) hf.meas q
  unfold near dev
  rw [lintegral_indicator_one (near_set_meas' hf.meas c ε q y)]
  refine le_trans ?_ (measure_union_le _ _)
  refine (measure_univ (μ := sumKer κ f q y)).symm.le.trans (measure_mono fun t _ => ?_)
  by_cases ht : ε / 2 * q ≤ |t - q * c|
  · exact Or.inr ht
  · exact Or.inl (close_of_close hB (hf.le y) hq hε (not_le.mp ht))

/-- The probability that the average over the log is close to `c`. -/
theorem loop_near {T : X → Law X} (hG : MeasurableSet G) (hR : RepOn G T κ) {s : ℕ} (hs : 0 < s) {f : X → ℝ} (hf : Measurable f) (c ε : ℝ)
    (q : ℕ) : ∀ x ∈ G, (sampleLoop T s (s * q + 1) 0 x).prob {l | |(l.map f).sum / (l.length : ℝ) - c| < ε} =
      ∫⁻ y, near (kpow κ s) f c ε q y ∂κ x := by
  intro x hx
  have hfur := RepOn.further_sum (hR.run hG s) hf q
  unfold Law.prob
  rw [sampleLoop_further T hs q 0 (Nat.zero_mod s) x]
  refine hR.rep x hx _ _ (near_meas hf c ε q) fun y hy => ?_
  have := hfur y hy _ (measurable_one.indicator (near_set_meas' hf c ε q y))
  show further T s q y (fun l => _) = near (kpow κ s) f c ε q y
  unfold near
  rw [← this]
  refine further_length T s q y fun l hl => ?_
  have hiff : y :: l ∈ {l : List X | |(l.map f).sum / (l.length : ℝ) - c| < ε} ↔
      (l.map f).sum ∈ {t : ℝ | |(f y + t) / ((q + 1 : ℕ) : ℝ) - c| < ε} := by
    rw [Set.mem_ofPred_eq, Set.mem_ofPred_eq, List.map_cons, List.sum_cons, List.length_cons, hl]
  by_cases h : (l.map f).sum ∈ {t : ℝ | |(f y + t) / ((q + 1 : ℕ) : ℝ) - c| < ε}
  · rw [Set.indicator_of_mem h]
    exact Set.indicator_of_mem (hiff.mpr h) 1
  · rw [Set.indicator_of_notMem h]
    exact Set.indicator_of_notMem (fun h' => h (hiff.mp h')) 1

/-- **The averages over the log converge in probability, from every point of the set.** -/
theorem lln_on [IsFiniteMeasure π] (hπ0 : π Set.univ ≠ 0) {T : X → Law X} (hT : Keeps π T) (hG : MeasurableSet G) (hGπ : ∀ᵐ x ∂π, x ∈ G)
    (hR : RepOn G T κ) (hno : NoEscape π G κ) {s : ℕ} (hs : 0 < s)
    (htriv : ∀ A, MeasurableSet A → Splits π (run T s) A → (∀ᵐ x ∂π, x ∈ A) ∨ ∀ᵐ x ∂π, x ∉ A)
    {f : X → ℝ} {B : ℝ} (hf : Bdd f B) {ε : ℝ} (hε : 0 < ε) : ∀ x ∈ G,
    Tendsto (fun q : ℕ => ∫⁻ y, near (kpow κ s) f ((∫ x, f x ∂π) / (π Set.univ).toReal) ε q y ∂κ x) atTop (𝓝 1) := by
  intro x hx
  have hi0 : (π Set.univ)⁻¹ ≠ 0 := ENNReal.inv_ne_zero.mpr (measure_ne_top _ _)
  set μ : Measure X := (π Set.univ)⁻¹ • π with hμ
  have hμp : IsProbabilityMeasure μ := ⟨by
    rw [hμ, Measure.smul_apply, smul_eq_mul, ENNReal.inv_mul_cancel hπ0 (measure_ne_top _ _)]⟩
  have hμπ : μ ≪ π := Measure.smul_absolutelyContinuous
  have hπμ : π ≪ μ := Measure.absolutelyContinuous_smul hi0
  set c := (∫ x, f x ∂π) / (π Set.univ).toReal with hcdef
  have hc : ∫ x, f x ∂μ = c := by
    rw [hμ, integral_smul_measure, ENNReal.toReal_inv, smul_eq_mul, hcdef, div_eq_inv_mul]
  have hB : |c| ≤ B := by
    rw [← hc]
    have := norm_integral_le_of_norm_le_const (μ := μ) (f := f) (C := B) (ae_of_all _ hf.le)
    simpa using this
  have hinv1 : Measure.bind μ κ = μ := by
    rw [hμ, Measure.bind_smul, (hR.represents hGπ).invariant hT]
  have hinv : Measure.bind μ (kpow κ s) = μ := kpow_inv hinv1 s
  have hRs : Represents π (run T s) (kpow κ s) := (hR.run hG s).represents hGπ
  have hErgo : Ergo μ (kpow κ s) := by
    intro A hA h1 h2
    have hsp : Splits π (run T s) A := by
      constructor
      · filter_upwards [hπμ.ae_le h1, hRs] with x hx hRx hxA
        rw [hRx _ (measurable_one.indicator hA), lintegral_indicator_one hA]
        exact hx hxA
      · filter_upwards [hπμ.ae_le h2, hRs] with x hx hRx hxA
        rw [hRx _ (measurable_one.indicator hA.compl), lintegral_indicator_one hA.compl]
        exact hx hxA
    exact (htriv A hA hsp).imp (fun h => hμπ.ae_le h) fun h => hμπ.ae_le h
  have hno' : NoEscape μ G κ := fun w h1 h2 h3 h4 => hno w h1 h2 h3 (hπμ.ae_le h4)
  have hvan : ∀ B, MeasurableSet B → μ B = 0 → ∀ x ∈ G, Tendsto (fun n => kpow (kpow κ s) n x B) atTop (𝓝 0) := by
    intro B hB h0 x hx
    simp only [kpow_mul]
    have hsn : Tendsto (fun n : ℕ => s * n) atTop atTop := tendsto_id.const_mul_atTop' hs
    exact (vanish hinv1 hno' hB h0 x hx).comp hsn
  have hdev := dev_tendsto (G := G) hinv hErgo hvan hf hc (half_pos hε)
  have hae : ∀ᵐ y ∂κ x, y ∈ G := (measure_eq_zero_iff_ae_notMem.mp (hR.stay x hx)).mono fun y hy => not_not.mp hy
  have hlim : Tendsto (fun q : ℕ => ∫⁻ y, near (kpow κ s) f c ε q y ∂κ x) atTop (𝓝 (∫⁻ _, 1 ∂κ x)) := by
    refine tendsto_lintegral_of_dominated_convergence (fun _ => 1) (fun q => near_meas hf.meas c ε q)
      (fun q => ae_of_all _ fun y => near_le hf.meas c ε q y) (by simp) (hae.mono fun y hy => ?_)
    have h1 : Tendsto (fun q : ℕ => 1 - dev (kpow κ s) f c q (ε / 2 * q) y) atTop (𝓝 1) := by
      have := ENNReal.Tendsto.sub (tendsto_const_nhds (x := (1 : ℝ≥0∞))) (hdev y hy) (Or.inl ENNReal.one_ne_top)
      rwa [tsub_zero] at this
    refine tendsto_of_tendsto_of_tendsto_of_le_of_le' h1 tendsto_const_nhds ?_ (Eventually.of_forall fun q => near_le hf.meas c ε q y)
    filter_upwards [near_ge (κ := kpow κ s) hf hB hε] with q hq
    exact tsub_le_iff_right.mpr (hq y)
  rwa [lintegral_one, measure_univ] at hlim

/-! ### Any number of iterations -/

/-- Iterations that are not logged do not matter. -/
theorem loop_quiet {T : X → Law X} (hR : RepOn G T κ) {s : ℕ} (r i : ℕ) (g : List X → ℝ≥0∞) (h : ∀ t < r, (i + t) % s ≠ 0) :
    ∀ x ∈ G, sampleLoop T s r i x g = g [] := by
  induction r generalizing i with
  | zero => exact fun x _ => rfl
  | succ r ih =>
    intro x hx
    have h0 : i % s ≠ 0 := h 0 (Nat.succ_pos r)
    show T x (fun y => sampleLoop T s r (i + 1) y fun l => g (if i % s = 0 then y :: l else l)) = g []
    simp only [if_neg h0]
    have := hR.rep x hx (fun y => sampleLoop T s r (i + 1) y fun l => g l) (fun _ => g []) measurable_const fun y hy =>
      ih (i + 1) (fun t ht => by have := h (t + 1) (by omega); rwa [show i + 1 + t = i + (t + 1) by omega]) y hy
    rw [this, lintegral_const, measure_univ, mul_one]

theorem loop_tail {T : X → Law X} (hR : RepOn G T κ) {s : ℕ} (n r i : ℕ) (g : List X → ℝ≥0∞) (h : ∀ t < r, (i + n + t) % s ≠ 0) :
    ∀ x ∈ G, sampleLoop T s (n + r) i x g = sampleLoop T s n i x g := by
  induction n generalizing i g with
  | zero =>
    intro x hx
    rw [Nat.zero_add]
    exact loop_quiet hR r i g (fun t ht => by simpa using h t ht) x hx
  | succ n ih =>
    intro x hx
    rw [show n + 1 + r = (n + r) + 1 by omega]
    show T x (fun y => sampleLoop T s (n + r) (i + 1) y fun l => g (if i % s = 0 then y :: l else l)) =
      T x fun y => sampleLoop T s n (i + 1) y fun l => g (if i % s = 0 then y :: l else l)
    exact hR.loc x hx _ _ fun y hy => ih (i + 1) _ (fun t ht => by have := h t ht; rwa [show i + 1 + n + t = i + (n + 1) + t by omega]) y hy

theorem loop_all {T : X → Law X} (hG : MeasurableSet G) (hR : RepOn G T κ) {s : ℕ} (hs : 0 < s) {f : X → ℝ} (hf : Measurable f) (c ε : ℝ)
    {n : ℕ} (hn : 0 < n) : ∀ x ∈ G, (sampleLoop T s n 0 x).prob {l | |(l.map f).sum / (l.length : ℝ) - c| < ε} =
      ∫⁻ y, near (kpow κ s) f c ε ((n - 1) / s) y ∂κ x := by
  intro x hx
  rw [← loop_near hG hR hs hf c ε _ x hx]
  have e : n = (s * ((n - 1) / s) + 1) + (n - 1) % s := by have := Nat.div_add_mod (n - 1) s; omega
  unfold Law.prob
  conv_lhs => rw [e]
  refine loop_tail hR _ _ 0 _ (fun t ht => ?_) x hx
  have hlt := Nat.mod_lt (n - 1) hs
  rw [show 0 + (s * ((n - 1) / s) + 1) + t = (t + 1) + s * ((n - 1) / s) by ring, Nat.add_mul_mod_self_left, Nat.mod_eq_of_lt (by omega)]
  omega

theorem div_tendsto {s : ℕ} (hs : 0 < s) : Tendsto (fun n : ℕ => (n - 1) / s) atTop atTop := by
  refine tendsto_atTop.mpr fun b => ?_
  filter_upwards [eventually_ge_atTop (s * b + 1)] with n hn
  rw [Nat.le_div_iff_mul_le hs]
  have := Nat.mul_comm s b
  omega

/-- The loop never fails. -/
theorem loop_mass {T : X → Law X} (hR : RepOn G T κ) (s n i : ℕ) : ∀ x ∈ G, sampleLoop T s n i x 1 = 1 := by
  induction n generalizing i with
  | zero => exact fun x _ => rfl
  | succ n ih =>
    intro x hx
    have := hR.rep x hx (fun y => sampleLoop T s n (i + 1) y 1) (fun _ => 1) measurable_const fun y hy => ih (i + 1) y hy
    show T x (fun y => sampleLoop T s n (i + 1) y 1) = 1
    rw [this, lintegral_const, measure_univ, mul_one]

/-- What is logged, and how much. -/
theorem loop_event {T : X → Law X} (hR : RepOn G T κ) (s n i : ℕ) (g : List X → ℝ≥0∞)
    (hg : ∀ l : List X, (∀ y ∈ l, y ∈ G) → l.length = Nat.count (fun t => (i + t) % s = 0) n → g l = 1) :
    ∀ x ∈ G, sampleLoop T s n i x g = 1 := by
  induction n generalizing i g with
  | zero => exact fun x _ => hg [] (by simp) (by simp)
  | succ n ih =>
    intro x hx
    have := hR.rep x hx (fun y => sampleLoop T s n (i + 1) y fun l => g (if i % s = 0 then y :: l else l)) (fun _ => 1) measurable_const
      fun y hy => ih (i + 1) _ (fun l hl hlen => by
        apply hg
        · split
          · simpa using ⟨hy, hl⟩
          · exact hl
        · rw [Nat.count_succ', Nat.add_zero]
          have e : Nat.count (fun k => (i + (k + 1)) % s = 0) n = Nat.count (fun t => (i + 1 + t) % s = 0) n := by
            congr 1
            funext k
            rw [show i + (k + 1) = i + 1 + k by omega]
          rw [e, ← hlen]
          split <;> simp) y hy
    show T x (fun y => sampleLoop T s n (i + 1) y fun l => g (if i % s = 0 then y :: l else l)) = 1
    rw [this, lintegral_const, measure_univ, mul_one]

end SBayes.Meas
