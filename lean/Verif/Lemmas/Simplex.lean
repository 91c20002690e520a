import Verif.Lemmas.PiInt
import Verif.Model.Draws
import Mathlib.MeasureTheory.Function.JacobianOneDim
import Mathlib.Probability.Distributions.Gamma
import Mathlib.Probability.Distributions.Exponential
import Mathlib.MeasureTheory.Measure.Lebesgue.Basic
/- Dirichlet distributions as normalised Gamma variables. -/
namespace SBayes.Meas
open MeasureTheory ProbabilityTheory SBayes.Effects SBayes.Draws
open scoped BigOperators ENNReal

variable {ι : Type} [Fintype ι] [DecidableEq ι]

/-- Lebesgue measure on the positive entries `A`, zero elsewhere. -/
noncomputable def base1 (A : Finset ι) (i : ι) : Measure ℝ :=
  if i ∈ A then volume.restrict (Set.Ioi 0) else Measure.dirac 0

instance (A : Finset ι) (i : ι) : SigmaFinite (base1 A i) := by
  unfold base1; split <;> infer_instance

noncomputable def base (A : Finset ι) : Measure (ι → ℝ) := Measure.pi (base1 A)

instance (A : Finset ι) : SigmaFinite (base A) := by unfold base; infer_instance

theorem lintegral_Ioi_mul {c : ℝ} (hc : 0 < c) (g : ℝ → ℝ≥0∞) :
    ∫⁻ v in Set.Ioi 0, g v = ENNReal.ofReal c * ∫⁻ v in Set.Ioi 0, g (c * v) := by
  have himg : (fun v => c * v) '' Set.Ioi (0 : ℝ) = Set.Ioi 0 := by
    ext y; constructor
    · rintro ⟨x, hx, rfl⟩; exact mul_pos hc hx
    · intro hy; exact ⟨y / c, div_pos hy hc, by field_simp⟩
  conv_lhs => rw [← himg]
  rw [lintegral_image_eq_lintegral_abs_deriv_mul measurableSet_Ioi
    (f := fun v => c * v) (f' := fun _ => c) (fun x _ => ((hasDerivAt_id x).const_mul c).hasDerivWithinAt.congr_deriv (by simp))
    (fun x _ y _ h => mul_left_cancel₀ hc.ne' h), abs_of_pos hc]
  rw [lintegral_const_mul' _ _ ENNReal.ofReal_ne_top]

theorem lintegral_Ioi_inv (g : ℝ → ℝ≥0∞) :
    ∫⁻ v in Set.Ioi 0, g v = ∫⁻ v in Set.Ioi 0, ENNReal.ofReal (1 / v ^ 2) * g v⁻¹ := by
  have himg : (fun v : ℝ => v⁻¹) '' Set.Ioi (0 : ℝ) = Set.Ioi 0 := by
    ext y; constructor
    · rintro ⟨x, hx, rfl⟩; exact inv_pos.mpr (show 0 < x from hx)
    · intro hy; exact ⟨y⁻¹, inv_pos.mpr (show 0 < y from hy), inv_inv y⟩
  conv_lhs => rw [← himg]
  rw [lintegral_image_eq_lintegral_abs_deriv_mul measurableSet_Ioi
    (f := fun v : ℝ => v⁻¹) (f' := fun v => -(v ^ 2)⁻¹)
    (fun x hx => (hasDerivAt_inv (ne_of_gt hx)).hasDerivWithinAt)
    (fun x _ y _ h => inv_injective h)]
  refine setLIntegral_congr_fun measurableSet_Ioi fun v hv => ?_
  simp only [abs_neg, one_div]
  rw [abs_of_nonneg (by positivity)]

omit [Fintype ι] in
theorem lintegral_base1_mul (A : Finset ι) (i : ι) {c : ℝ} (hc : 0 < c) (g : ℝ → ℝ≥0∞) :
    ∫⁻ v, g v ∂base1 A i = ENNReal.ofReal (if i ∈ A then c else 1) * ∫⁻ v, g (c * v) ∂base1 A i := by
  unfold base1
  split
  · exact lintegral_Ioi_mul hc g
  · simp

/-- Scaling of the base measure. -/
theorem base_scale (A : Finset ι) {c : ℝ} (hc : 0 < c) :
    base A = ENNReal.ofReal (c ^ A.card) • (base A).map fun x => c • x := by
  unfold base
  refine Measure.pi_eq fun s hs => ?_
  rw [Measure.smul_apply, Measure.map_apply (measurable_const_smul c) (MeasurableSet.univ_pi hs)]
  have : (fun x : ι → ℝ => c • x) ⁻¹' Set.univ.pi s = Set.univ.pi fun i => (fun v => c * v) ⁻¹' s i := by
    ext x; simp [Set.mem_pi]
  rw [this, Measure.pi_pi]
  have h1 : ∀ i, base1 A i (s i) = ENNReal.ofReal (if i ∈ A then c else 1) * base1 A i ((fun v => c * v) ⁻¹' s i) := by
    intro i
    have := lintegral_base1_mul A i hc ((s i).indicator 1)
    rw [lintegral_indicator_one (hs i)] at this
    rw [this]
    congr 1
    rw [← lintegral_indicator_one (measurable_const_mul c (hs i))]
    rfl
  rw [Finset.prod_congr rfl fun i _ => h1 i, Finset.prod_mul_distrib, ← ENNReal.ofReal_prod_of_nonneg]
  · congr 2
    rw [Finset.prod_ite, Finset.prod_const_one, mul_one, Finset.prod_const]
    simp
  · intro i _; split <;> [exact hc.le; norm_num]

theorem lintegral_base_scale (A : Finset ι) {c : ℝ} (hc : 0 < c) {G : (ι → ℝ) → ℝ≥0∞} (hG : Measurable G) :
    ∫⁻ x, G x ∂base A = ENNReal.ofReal (c ^ A.card) * ∫⁻ x, G (c • x) ∂base A := by
  conv_lhs => rw [base_scale A hc]
  rw [lintegral_smul_measure, lintegral_map hG (measurable_const_smul c), smul_eq_mul]

omit [DecidableEq ι] in
theorem measurable_normalize : Measurable (normalize (ι := ι)) := by
  unfold Effects.normalize; fun_prop

omit [DecidableEq ι] in
theorem normalize_smul {c : ℝ} (hc : 0 < c) (x : ι → ℝ) : normalize (c • x) = normalize x := by
  funext i
  simp only [Effects.normalize, Pi.smul_apply, smul_eq_mul, ← Finset.mul_sum]
  rw [mul_div_mul_left _ _ hc.ne']

/-- Almost everywhere, the entries in `A` are positive and the others are 0. -/
theorem base_ae (A : Finset ι) : ∀ᵐ x ∂base A, ∀ i, if i ∈ A then 0 < x i else x i = 0 := by
  rw [ae_all_iff]
  intro i
  have h : ∀ᵐ a ∂base1 A i, if i ∈ A then 0 < a else a = 0 := by
    unfold base1
    split
    · rename_i h
      exact ae_restrict_mem measurableSet_Ioi
    · rename_i h
      rw [ae_dirac_eq]; simp
  exact (Measure.tendsto_eval_ae_ae (μ := base1 A) (i := i)).eventually h

theorem base_ae_sum {A : Finset ι} (hA : A.Nonempty) : ∀ᵐ x ∂base A, 0 < ∑ i, x i := by
  filter_upwards [base_ae A] with x hx
  obtain ⟨i, hi⟩ := hA
  refine Finset.sum_pos' (fun j _ => ?_) ⟨i, Finset.mem_univ i, ?_⟩
  · have := hx j; split at this <;> [exact this.le; exact this.ge]
  · have := hx i; rwa [if_pos hi] at this

theorem lintegral_Gamma {a : ℝ} (ha : 0 < a) :
    ∫⁻ v in Set.Ioi 0, ENNReal.ofReal (v ^ (a - 1) * Real.exp (-v)) = ENNReal.ofReal (Real.Gamma a) := by
  rw [Real.Gamma_eq_integral ha, ofReal_integral_eq_lintegral_ofReal]
  · refine setLIntegral_congr_fun measurableSet_Ioi fun v _ => ?_
    simp only [mul_comm]
  · exact Real.GammaIntegral_convergent ha
  · refine (ae_restrict_mem measurableSet_Ioi).mono fun v hv => ?_
    exact mul_nonneg (Real.exp_pos _).le (Real.rpow_nonneg (le_of_lt hv) _)

theorem lintegral_Gamma_nat {n : ℕ} (hn : 0 < n) :
    ∫⁻ v in Set.Ioi 0, ENNReal.ofReal (v ^ (n - 1) * Real.exp (-v)) = ENNReal.ofReal (Real.Gamma n) := by
  rw [← lintegral_Gamma (by exact_mod_cast hn)]
  refine setLIntegral_congr_fun measurableSet_Ioi fun v _ => ?_
  rw [← Real.rpow_natCast, Nat.cast_sub hn, Nat.cast_one]

/-- Direction and sum of a point are independent. -/
theorem radial {A : Finset ι} (hA : A.Nonempty) {h : (ι → ℝ) → ℝ≥0∞} (hh : Measurable h) {k : ℝ → ℝ≥0∞} (hk : Measurable k) :
    ENNReal.ofReal (Real.Gamma A.card) * ∫⁻ x, h (normalize x) * k (∑ i, x i) ∂base A =
      (∫⁻ x, h (normalize x) * ENNReal.ofReal (Real.exp (-∑ i, x i)) ∂base A) *
        ∫⁻ v in Set.Ioi 0, ENNReal.ofReal (v ^ (A.card - 1)) * k v := by
  set n := A.card with hn
  have hn0 : 0 < n := Finset.card_pos.mpr hA
  have hnorm := measurable_normalize (ι := ι)
  have hsum : Measurable fun x : ι → ℝ => ∑ i, x i := by fun_prop
  -- the integrand over (x, t)
  let P : (ι → ℝ) → ℝ → ℝ≥0∞ := fun x t => h (normalize x) *
    (ENNReal.ofReal (Real.exp (-∑ i, x i) * (∑ i, x i) ^ n * t ^ (n - 1)) * k ((∑ i, x i) * t))
  have hP : Measurable (Function.uncurry P) := by
    unfold Function.uncurry
    refine (hh.comp (hnorm.comp measurable_fst)).mul (Measurable.mul ?_ (hk.comp ?_))
    · refine Measurable.ennreal_ofReal ?_
      fun_prop
    · fun_prop
  have h1 : (∫⁻ x, h (normalize x) * ENNReal.ofReal (Real.exp (-∑ i, x i)) ∂base A) *
        ∫⁻ v in Set.Ioi 0, ENNReal.ofReal (v ^ (n - 1)) * k v =
      ∫⁻ x, (∫⁻ t in Set.Ioi (0 : ℝ), P x t) ∂base A := by
    rw [← lintegral_mul_const _ (by fun_prop)]
    refine lintegral_congr_ae ?_
    filter_upwards [base_ae_sum hA] with x hx
    rw [lintegral_Ioi_mul hx, ← mul_assoc, ← lintegral_const_mul _ (by fun_prop)]
    refine setLIntegral_congr_fun measurableSet_Ioi fun t ht => ?_
    have ht : 0 < t := ht
    simp only [P]
    rw [mul_pow, show (∑ i, x i) ^ n = (∑ i, x i) * (∑ i, x i) ^ (n - 1) by
      rw [← pow_succ']; congr 1; omega]
    rw [show Real.exp (-∑ i, x i) * ((∑ i, x i) * (∑ i, x i) ^ (n - 1)) * t ^ (n - 1) =
      Real.exp (-∑ i, x i) * ((∑ i, x i) * ((∑ i, x i) ^ (n - 1) * t ^ (n - 1))) by ring,
      ENNReal.ofReal_mul (Real.exp_pos _).le, ENNReal.ofReal_mul hx.le]
    ring
  have h2 : ∀ t ∈ Set.Ioi (0 : ℝ), ∫⁻ x, P x t ∂base A = ∫⁻ x, h (normalize x) * k (∑ i, x i) *
      ENNReal.ofReal ((∑ i, x i) ^ n * (1 / t ^ (n + 1)) * Real.exp (-((∑ i, x i) * t⁻¹))) ∂base A := by
    intro t ht
    have ht : 0 < t := ht
    have hPt : Measurable fun x => P x t := hP.comp (measurable_id.prodMk measurable_const)
    rw [lintegral_base_scale A (inv_pos.mpr ht) hPt, ← lintegral_const_mul' _ _ ENNReal.ofReal_ne_top]
    refine lintegral_congr_ae ?_
    filter_upwards [base_ae_sum hA] with x hx
    simp only [P]
    rw [normalize_smul (inv_pos.mpr ht)]
    simp only [Pi.smul_apply, smul_eq_mul, ← Finset.mul_sum]
    rw [show t⁻¹ * (∑ i, x i) * t = ∑ i, x i by field_simp]
    rw [show ∀ a b c d : ℝ≥0∞, a * (b * (c * d)) = b * d * (a * c) by intros; ring, ← ENNReal.ofReal_mul (by positivity)]
    congr 2
    rw [← hn, mul_pow, inv_pow]
    have : t ^ n = t ^ (n - 1) * t := by rw [← pow_succ]; congr 1; omega
    rw [pow_succ, this, mul_comm (t⁻¹)]
    field_simp
  have h3 : ∀ x : ι → ℝ, 0 < ∑ i, x i → ∫⁻ t in Set.Ioi 0,
      ENNReal.ofReal ((∑ i, x i) ^ n * (1 / t ^ (n + 1)) * Real.exp (-((∑ i, x i) * t⁻¹))) = ENNReal.ofReal (Real.Gamma n) := by
    intro x hx
    rw [lintegral_Ioi_inv, ← lintegral_Gamma_nat hn0, lintegral_Ioi_mul hx (fun v => ENNReal.ofReal (v ^ (n - 1) * Real.exp (-v))),
      ← lintegral_const_mul' _ _ ENNReal.ofReal_ne_top]
    refine setLIntegral_congr_fun measurableSet_Ioi fun t ht => ?_
    have ht : 0 < t := ht
    rw [← ENNReal.ofReal_mul (by positivity), ← ENNReal.ofReal_mul hx.le]
    congr 1
    rw [inv_inv, inv_pow, one_div, one_div, inv_inv, mul_pow]
    have e1 : (∑ i, x i) ^ n = (∑ i, x i) * (∑ i, x i) ^ (n - 1) := by rw [← pow_succ']; congr 1; omega
    have e2 : t ^ (n + 1) = t ^ (n - 1) * t ^ 2 := by rw [← pow_add]; congr 1; omega
    rw [e1, e2]
    field_simp
  rw [h1, lintegral_lintegral_swap hP.aemeasurable, setLIntegral_congr_fun measurableSet_Ioi h2,
    lintegral_lintegral_swap, ← lintegral_const_mul' _ _ ENNReal.ofReal_ne_top]
  · refine lintegral_congr_ae ?_
    filter_upwards [base_ae_sum hA] with x hx
    rw [lintegral_const_mul, h3 x hx, mul_comm]
    fun_prop
  · unfold Function.uncurry
    refine Measurable.aemeasurable ?_
    fun_prop

/-! ### The Dirichlet law -/

/-- Density of one Gamma entry. -/
noncomputable def gdens (A : Finset ι) (alpha : ι → ℝ) (i : ι) (v : ℝ) : ℝ≥0∞ :=
  if i ∈ A then gammaPDF (alpha i) 1 v else 1

omit [Fintype ι] in
theorem measurable_gdens (A : Finset ι) (alpha : ι → ℝ) (i : ι) : Measurable (gdens A alpha i) := by
  unfold gdens
  split
  · exact (measurable_gammaPDFReal _ _).ennreal_ofReal
  · exact measurable_const

omit [Fintype ι] in
theorem gammaEntry_eq (A : Finset ι) (alpha : ι → ℝ) (i : ι) :
    gammaEntry A alpha i = (base1 A i).withDensity (gdens A alpha i) := by
  unfold gammaEntry base1 gdens
  split
  · unfold gammaMeasure
    rw [← withDensity_indicator measurableSet_Ioi]
    refine withDensity_congr_ae ?_
    have : ∀ᵐ v : ℝ, v ≠ 0 := by simp [ae_iff]
    filter_upwards [this] with v hv
    rcases lt_or_gt_of_ne hv with h | h
    · rw [gammaPDF_of_neg h, Set.indicator_of_notMem]
      simpa using h.le
    · rw [Set.indicator_of_mem (by simpa using h)]
  · rw [withDensity_const, one_smul]

instance (A : Finset ι) (alpha : ι → ℝ) (i : ι) : SigmaFinite (gammaEntry A alpha i) := by
  unfold gammaEntry gammaMeasure
  split
  · exact SigmaFinite.withDensity_of_ne_top (ae_of_all _ fun _ => ENNReal.ofReal_ne_top)
  · infer_instance

omit [Fintype ι] in
theorem gammaEntry_prob {A : Finset ι} {alpha : ι → ℝ} (h : ∀ i ∈ A, 0 < alpha i) (i : ι) :
    IsProbabilityMeasure (gammaEntry A alpha i) := by
  unfold gammaEntry
  split
  · exact isProbabilityMeasure_gammaMeasure (h i ‹_›) one_pos
  · infer_instance

theorem pi_gammaEntry (A : Finset ι) (alpha : ι → ℝ) :
    Measure.pi (gammaEntry A alpha) = (base A).withDensity fun x => ∏ i, gdens A alpha i (x i) := by
  have h : gammaEntry A alpha = fun i => (base1 A i).withDensity (gdens A alpha i) := funext fun i => gammaEntry_eq A alpha i
  have : ∀ i, SigmaFinite ((base1 A i).withDensity (gdens A alpha i)) := fun i => by rw [← gammaEntry_eq]; infer_instance
  rw [h, pi_withDensity _ (measurable_gdens A alpha)]
  rfl

theorem dirichletLaw_eq {A : Finset ι} (hA : A.Nonempty) {alpha : ι → ℝ} (h : ∀ i ∈ A, 0 < alpha i) :
    dirichletLaw A alpha = (Measure.pi (gammaEntry A alpha)).map Effects.normalize := by
  unfold dirichletLaw; rw [if_pos ⟨hA, h⟩]

theorem dirichletLaw_prob {A : Finset ι} (hA : A.Nonempty) {alpha : ι → ℝ} (h : ∀ i ∈ A, 0 < alpha i) :
    IsProbabilityMeasure (dirichletLaw A alpha) := by
  have := fun i => gammaEntry_prob h i
  rw [dirichletLaw_eq hA h]
  exact Measure.isProbabilityMeasure_map measurable_normalize.aemeasurable

theorem uniformSimplex_prob {A : Finset ι} (hA : A.Nonempty) : IsProbabilityMeasure (uniformSimplex A) :=
  dirichletLaw_prob hA fun _ _ => one_pos

instance (A : Finset ι) (alpha : ι → ℝ) : IsFiniteMeasure (dirichletLaw A alpha) := by
  by_cases h : A.Nonempty ∧ ∀ i ∈ A, 0 < alpha i
  · have := dirichletLaw_prob h.1 h.2
    infer_instance
  · unfold dirichletLaw
    rw [if_neg h]
    infer_instance

instance (A : Finset ι) : IsFiniteMeasure (uniformSimplex A) := by unfold uniformSimplex; infer_instance

/-- The product of the Gamma densities in terms of direction and sum. -/
theorem gdens_prod (A : Finset ι) (alpha : ι → ℝ) (h : ∀ i ∈ A, 0 < alpha i) {x : ι → ℝ}
    (hx : ∀ i, if i ∈ A then 0 < x i else x i = 0) (hs : 0 < ∑ i, x i) :
    ∏ i, gdens A alpha i (x i) =
      ENNReal.ofReal ((∏ i ∈ A, normalize x i ^ (alpha i - 1)) / ∏ i ∈ A, Real.Gamma (alpha i)) *
      ENNReal.ofReal ((∑ i, x i) ^ (∑ i ∈ A, alpha i - A.card) * Real.exp (-∑ i, x i)) := by
  have h1 : ∀ i, gdens A alpha i (x i) = ENNReal.ofReal (if i ∈ A then
      (normalize x i ^ (alpha i - 1) / Real.Gamma (alpha i)) * ((∑ i, x i) ^ (alpha i - 1) * Real.exp (-x i)) else 1) := by
    intro i
    have := hx i
    unfold gdens
    by_cases hi : i ∈ A
    · rw [if_pos hi] at this
      rw [if_pos hi, if_pos hi, gammaPDF_of_nonneg this.le]
      congr 1
      have e : x i = normalize x i * ∑ i, x i := by unfold Effects.normalize; field_simp
      rw [Real.one_rpow, one_mul]
      conv_lhs => rw [show x i ^ (alpha i - 1) = (normalize x i * ∑ i, x i) ^ (alpha i - 1) by rw [← e]]
      rw [Real.mul_rpow (show 0 ≤ normalize x i from (div_pos this hs).le) hs.le]
      ring
    · rw [if_neg hi, if_neg hi, ENNReal.ofReal_one]
  have hpos : ∀ i ∈ A, 0 < x i := fun i hi => by have := hx i; rwa [if_pos hi] at this
  rw [Finset.prod_congr rfl fun i _ => h1 i, ← ENNReal.ofReal_prod_of_nonneg]
  · rw [← ENNReal.ofReal_mul]
    · congr 1
      rw [Finset.prod_ite, Finset.prod_const_one, mul_one, Finset.filter_mem_eq_inter, Finset.univ_inter,
        Finset.prod_mul_distrib, Finset.prod_mul_distrib, Finset.prod_div_distrib, ← Real.exp_sum,
        ← Real.rpow_sum_of_pos hs, Finset.sum_sub_distrib, Finset.sum_const, nsmul_one, Finset.sum_neg_distrib]
      congr 4
      refine Finset.sum_subset (Finset.subset_univ A) fun i _ hi => ?_
      have := hx i
      rwa [if_neg hi] at this
    · refine div_nonneg (Finset.prod_nonneg fun i hi => Real.rpow_nonneg (div_pos (hpos i hi) hs).le _)
        (Finset.prod_nonneg fun i hi => (Real.Gamma_pos_of_pos (h i hi)).le)
  · intro i _
    split
    · rename_i hi
      have h2 := Real.Gamma_pos_of_pos (h i hi)
      have h3 := div_pos (hpos i hi) hs
      have h4 : (0 : ℝ) ≤ normalize x i ^ (alpha i - 1) := Real.rpow_nonneg h3.le _
      positivity
    · norm_num

theorem lintegral_dirichletLaw {A : Finset ι} (hA : A.Nonempty) {alpha : ι → ℝ} (h : ∀ i ∈ A, 0 < alpha i)
    {g : (ι → ℝ) → ℝ≥0∞} (hg : Measurable g) :
    ∫⁻ u, g u ∂dirichletLaw A alpha = ∫⁻ x, g (normalize x) *
        ENNReal.ofReal ((∏ i ∈ A, normalize x i ^ (alpha i - 1)) / ∏ i ∈ A, Real.Gamma (alpha i)) *
      ENNReal.ofReal ((∑ i, x i) ^ (∑ i ∈ A, alpha i - A.card) * Real.exp (-∑ i, x i)) ∂base A := by
  rw [dirichletLaw_eq hA h, lintegral_map hg measurable_normalize, pi_gammaEntry, lintegral_withDensity_eq_lintegral_mul]
  · refine lintegral_congr_ae ?_
    filter_upwards [base_ae A, base_ae_sum hA] with x hx hs
    rw [Pi.mul_apply, gdens_prod A alpha h hx hs]
    ring
  · exact Finset.measurable_prod _ fun i _ => (measurable_gdens A alpha i).comp (measurable_pi_apply i)
  · exact hg.comp measurable_normalize

theorem lintegral_uniformSimplex {A : Finset ι} (hA : A.Nonempty) {g : (ι → ℝ) → ℝ≥0∞} (hg : Measurable g) :
    ∫⁻ u, g u ∂uniformSimplex A = ∫⁻ x, g (normalize x) * ENNReal.ofReal (Real.exp (-∑ i, x i)) ∂base A := by
  unfold uniformSimplex
  rw [lintegral_dirichletLaw hA (fun _ _ => one_pos) hg]
  refine lintegral_congr fun x => ?_
  simp

omit [Fintype ι] [DecidableEq ι] in
theorem measurable_dirichletPdf (A : Finset ι) (alpha : ι → ℝ) : Measurable (dirichletPdf A alpha) := by
  unfold dirichletPdf; fun_prop

/-- The Dirichlet law has, with respect to the uniform distribution on the simplex, the Dirichlet density (up to the
constant that makes the density of the uniform distribution 1). -/
theorem dirichletLaw_density {A : Finset ι} (hA : A.Nonempty) {alpha : ι → ℝ} (h : ∀ i ∈ A, 0 < alpha i) :
    dirichletLaw A alpha =
      (uniformSimplex A).withDensity fun u => ENNReal.ofReal (dirichletPdf A alpha u / Real.Gamma A.card) := by
  refine Measure.ext_of_lintegral _ fun g hg => ?_
  have hn : (0 : ℝ) < A.card := by exact_mod_cast Finset.card_pos.mpr hA
  have hG : 0 < Real.Gamma A.card := Real.Gamma_pos_of_pos hn
  have ha : 0 < ∑ i ∈ A, alpha i := Finset.sum_pos h hA
  have hGa : 0 < Real.Gamma (∑ i ∈ A, alpha i) := Real.Gamma_pos_of_pos ha
  have hm : Measurable fun u : ι → ℝ => ENNReal.ofReal ((∏ i ∈ A, u i ^ (alpha i - 1)) / ∏ i ∈ A, Real.Gamma (alpha i)) := by
    fun_prop
  have hk : ∫⁻ v in Set.Ioi 0, ENNReal.ofReal (v ^ (A.card - 1)) *
      ENNReal.ofReal (v ^ (∑ i ∈ A, alpha i - A.card) * Real.exp (-v)) = ENNReal.ofReal (Real.Gamma (∑ i ∈ A, alpha i)) := by
    rw [← lintegral_Gamma ha]
    refine setLIntegral_congr_fun measurableSet_Ioi fun v hv => ?_
    have hv : 0 < v := hv
    rw [← ENNReal.ofReal_mul (by positivity), ← mul_assoc, ← Real.rpow_natCast, ← Real.rpow_add hv,
      Nat.cast_sub (Finset.card_pos.mpr hA)]
    congr 3
    push_cast
    ring
  have hr := radial hA (h := fun u => g u * ENNReal.ofReal ((∏ i ∈ A, u i ^ (alpha i - 1)) / ∏ i ∈ A, Real.Gamma (alpha i)))
    (hg.mul hm) (k := fun v => ENNReal.ofReal (v ^ (∑ i ∈ A, alpha i - A.card) * Real.exp (-v))) (by fun_prop)
  rw [← lintegral_dirichletLaw hA h hg, ← lintegral_uniformSimplex hA (g := fun u => g u * ENNReal.ofReal ((∏ i ∈ A, u i ^ (alpha i - 1)) / ∏ i ∈ A, Real.Gamma (alpha i))) (hg.mul hm), hk] at hr
  have hc0 : ENNReal.ofReal (Real.Gamma A.card) ≠ 0 := by simpa using hG
  rw [lintegral_withDensity_eq_lintegral_mul _ ((measurable_dirichletPdf A alpha).div_const _).ennreal_ofReal hg]
  rw [← ENNReal.mul_right_inj hc0 ENNReal.ofReal_ne_top, hr, mul_comm, ← lintegral_const_mul' _ _ ENNReal.ofReal_ne_top,
    ← lintegral_const_mul' _ _ ENNReal.ofReal_ne_top]
  refine lintegral_congr fun u => ?_
  rw [Pi.mul_apply, ← mul_assoc (ENNReal.ofReal (Real.Gamma A.card)), ← ENNReal.ofReal_mul hG.le, mul_div_cancel₀ _ hG.ne',
    mul_comm (g u), ← mul_assoc, ← ENNReal.ofReal_mul hGa.le]
  congr 2
  unfold dirichletPdf
  ring

/-- Almost every point of the simplex has positive entries in `A`, zeros elsewhere, and sum one. -/
theorem uniformSimplex_ae {A : Finset ι} (hA : A.Nonempty) :
    ∀ᵐ u ∂uniformSimplex A, (∀ i, if i ∈ A then 0 < u i else u i = 0) ∧ ∑ i, u i = 1 := by
  unfold uniformSimplex
  rw [dirichletLaw_eq hA fun _ _ => one_pos]
  have hset : MeasurableSet {u : ι → ℝ | (∀ i, if i ∈ A then 0 < u i else u i = 0) ∧ ∑ i, u i = 1} := by
    rw [Set.ofPred_and]
    refine MeasurableSet.inter ?_ (measurableSet_eq_fun (by fun_prop) measurable_const)
    rw [show {u : ι → ℝ | ∀ i, if i ∈ A then 0 < u i else u i = 0} = ⋂ i, {u : ι → ℝ | if i ∈ A then 0 < u i else u i = 0} by
      ext; simp]
    refine MeasurableSet.iInter fun i => ?_
    by_cases h : i ∈ A
    · simp only [if_pos h]; exact measurableSet_lt measurable_const (measurable_pi_apply i)
    · simp only [if_neg h]; exact measurableSet_eq_fun (measurable_pi_apply i) measurable_const
  rw [ae_map_iff measurable_normalize.aemeasurable hset, pi_gammaEntry]
  refine (withDensity_absolutelyContinuous _ _).ae_le ?_
  filter_upwards [base_ae A, base_ae_sum hA] with x hx hs
  refine ⟨fun i => ?_, ?_⟩
  · have := hx i
    unfold Effects.normalize
    split at this
    · rw [if_pos ‹_›]; exact div_pos this hs
    · rw [if_neg ‹_›, this, zero_div]
  · unfold Effects.normalize
    rw [← Finset.sum_div, div_self hs.ne']

/-! ### Two entries -/

theorem lintegral_shift {f : ℝ → ℝ → ℝ≥0∞} (hf : Measurable (Function.uncurry f)) :
    ∫⁻ a in Set.Ioi 0, ∫⁻ b in Set.Ioi 0, f a (a + b) = ∫⁻ s in Set.Ioi 0, ∫⁻ x in Set.Ioo 0 s, f x s := by
  have h1 : ∀ a : ℝ, ∫⁻ b in Set.Ioi 0, f a (a + b) = ∫⁻ s in Set.Ioi a, f a s := by
    intro a
    rw [← lintegral_indicator measurableSet_Ioi, ← lintegral_indicator measurableSet_Ioi,
      ← lintegral_add_left_eq_self ((Set.Ioi a).indicator (f a)) a]
    refine lintegral_congr fun b => ?_
    simp only [Set.indicator, Set.mem_Ioi, lt_add_iff_pos_right]
  simp only [h1]
  have h2 : ∀ a s : ℝ, (Set.Ioi 0).indicator (fun a => (Set.Ioi a).indicator (f a) s) a =
      (Set.Ioi 0).indicator (fun s => (Set.Ioo 0 s).indicator (fun x => f x s) a) s := by
    intro a s
    simp only [Set.indicator, Set.mem_Ioi, Set.mem_Ioo]
    by_cases ha : 0 < a <;> by_cases has : a < s
    · simp [ha, has, ha.trans has]
    · simp [has]
    · simp [ha]
    · simp [has]
  have e1 : ∫⁻ a in Set.Ioi 0, ∫⁻ s in Set.Ioi a, f a s =
      ∫⁻ a, ∫⁻ s, (Set.Ioi 0).indicator (fun a => (Set.Ioi a).indicator (f a) s) a := by
    rw [← lintegral_indicator measurableSet_Ioi]
    refine lintegral_congr fun a => ?_
    by_cases ha : a ∈ Set.Ioi (0 : ℝ)
    · simp only [Set.indicator_of_mem ha]
      rw [lintegral_indicator measurableSet_Ioi]
    · simp only [Set.indicator_of_notMem ha, lintegral_zero]
  have e2 : ∫⁻ s in Set.Ioi 0, ∫⁻ x in Set.Ioo 0 s, f x s =
      ∫⁻ s, ∫⁻ a, (Set.Ioi 0).indicator (fun s => (Set.Ioo 0 s).indicator (fun x => f x s) a) s := by
    rw [← lintegral_indicator measurableSet_Ioi]
    refine lintegral_congr fun s => ?_
    by_cases hs : s ∈ Set.Ioi (0 : ℝ)
    · simp only [Set.indicator_of_mem hs]
      rw [lintegral_indicator measurableSet_Ioo]
    · simp only [Set.indicator_of_notMem hs, lintegral_zero]
  rw [e1, e2, lintegral_lintegral_swap]
  · simp only [h2]
  · have : Function.uncurry (fun a s => (Set.Ioi 0).indicator (fun a => (Set.Ioi a).indicator (f a) s) a) =
        {p : ℝ × ℝ | 0 < p.1 ∧ p.1 < p.2}.indicator (Function.uncurry f) := by
      funext p
      simp only [Function.uncurry, Set.indicator, Set.mem_Ioi, Set.mem_ofPred_eq]
      by_cases h : 0 < p.1 <;> by_cases h' : p.1 < p.2 <;> simp [h, h']
    rw [this]
    refine (hf.indicator ?_).aemeasurable
    exact (measurableSet_lt measurable_const measurable_fst).inter (measurableSet_lt measurable_fst measurable_snd)

theorem lintegral_Ioo_mul {s : ℝ} (hs : 0 < s) (g : ℝ → ℝ≥0∞) :
    ∫⁻ x in Set.Ioo 0 s, g x = ENNReal.ofReal s * ∫⁻ t in Set.Ioo 0 1, g (t * s) := by
  have : ∀ c : ℝ, ∀ g : ℝ → ℝ≥0∞, ∫⁻ x in Set.Ioo 0 c, g x = ∫⁻ x in Set.Ioi 0, (Set.Iio c).indicator g x := by
    intro c g
    rw [← lintegral_indicator measurableSet_Ioo, ← lintegral_indicator measurableSet_Ioi]
    refine lintegral_congr fun x => ?_
    simp only [Set.indicator, Set.mem_Ioo, Set.mem_Ioi, Set.mem_Iio]
    by_cases h : 0 < x <;> by_cases h' : x < c <;> simp [h, h']
  rw [this, this, lintegral_Ioi_mul hs]
  congr 1
  refine setLIntegral_congr_fun measurableSet_Ioi fun t ht => ?_
  simp only [Set.indicator, Set.mem_Iio, mul_comm t s]
  by_cases h : t < 1
  · rw [if_pos h, if_pos (by nlinarith)]
  · rw [if_neg h, if_neg (by nlinarith)]

/-- For two independent exponential variables, the share of the first is uniform and independent of the sum. -/
theorem lintegral_pair {f : ℝ → ℝ → ℝ≥0∞} (hf : Measurable (Function.uncurry f)) :
    ∫⁻ a in Set.Ioi 0, ∫⁻ b in Set.Ioi 0, ENNReal.ofReal (Real.exp (-(a + b))) *
        ∫⁻ t in Set.Ioo 0 1, f (t * (a + b)) ((1 - t) * (a + b)) =
      ∫⁻ a in Set.Ioi 0, ∫⁻ b in Set.Ioi 0, ENNReal.ofReal (Real.exp (-(a + b))) * f a b := by
  have hm : Measurable fun s : ℝ => ENNReal.ofReal (Real.exp (-s)) * ∫⁻ t in Set.Ioo 0 1, f (t * s) ((1 - t) * s) := by
    refine Measurable.mul (by fun_prop) ?_
    refine Measurable.lintegral_prod_right' (f := fun p : ℝ × ℝ => f (p.2 * p.1) ((1 - p.2) * p.1)) ?_
    exact hf.comp (Measurable.prodMk (by fun_prop) (by fun_prop))
  rw [lintegral_shift (f := fun _ s => ENNReal.ofReal (Real.exp (-s)) * ∫⁻ t in Set.Ioo 0 1, f (t * s) ((1 - t) * s))
    (hm.comp measurable_snd)]
  have h2 := lintegral_shift (f := fun a s => ENNReal.ofReal (Real.exp (-s)) * f a (s - a)) (by
    unfold Function.uncurry
    refine Measurable.mul (by fun_prop) ?_
    exact hf.comp (f := fun p : ℝ × ℝ => (p.1, p.2 - p.1)) (by fun_prop))
  simp only [add_sub_cancel_left] at h2
  rw [h2]
  refine setLIntegral_congr_fun measurableSet_Ioi fun s hs => ?_
  have hs : 0 < s := hs
  simp only [lintegral_const, MeasurableSet.univ, Measure.restrict_apply, Set.univ_inter, Real.volume_Ioo, sub_zero]
  rw [lintegral_Ioo_mul hs, lintegral_const_mul' _ _ ENNReal.ofReal_ne_top, mul_comm]
  congr 2
  refine lintegral_congr fun t => ?_
  rw [one_sub_mul]

end SBayes.Meas
