import Mathlib.Analysis.InnerProductSpace.MeanErgodic
import Mathlib.MeasureTheory.Function.L2Space
import Mathlib.Probability.Kernel.Composition.MeasureComp
import Mathlib.Probability.Kernel.Composition.IntegralCompProd
import Mathlib.Probability.Kernel.Composition.MapComap
import Mathlib.Order.Filter.CountableSeparatingOn
import Mathlib.Analysis.Asymptotics.SpecificAsymptotics
/- Averages along a Markov chain whose invariant sets are trivial. -/
namespace SBayes.Meas
open MeasureTheory ProbabilityTheory Filter Topology
open scoped BigOperators ENNReal RealInnerProductSpace

variable {X : Type} [MeasurableSpace X] {μ : Measure X} [IsProbabilityMeasure μ] {K : Kernel X X} [IsMarkovKernel K]

theorem mp_fst (μ : Measure X) [IsProbabilityMeasure μ] (K : Kernel X X) [IsMarkovKernel K] :
    MeasurePreserving Prod.fst (μ ⊗ₘ K) μ := ⟨measurable_fst, Measure.fst_compProd μ K⟩

theorem mp_snd (hK : K ∘ₘ μ = μ) : MeasurePreserving Prod.snd (μ ⊗ₘ K) μ :=
  ⟨measurable_snd, (Measure.snd_compProd μ K).trans hK⟩

/-- Functions of the current state. -/
noncomputable def atStart (μ : Measure X) [IsProbabilityMeasure μ] (K : Kernel X X) [IsMarkovKernel K] :
    Lp ℝ 2 μ →ₗᵢ[ℝ] Lp ℝ 2 (μ ⊗ₘ K) := Lp.compMeasurePreservingₗᵢ ℝ Prod.fst (mp_fst μ K)

/-- Functions of the next state. -/
noncomputable def atEnd (hK : K ∘ₘ μ = μ) : Lp ℝ 2 μ →ₗᵢ[ℝ] Lp ℝ 2 (μ ⊗ₘ K) :=
  Lp.compMeasurePreservingₗᵢ ℝ Prod.snd (mp_snd hK)

/-- The expectation of a function of the next state. -/
noncomputable def transfer (hK : K ∘ₘ μ = μ) : Lp ℝ 2 μ →L[ℝ] Lp ℝ 2 μ :=
  (ContinuousLinearMap.adjoint (atStart μ K).toContinuousLinearMap) ∘L (atEnd hK).toContinuousLinearMap

theorem atStart_ae (f : Lp ℝ 2 μ) : atStart μ K f =ᵐ[μ ⊗ₘ K] fun p => f p.1 := Lp.coeFn_compMeasurePreserving f (mp_fst μ K)

theorem atEnd_ae (hK : K ∘ₘ μ = μ) (f : Lp ℝ 2 μ) : atEnd hK f =ᵐ[μ ⊗ₘ K] fun p => f p.2 :=
  Lp.coeFn_compMeasurePreserving f (mp_snd hK)

theorem transfer_norm (hK : K ∘ₘ μ = μ) : ‖transfer hK‖ ≤ 1 := by
  refine (ContinuousLinearMap.opNorm_comp_le _ _).trans ?_
  rw [LinearIsometryEquiv.norm_map]
  exact mul_le_one₀ (LinearIsometry.norm_toContinuousLinearMap_le _) (norm_nonneg _) (LinearIsometry.norm_toContinuousLinearMap_le _)

theorem inner_transfer (hK : K ∘ₘ μ = μ) (f g : Lp ℝ 2 μ) : ⟪transfer hK f, g⟫ = ⟪atEnd hK f, atStart μ K g⟫ := by
  unfold transfer
  rw [ContinuousLinearMap.comp_apply, ContinuousLinearMap.adjoint_inner_left, LinearIsometry.coe_toContinuousLinearMap,
    LinearIsometry.coe_toContinuousLinearMap]

/-- A function whose expectation does not change does not change. -/
theorem fixed_joint (hK : K ∘ₘ μ = μ) {h : Lp ℝ 2 μ} (hU : transfer hK h = h) : atEnd hK h = atStart μ K h := by
  have h1 := norm_sub_sq_real (atEnd hK h) (atStart μ K h)
  rw [← inner_transfer, hU, LinearIsometry.norm_map, LinearIsometry.norm_map, real_inner_self_eq_norm_sq] at h1
  have : ‖atEnd hK h - atStart μ K h‖ ^ 2 = 0 := by rw [h1]; ring
  exact sub_eq_zero.mp (norm_eq_zero.mp (pow_eq_zero_iff (two_ne_zero) |>.mp this))

/-- Only trivial sets can be neither entered nor left. -/
def Ergo (μ : Measure X) (K : Kernel X X) : Prop :=
  ∀ A, MeasurableSet A → (∀ᵐ x ∂μ, x ∉ A → K x A = 0) → (∀ᵐ x ∂μ, x ∈ A → K x Aᶜ = 0) → (∀ᵐ x ∂μ, x ∈ A) ∨ ∀ᵐ x ∂μ, x ∉ A

theorem fixed_const (hK : K ∘ₘ μ = μ) (hE : Ergo μ K) {h : Lp ℝ 2 μ} (hU : transfer hK h = h) : ∃ c : ℝ, h =ᵐ[μ] fun _ => c := by
  have hj : ∀ᵐ p ∂μ ⊗ₘ K, h p.2 = h p.1 := by
    filter_upwards [atStart_ae (K := K) h, atEnd_ae hK h] with p h1 h2
    rw [← h1, ← h2, fixed_joint hK hU]
  have hxy := Measure.ae_ae_of_ae_compProd hj
  have hm : Measurable h := (Lp.stronglyMeasurable h).measurable
  refine exists_eventuallyEq_const_of_forall_separating MeasurableSet fun V hV => ?_
  refine hE (h ⁻¹' V) (hm hV) ?_ ?_
  · filter_upwards [hxy] with x hx hxV
    refine measure_mono_null (fun y hy => ?_) (ae_iff.mp hx)
    intro he
    exact hxV (by show h x ∈ V; have : h y ∈ V := hy; rwa [← he])
  · filter_upwards [hxy] with x hx hxV
    refine measure_mono_null (fun y hy => ?_) (ae_iff.mp hx)
    intro he
    exact hy (by show h y ∈ V; have : h x ∈ V := hxV; rwa [he])

/-! ### Bounded functions -/

/-- A bounded measurable function. -/
structure Bdd (f : X → ℝ) (B : ℝ) : Prop where
  meas : Measurable f
  le : ∀ x, |f x| ≤ B

theorem Bdd.integrable {f : X → ℝ} {B : ℝ} (h : Bdd f B) (ν : Measure X) [IsFiniteMeasure ν] : Integrable f ν :=
  Integrable.of_bound h.meas.aestronglyMeasurable B (ae_of_all _ h.le)

theorem Bdd.memLp {f : X → ℝ} {B : ℝ} (h : Bdd f B) (ν : Measure X) [IsFiniteMeasure ν] : MemLp f 2 ν :=
  MemLp.of_bound h.meas.aestronglyMeasurable B (ae_of_all _ h.le)

theorem Bdd.next {f : X → ℝ} {B : ℝ} (h : Bdd f B) (K : Kernel X X) [IsMarkovKernel K] : Bdd (fun x => ∫ y, f y ∂K x) B where
  meas := (h.meas.stronglyMeasurable.integral_kernel (κ := K)).measurable
  le x := by
    have := norm_integral_le_of_norm_le_const (μ := K x) (f := f) (C := B) (ae_of_all _ h.le)
    simpa using this

theorem Bdd.add {f g : X → ℝ} {B C : ℝ} (h : Bdd f B) (h' : Bdd g C) : Bdd (fun x => f x + g x) (B + C) :=
  ⟨h.meas.add h'.meas, fun x => (abs_add_le _ _).trans (add_le_add (h.le x) (h'.le x))⟩

theorem transfer_bdd (hK : K ∘ₘ μ = μ) {f : X → ℝ} {B : ℝ} (h : Bdd f B) :
    transfer hK (h.memLp μ).toLp = ((h.next K).memLp μ).toLp := by
  refine ext_inner_right ℝ fun g => ?_
  rw [inner_transfer, L2.inner_def, L2.inner_def]
  have e1 : ∀ᵐ p ∂μ ⊗ₘ K, ⟪atEnd hK (h.memLp μ).toLp p, atStart μ K g p⟫ = g p.1 * f p.2 := by
    have := (mp_snd hK).quasiMeasurePreserving.ae (h.memLp μ).coeFn_toLp
    filter_upwards [atStart_ae (K := K) g, atEnd_ae hK (h.memLp μ).toLp, this] with p h1 h2 h3
    rw [h1, h2, h3]
    simp
  have hint : Integrable (fun p : X × X => g p.1 * f p.2) (μ ⊗ₘ K) :=
    (L2.integrable_inner (𝕜 := ℝ) (atEnd hK (h.memLp μ).toLp) (atStart μ K g)).congr e1
  rw [integral_congr_ae e1, Measure.integral_compProd hint]
  refine integral_congr_ae ?_
  filter_upwards [((h.next K).memLp μ).coeFn_toLp] with x hx
  rw [hx, integral_const_mul]
  simp

theorem integral_next (hK : K ∘ₘ μ = μ) {f : X → ℝ} {B : ℝ} (h : Bdd f B) : ∫ x, ∫ y, f y ∂K x ∂μ = ∫ x, f x ∂μ := by
  have h2 : Integrable (fun p : X × X => f p.2) (μ ⊗ₘ K) :=
    Integrable.of_bound (h.meas.comp measurable_snd).aestronglyMeasurable B (ae_of_all _ fun p => h.le p.2)
  rw [← Measure.integral_compProd h2]
  have := (mp_snd hK).map_eq
  conv_rhs => rw [← this]
  rw [integral_map measurable_snd.aemeasurable h.meas.aestronglyMeasurable]

/-! ### Averages in the mean -/

/-- The averages of the expectations of a centred function vanish. -/
theorem average_zero (hK : K ∘ₘ μ = μ) (hE : Ergo μ K) {f : X → ℝ} {B : ℝ} (h : Bdd f B) (h0 : ∫ x, f x ∂μ = 0) :
    Tendsto (fun n => ‖birkhoffAverage ℝ (transfer hK) _root_.id n (h.memLp μ).toLp‖) atTop (𝓝 0) := by
  have h1 := (transfer hK).tendsto_birkhoffAverage_orthogonalProjection (transfer_norm hK) (h.memLp μ).toLp
  set P := (transfer hK).eqLocus (1 : Lp ℝ 2 μ →L[ℝ] Lp ℝ 2 μ) with hP
  have hc1 : Bdd (fun _ : X => (1 : ℝ)) 1 := ⟨measurable_const, fun _ => by simp⟩
  have hone : (hc1.memLp μ).toLp ∈ P := by
    show transfer hK _ = _
    rw [transfer_bdd hK hc1]
    simp
  have hmem : ((P.orthogonalProjectionOnto (h.memLp μ).toLp : P) : Lp ℝ 2 μ) ∈ P := Subtype.mem _
  obtain ⟨c, hc⟩ := fixed_const hK hE (h := ((P.orthogonalProjectionOnto (h.memLp μ).toLp : P) : Lp ℝ 2 μ)) hmem
  have hin : ⟪(h.memLp μ).toLp - (P.orthogonalProjectionOnto (h.memLp μ).toLp : Lp ℝ 2 μ), (hc1.memLp μ).toLp⟫ = 0 := by
    rw [real_inner_comm]
    exact Submodule.inner_right_of_mem_orthogonal hone (Submodule.sub_starProjection_mem_orthogonal _)
  have hin1 : ⟪(h.memLp μ).toLp, (hc1.memLp μ).toLp⟫ = 0 := by
    rw [L2.inner_def, ← h0]
    refine integral_congr_ae ?_
    filter_upwards [(h.memLp μ).coeFn_toLp, (hc1.memLp μ).coeFn_toLp] with x h1 h2
    rw [h1, h2]
    simp
  have hin2 : ⟪(P.orthogonalProjectionOnto (h.memLp μ).toLp : Lp ℝ 2 μ), (hc1.memLp μ).toLp⟫ = c := by
    rw [L2.inner_def, show c = ∫ _ : X, c ∂μ by simp]
    refine integral_congr_ae ?_
    filter_upwards [hc, (hc1.memLp μ).coeFn_toLp] with x h1 h2
    rw [h1, h2]
    simp
  rw [inner_sub_left, hin1, hin2, zero_sub, neg_eq_zero] at hin
  subst hin
  have hz : (P.orthogonalProjectionOnto (h.memLp μ).toLp : Lp ℝ 2 μ) = 0 := by
    refine Lp.ext ?_
    filter_upwards [hc, Lp.coeFn_zero ℝ 2 μ] with x h1 h2
    rw [h1, h2]
    rfl
  rw [hz] at h1
  simpa using h1.norm

/-! ### Sums along the chain -/

/-- The law of the sum of a function over the first `n` states after the initial one. -/
noncomputable def sumKer (K : Kernel X X) (f : X → ℝ) : ℕ → Kernel X ℝ
  | 0 => Kernel.const X (Measure.dirac 0)
  | n + 1 => (K ⊗ₖ Kernel.prodMkLeft X (sumKer K f n)).map fun p => p.2 + f p.1

theorem measurable_shift {f : X → ℝ} (hf : Measurable f) : Measurable fun p : X × ℝ => p.2 + f p.1 :=
  measurable_snd.add (hf.comp measurable_fst)

theorem sumKer_markov {f : X → ℝ} (hf : Measurable f) (n : ℕ) : IsMarkovKernel (sumKer K f n) := by
  induction n with
  | zero => unfold sumKer; infer_instance
  | succ n ih => unfold sumKer; exact Kernel.IsMarkovKernel.map _ (measurable_shift hf)

theorem lintegral_sumKer_succ {f : X → ℝ} (hf : Measurable f) (n : ℕ) (x : X) {g : ℝ → ℝ≥0∞} (hg : Measurable g) :
    ∫⁻ s, g s ∂sumKer K f (n + 1) x = ∫⁻ y, ∫⁻ s, g (s + f y) ∂sumKer K f n y ∂K x := by
  have := sumKer_markov (K := K) hf n
  have hgs : Measurable fun p : X × ℝ => g (p.2 + f p.1) := hg.comp (measurable_shift hf)
  rw [sumKer, Kernel.lintegral_map _ (measurable_shift hf) _ hg, Kernel.lintegral_compProd _ _ _ hgs]
  rfl

theorem sumKer_bound {f : X → ℝ} {B : ℝ} (h : Bdd f B) (n : ℕ) (x : X) : ∀ᵐ s ∂sumKer K f n x, |s| ≤ n * B := by
  induction n generalizing x with
  | zero =>
    show ∀ᵐ s ∂Measure.dirac (0 : ℝ), _
    have hms : MeasurableSet {s : ℝ | |s| ≤ ((0 : ℕ) : ℝ) * B} := measurableSet_le measurable_norm measurable_const
    rw [ae_dirac_iff hms]
    simp
  | succ n ih =>
    have := sumKer_markov (K := K) h.meas n
    have hms : MeasurableSet {s : ℝ | ¬ |s| ≤ ((n + 1 : ℕ) : ℝ) * B} := (measurableSet_le measurable_norm measurable_const).compl
    rw [ae_iff, ← lintegral_indicator_one hms, lintegral_sumKer_succ h.meas n x (measurable_one.indicator hms)]
    have : ∀ y, ∫⁻ s, ({s : ℝ | ¬ |s| ≤ ((n + 1 : ℕ) : ℝ) * B}.indicator 1 (s + f y) : ℝ≥0∞) ∂sumKer K f n y = 0 := by
      intro y
      rw [lintegral_congr_ae (g := fun _ => 0), lintegral_zero]
      filter_upwards [ih y] with s hs
      refine Set.indicator_of_notMem ?_ _
      rw [Set.mem_ofPred_eq, not_not]
      push_cast
      have := (abs_add_le s (f y)).trans (add_le_add hs (h.le y))
      linarith
    simp only [this, lintegral_zero]

theorem sumKer_integrable {f : X → ℝ} {B : ℝ} (h : Bdd f B) (n : ℕ) (x : X) {φ : ℝ → ℝ} (hφ : Measurable φ) {C : ℝ}
    (hC : ∀ s, |s| ≤ n * B → |φ s| ≤ C) : Integrable φ (sumKer K f n x) := by
  have := sumKer_markov (K := K) h.meas n
  exact Integrable.of_bound hφ.aestronglyMeasurable C ((sumKer_bound h n x).mono fun s hs => hC s hs)

theorem integral_sumKer_succ {f : X → ℝ} {B : ℝ} (h : Bdd f B) (n : ℕ) (x : X) {φ : ℝ → ℝ} (hφ : Measurable φ) {C : ℝ}
    (hC : ∀ s, |s| ≤ (n + 1 : ℕ) * B → |φ s| ≤ C) :
    ∫ s, φ s ∂sumKer K f (n + 1) x = ∫ y, ∫ s, φ (s + f y) ∂sumKer K f n y ∂K x := by
  have := sumKer_markov (K := K) h.meas n
  have hi := sumKer_integrable (K := K) h (n + 1) x hφ hC
  rw [sumKer, Kernel.map_apply _ (measurable_shift h.meas)] at hi ⊢
  rw [integral_map (measurable_shift h.meas).aemeasurable hφ.aestronglyMeasurable]
  rw [integrable_map_measure hφ.aestronglyMeasurable (measurable_shift h.meas).aemeasurable] at hi
  have hi' : Integrable (fun p : X × ℝ => φ (p.2 + f p.1)) ((K ⊗ₖ Kernel.prodMkLeft X (sumKer K f n)) x) := hi
  rw [ProbabilityTheory.integral_compProd hi']
  rfl

/-! ### Moments of the sums -/

section Moments
variable {f : X → ℝ} {B : ℝ} {c : ℝ}

/-- The expected excess of the sum. -/
noncomputable def first (K : Kernel X X) (f : X → ℝ) (c : ℝ) (n : ℕ) (x : X) : ℝ := ∫ s, (s - n * c) ∂sumKer K f n x

/-- The expected square of the excess of the sum. -/
noncomputable def second (K : Kernel X X) (f : X → ℝ) (c : ℝ) (n : ℕ) (x : X) : ℝ := ∫ s, (s - n * c) ^ 2 ∂sumKer K f n x

theorem abs_excess (hB : |c| ≤ B) {n : ℕ} {s : ℝ} (hs : |s| ≤ n * B) : |s - n * c| ≤ n * (2 * B) := by
  have h1 : |(n : ℝ) * c| ≤ n * B := by
    rw [abs_mul, Nat.abs_cast]
    exact mul_le_mul_of_nonneg_left hB (Nat.cast_nonneg n)
  have := abs_sub s (n * c)
  linarith

theorem sq_excess (hB : |c| ≤ B) {n : ℕ} {s : ℝ} (hs : |s| ≤ n * B) : |(s - n * c) ^ 2| ≤ (n * (2 * B)) ^ 2 := by
  rw [abs_pow]
  exact pow_le_pow_left₀ (abs_nonneg _) (abs_excess hB hs) 2

theorem first_bdd (h : Bdd f B) (hB : |c| ≤ B) (n : ℕ) : Bdd (first K f c n) (n * (2 * B)) := by
  have := sumKer_markov (K := K) h.meas n
  have hm : Measurable fun s : ℝ => s - n * c := measurable_id.sub measurable_const
  refine ⟨(hm.stronglyMeasurable.integral_kernel (κ := sumKer K f n)).measurable, fun x => ?_⟩
  have := norm_integral_le_of_norm_le_const (μ := sumKer K f n x) (f := fun s : ℝ => s - n * c) (C := n * (2 * B))
    ((sumKer_bound h n x).mono fun s hs => abs_excess hB hs)
  simpa [first] using this

theorem second_bdd (h : Bdd f B) (hB : |c| ≤ B) (n : ℕ) : Bdd (second K f c n) ((n * (2 * B)) ^ 2) := by
  have := sumKer_markov (K := K) h.meas n
  have hm : Measurable fun s : ℝ => (s - n * c) ^ 2 := (measurable_id.sub measurable_const).pow_const 2
  refine ⟨(hm.stronglyMeasurable.integral_kernel (κ := sumKer K f n)).measurable, fun x => ?_⟩
  have := norm_integral_le_of_norm_le_const (μ := sumKer K f n x) (f := fun s : ℝ => (s - n * c) ^ 2) (C := (n * (2 * B)) ^ 2)
    ((sumKer_bound h n x).mono fun s hs => sq_excess hB hs)
  simpa [second] using this

theorem first_succ (h : Bdd f B) (hB : |c| ≤ B) (n : ℕ) (x : X) :
    first K f c (n + 1) x = ∫ y, ((f y - c) + first K f c n y) ∂K x := by
  have hmk := sumKer_markov (K := K) h.meas n
  have hm : Measurable fun s : ℝ => s - ((n + 1 : ℕ) : ℝ) * c := measurable_id.sub measurable_const
  unfold first
  rw [integral_sumKer_succ h n x hm fun s hs => abs_excess hB hs]
  refine integral_congr_ae (ae_of_all _ fun y => ?_)
  have hi : Integrable (fun s : ℝ => s - n * c) (sumKer K f n y) :=
    sumKer_integrable h n y (measurable_id.sub measurable_const) fun s hs => abs_excess hB hs
  have e : ∀ s : ℝ, s + f y - ((n + 1 : ℕ) : ℝ) * c = (f y - c) + (s - n * c) := fun s => by push_cast; ring
  simp only [e]
  rw [integral_add (integrable_const _) hi]
  simp

theorem second_succ (h : Bdd f B) (hB : |c| ≤ B) (n : ℕ) (x : X) :
    second K f c (n + 1) x = ∫ y, ((f y - c) ^ 2 + 2 * ((f y - c) * first K f c n y) + second K f c n y) ∂K x := by
  have hmk := sumKer_markov (K := K) h.meas n
  have hm : Measurable fun s : ℝ => (s - ((n + 1 : ℕ) : ℝ) * c) ^ 2 := (measurable_id.sub measurable_const).pow_const 2
  unfold second
  rw [integral_sumKer_succ h n x hm fun s hs => sq_excess hB hs]
  refine integral_congr_ae (ae_of_all _ fun y => ?_)
  have hi : Integrable (fun s : ℝ => s - n * c) (sumKer K f n y) :=
    sumKer_integrable h n y (measurable_id.sub measurable_const) fun s hs => abs_excess hB hs
  have hi2 : Integrable (fun s : ℝ => (s - n * c) ^ 2) (sumKer K f n y) :=
    sumKer_integrable h n y ((measurable_id.sub measurable_const).pow_const 2) fun s hs => sq_excess hB hs
  have e : ∀ s : ℝ, (s + f y - ((n + 1 : ℕ) : ℝ) * c) ^ 2 =
      ((f y - c) ^ 2 + (2 * (f y - c)) * (s - n * c)) + (s - n * c) ^ 2 := fun s => by push_cast; ring
  simp only [e]
  have hi1 : Integrable (fun s : ℝ => (f y - c) ^ 2 + (2 * (f y - c)) * (s - n * c)) (sumKer K f n y) :=
    (integrable_const _).add (hi.const_mul _)
  rw [integral_add hi1 hi2, integral_add (integrable_const _) (hi.const_mul _),
    integral_const_mul]
  simp [first]
  ring

theorem centred_bdd (h : Bdd f B) (hB : |c| ≤ B) : Bdd (fun x => f x - c) (2 * B) :=
  ⟨h.meas.sub measurable_const, fun x => by have := abs_sub (f x) c; have := h.le x; linarith⟩

theorem first_toLp (hK : K ∘ₘ μ = μ) (h : Bdd f B) (hB : |c| ≤ B) (n : ℕ) :
    ((first_bdd (K := K) h hB n).memLp μ).toLp =
      transfer hK (∑ i ∈ Finset.range n, (transfer hK)^[i] ((centred_bdd h hB).memLp μ).toLp) := by
  induction n with
  | zero =>
    rw [Finset.sum_range_zero, map_zero]
    refine Lp.ext ?_
    filter_upwards [((first_bdd (K := K) h hB 0).memLp μ).coeFn_toLp, Lp.coeFn_zero ℝ 2 μ] with x h1 h2
    rw [h1, h2]
    show ∫ s, (s - ((0 : ℕ) : ℝ) * c) ∂Measure.dirac (0 : ℝ) = 0
    simp
  | succ n ih =>
    have hb := (centred_bdd h hB).add (first_bdd (K := K) h hB n)
    have e1 : ((first_bdd (K := K) h hB (n + 1)).memLp μ).toLp = ((hb.next K).memLp μ).toLp :=
      MemLp.toLp_congr _ _ (ae_of_all _ fun x => first_succ h hB n x)
    have e2 : (hb.memLp μ).toLp = ((centred_bdd h hB).memLp μ).toLp + ((first_bdd (K := K) h hB n).memLp μ).toLp := rfl
    rw [e1, ← transfer_bdd hK hb, e2, ih, map_sum, Finset.sum_range_succ']
    simp only [Function.iterate_succ_apply', Function.iterate_zero, id_eq]
    rw [add_comm]

/-- The mean square of the excess, over `n²`, vanishes. -/
theorem second_mean (hK : K ∘ₘ μ = μ) (hE : Ergo μ K) (h : Bdd f B) (hc : ∫ x, f x ∂μ = c) :
    Tendsto (fun n : ℕ => (∫ x, second K f c n x ∂μ) / (n : ℝ) ^ 2) atTop (𝓝 0) := by
  have hB : |c| ≤ B := by
    rw [← hc]
    have := norm_integral_le_of_norm_le_const (μ := μ) (f := f) (C := B) (ae_of_all _ h.le)
    simpa using this
  have h0 : ∫ x, (f x - c) ∂μ = 0 := by
    rw [integral_sub (h.integrable μ) (integrable_const c), hc]
    simp
  set F := ((centred_bdd h hB).memLp μ).toLp with hF
  set a := fun n => ‖birkhoffAverage ℝ (transfer hK) _root_.id n F‖ with ha
  have ha0 : Tendsto a atTop (𝓝 0) := average_zero hK hE (centred_bdd h hB) h0
  have hB0 : 0 ≤ B := (abs_nonneg _).trans hB
  have hsum : ∀ n : ℕ, ‖∑ i ∈ Finset.range n, (transfer hK)^[i] F‖ ≤ n * a n := by
    intro n
    rcases Nat.eq_zero_or_pos n with rfl | hn
    · simp
    have : ∑ i ∈ Finset.range n, (transfer hK)^[i] F = (n : ℝ) • birkhoffAverage ℝ (transfer hK) _root_.id n F := by
      unfold birkhoffAverage birkhoffSum
      rw [smul_smul, mul_inv_cancel₀ (by positivity), one_smul]
      rfl
    rw [this, norm_smul]
    simp [ha]
  have hcross : ∀ n : ℕ, ∫ x, (f x - c) * first K f c n x ∂μ ≤ ‖F‖ * (n * a n) := by
    intro n
    have e : ∫ x, (f x - c) * first K f c n x ∂μ = ⟪F, ((first_bdd (K := K) h hB n).memLp μ).toLp⟫ := by
      rw [L2.inner_def]
      refine integral_congr_ae ?_
      filter_upwards [((centred_bdd h hB).memLp μ).coeFn_toLp, ((first_bdd (K := K) h hB n).memLp μ).coeFn_toLp] with x h1 h2
      rw [h1, h2]
      simp [mul_comm]
    rw [e]
    refine (real_inner_le_norm _ _).trans (mul_le_mul_of_nonneg_left ?_ (norm_nonneg _))
    rw [first_toLp hK h hB n]
    refine ((transfer hK).le_opNorm _).trans ((mul_le_of_le_one_left (norm_nonneg _) (transfer_norm hK)).trans (hsum n))
  have hrec : ∀ n : ℕ, ∫ x, second K f c (n + 1) x ∂μ ≤ ∫ x, second K f c n x ∂μ + (2 * (‖F‖ * (n * a n)) + (2 * B) ^ 2) := by
    intro n
    have b1 : Bdd (fun x => (f x - c) ^ 2) ((2 * B) ^ 2) :=
      ⟨(h.meas.sub measurable_const).pow_const 2, fun x => by
        rw [abs_pow]; exact pow_le_pow_left₀ (abs_nonneg _) ((centred_bdd h hB).le x) 2⟩
    have b2 : Bdd (fun x => 2 * ((f x - c) * first K f c n x)) (2 * ((2 * B) * (n * (2 * B)))) :=
      ⟨measurable_const.mul ((h.meas.sub measurable_const).mul (first_bdd (K := K) h hB n).meas), fun x => by
        rw [abs_mul, abs_mul, abs_two]
        refine mul_le_mul_of_nonneg_left ?_ zero_le_two
        exact mul_le_mul ((centred_bdd h hB).le x) ((first_bdd (K := K) h hB n).le x) (abs_nonneg _) (by positivity)⟩
    have b3 := second_bdd (K := K) h hB n
    have e : ∫ x, second K f c (n + 1) x ∂μ = ∫ x, (f x - c) ^ 2 ∂μ + ∫ x, 2 * ((f x - c) * first K f c n x) ∂μ +
        ∫ x, second K f c n x ∂μ := by
      rw [integral_congr_ae (ae_of_all _ fun x => second_succ h hB n x), integral_next hK ((b1.add b2).add b3),
        integral_add ((b1.add b2).integrable μ) (b3.integrable μ), integral_add (b1.integrable μ) (b2.integrable μ)]
    have l1 : ∫ x, (f x - c) ^ 2 ∂μ ≤ (2 * B) ^ 2 := by
      have := norm_integral_le_of_norm_le_const (μ := μ) (f := fun x => (f x - c) ^ 2) (C := (2 * B) ^ 2) (ae_of_all _ b1.le)
      simp only [probReal_univ, mul_one] at this
      exact (le_abs_self _).trans this
    rw [e, integral_const_mul]
    have := hcross n
    linarith
  have hbound : ∀ n : ℕ, ∫ x, second K f c n x ∂μ ≤ n * (∑ i ∈ Finset.range n, 2 * (‖F‖ * a i)) + n * (2 * B) ^ 2 := by
    intro n
    induction n with
    | zero =>
      have : ∀ x, second K f c 0 x = 0 := fun x => by
        show ∫ s, (s - ((0 : ℕ) : ℝ) * c) ^ 2 ∂Measure.dirac (0 : ℝ) = 0
        simp
      simp [this]
    | succ n ih =>
      refine (hrec n).trans ?_
      rw [Finset.sum_range_succ]
      have p1 : 0 ≤ ∑ i ∈ Finset.range n, 2 * (‖F‖ * a i) := Finset.sum_nonneg fun i _ => by positivity
      have p2 : 0 ≤ 2 * (‖F‖ * a n) := by positivity
      push_cast
      nlinarith
  have hlim : Tendsto (fun n : ℕ => (n⁻¹ : ℝ) * (∑ i ∈ Finset.range n, 2 * (‖F‖ * a i)) + (2 * B) ^ 2 * (n⁻¹ : ℝ)) atTop (𝓝 0) := by
    have h1 : Tendsto (fun i => 2 * (‖F‖ * a i)) atTop (𝓝 0) := by
      have := (ha0.const_mul ‖F‖).const_mul 2
      simpa using this
    have h2 := h1.cesaro
    have h3 := (tendsto_inv_atTop_nhds_zero_nat (𝕜 := ℝ)).const_mul ((2 * B) ^ 2)
    simpa using h2.add h3
  refine squeeze_zero (fun n => ?_) (fun n => ?_) hlim
  · refine div_nonneg (integral_nonneg fun x => ?_) (by positivity)
    exact integral_nonneg fun s => sq_nonneg _
  · rcases Nat.eq_zero_or_pos n with rfl | hn
    · simp
    have hn' : (0 : ℝ) < n := by exact_mod_cast hn
    rw [div_le_iff₀ (by positivity)]
    refine (hbound n).trans_eq ?_
    field_simp

end Moments

end SBayes.Meas
