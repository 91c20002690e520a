import Verif.Lemmas.LLNStart
/- Averages along a chain: from some time on they stay close to the mean, with high probability. -/
namespace SBayes.Meas
set_option linter.unusedSectionVars false
open MeasureTheory ProbabilityTheory Filter Topology
open scoped BigOperators ENNReal

variable {X : Type} [MeasurableSpace X] {μ : Measure X} [IsProbabilityMeasure μ] {K : Kernel X X} [IsMarkovKernel K]

/-! ### Paths -/

/-- Lists of `n` states. -/
def Path (X : Type) : ℕ → Type
  | 0 => Unit
  | n + 1 => X × Path X n

instance instPath : (n : ℕ) → MeasurableSpace (Path X n)
  | 0 => inferInstanceAs (MeasurableSpace Unit)
  | n + 1 => letI := instPath n; inferInstanceAs (MeasurableSpace (X × Path X n))

/-- The law of the first `n` states after the initial one. -/
noncomputable def pathKer (K : Kernel X X) : (n : ℕ) → Kernel X (Path X n)
  | 0 => Kernel.const X (Measure.dirac ())
  | n + 1 => (K ⊗ₖ Kernel.prodMkLeft X (pathKer K n) : Kernel X (X × Path X n))

theorem pathKer_markov (n : ℕ) : IsMarkovKernel (pathKer K n) := by
  induction n with
  | zero => unfold pathKer; exact inferInstanceAs (IsMarkovKernel (Kernel.const X (Measure.dirac ())))
  | succ n ih => unfold pathKer; exact inferInstanceAs (IsMarkovKernel (K ⊗ₖ Kernel.prodMkLeft X (pathKer K n) : Kernel X (X × Path X n)))

theorem lintegral_pathKer_succ (n : ℕ) (x : X) {G : X × Path X n → ℝ≥0∞} (hG : Measurable G) :
    ∫⁻ p, G p ∂(pathKer K (n + 1) x : Measure (X × Path X n)) = ∫⁻ y, ∫⁻ p, G (y, p) ∂pathKer K n y ∂K x := by
  have := pathKer_markov (K := K) n
  show ∫⁻ p, G p ∂((K ⊗ₖ Kernel.prodMkLeft X (pathKer K n) : Kernel X (X × Path X n)) x) = _
  rw [Kernel.lintegral_compProd _ _ _ hG]
  rfl

/-- The sum over the first `m` states of a path. -/
def psum (f : X → ℝ) : (n m : ℕ) → Path X n → ℝ
  | _, 0, _ => 0
  | 0, _ + 1, _ => 0
  | n + 1, m + 1, p => psum f n m p.2 + f p.1

theorem psum_meas {f : X → ℝ} (hf : Measurable f) : ∀ n m, Measurable (psum f n m)
  | n, 0 => by
    have e : psum f n 0 = fun _ => 0 := by funext p; cases n <;> rfl
    rw [e]; exact measurable_const
  | 0, m + 1 => by
    have e : psum f 0 (m + 1) = fun _ => 0 := by funext p; rfl
    rw [e]; exact measurable_const
  | n + 1, m + 1 => by
    have h1 : Measurable fun p : X × Path X n => psum f n m p.2 + f p.1 :=
      ((psum_meas hf n m).comp measurable_snd).add (hf.comp measurable_fst)
    exact h1

theorem path_sum {f : X → ℝ} (hf : Measurable f) {n m : ℕ} (hm : m ≤ n) (x : X) {g : ℝ → ℝ≥0∞} (hg : Measurable g) :
    ∫⁻ p, g (psum f n m p) ∂pathKer K n x = ∫⁻ t, g t ∂sumKer K f m x := by
  induction n generalizing m x g with
  | zero =>
    obtain rfl : m = 0 := by omega
    have e : ∀ p, g (psum f 0 0 p) = g 0 := fun p => rfl
    have := pathKer_markov (K := K) 0
    simp only [e, lintegral_const, measure_univ, mul_one]
    show g 0 = ∫⁻ t, g t ∂Measure.dirac (0 : ℝ)
    rw [lintegral_dirac' _ hg]
  | succ n ih =>
    cases m with
    | zero =>
      have e : ∀ p, g (psum f (n + 1) 0 p) = g 0 := fun p => rfl
      have := pathKer_markov (K := K) (n + 1)
      simp only [e, lintegral_const, measure_univ, mul_one]
      show g 0 = ∫⁻ t, g t ∂Measure.dirac (0 : ℝ)
      rw [lintegral_dirac' _ hg]
    | succ m =>
      rw [lintegral_sumKer_succ hf m x hg]
      have hG : Measurable fun p : X × Path X n => g (psum f (n + 1) (m + 1) p) := hg.comp (psum_meas hf (n + 1) (m + 1))
      refine (lintegral_pathKer_succ n x hG).trans ?_
      refine lintegral_congr fun y => ?_
      exact ih (by omega) y (g := fun t => g (t + f y)) (hg.comp (measurable_id.add measurable_const))

theorem psum_step {u : X → ℝ} {U : ℝ} (hu : ∀ x, |u x| ≤ U) (hU : 0 ≤ U) : ∀ (n m : ℕ) (p : Path X n), |psum u n (m + 1) p - psum u n m p| ≤ U
  | 0, 0, p => by simp [psum, hU]
  | 0, m + 1, p => by simp [psum, hU]
  | n + 1, 0, p => by
    have : psum u (n + 1) (0 + 1) p - psum u (n + 1) 0 p = u p.1 := by simp [psum]
    rw [this]; exact hu _
  | n + 1, m + 1, p => by
    have : psum u (n + 1) (m + 1 + 1) p - psum u (n + 1) (m + 1) p = psum u n (m + 1) p.2 - psum u n m p.2 := by simp [psum]
    rw [this]; exact psum_step hu hU n m p.2

theorem psum_gap {u : X → ℝ} {U : ℝ} (hu : ∀ x, |u x| ≤ U) (hU : 0 ≤ U) (n m j : ℕ) (p : Path X n) :
    |psum u n (m + j) p - psum u n m p| ≤ j * U := by
  induction j with
  | zero => simp
  | succ j ih =>
    have h1 := psum_step hu hU n (m + j) p
    have h2 := abs_add_le (psum u n (m + j + 1) p - psum u n (m + j) p) (psum u n (m + j) p - psum u n m p)
    rw [sub_add_sub_cancel] at h2
    push_cast
    rw [← add_assoc]
    linarith

theorem psum_add (u h : X → ℝ) : ∀ (n m : ℕ) (p : Path X n), psum (fun x => u x + h x) n m p = psum u n m p + psum h n m p
  | n, 0, p => by simp [psum]
  | 0, m + 1, p => by simp [psum]
  | n + 1, m + 1, p => by
    simp only [psum]
    rw [psum_add u h n m p.2]
    ring

/-! ### The maximal inequality -/

/-- The excess of the best partial sum over `lam` for each state. -/
noncomputable def best (H : X → ℝ≥0∞) (lam : ℝ≥0∞) : (n : ℕ) → Path X n → ℝ≥0∞
  | 0, _ => 0
  | n + 1, p => (H p.1 + best H lam n p.2) - lam

theorem best_meas {H : X → ℝ≥0∞} (hH : Measurable H) (lam : ℝ≥0∞) : ∀ n, Measurable (best H lam n)
  | 0 => by
    have e : best H lam 0 = fun _ => 0 := by funext p; rfl
    rw [e]; exact measurable_const
  | n + 1 => by
    have h1 : Measurable fun p : X × Path X n => (H p.1 + best H lam n p.2) - lam :=
      ((hH.comp measurable_fst).add ((best_meas hH lam n).comp measurable_snd)).sub measurable_const
    exact h1

theorem best_mono {H : X → ℝ≥0∞} (hH : Measurable H) (lam : ℝ≥0∞) (n : ℕ) (x : X) {φ : ℝ≥0∞ → ℝ≥0∞} (hφ : Measurable φ) (hmono : Monotone φ) :
    ∫⁻ p, φ (best H lam n p) ∂pathKer K n x ≤ ∫⁻ p, φ (best H lam (n + 1) p) ∂pathKer K (n + 1) x := by
  induction n generalizing x φ with
  | zero =>
    have h0 := pathKer_markov (K := K) 0
    have h1 := pathKer_markov (K := K) 1
    have e : ∀ p, φ (best H lam 0 p) = φ 0 := fun p => rfl
    simp only [e, lintegral_const, measure_univ, mul_one]
    calc φ 0 = ∫⁻ p, φ 0 ∂pathKer K (0 + 1) x := by simp
      _ ≤ _ := lintegral_mono fun p => hmono bot_le
  | succ n ih =>
    have hG : ∀ k, Measurable fun p : X × Path X k => φ (best H lam (k + 1) p) := fun k => hφ.comp (best_meas hH lam (k + 1))
    refine (lintegral_pathKer_succ n x (hG n)).trans_le ?_
    refine le_trans ?_ (lintegral_pathKer_succ (n + 1) x (hG (n + 1))).symm.le
    refine lintegral_mono fun y => ?_
    exact ih y (φ := fun t => φ ((H y + t) - lam)) (hφ.comp ((measurable_const.add measurable_id).sub measurable_const))
      fun a b hab => hmono (tsub_le_tsub_right (add_le_add_right hab _) _)

theorem psum_le_best {h : X → ℝ} {lam : ℝ} (hl : 0 ≤ lam) : ∀ (n m : ℕ) (p : Path X n), m ≤ n →
    ENNReal.ofReal |psum h n m p| ≤ m * ENNReal.ofReal lam + best (fun x => ENNReal.ofReal |h x|) (ENNReal.ofReal lam) n p
  | n, 0, p, _ => by
    have e : psum h n 0 p = 0 := by cases n <;> rfl
    rw [e]; simp
  | 0, m + 1, p, hm => by omega
  | n + 1, m + 1, p, hm => by
    have ih := psum_le_best hl n m p.2 (by omega) (h := h)
    have e : psum h (n + 1) (m + 1) p = psum h n m p.2 + h p.1 := rfl
    have e2 : best (fun x => ENNReal.ofReal |h x|) (ENNReal.ofReal lam) (n + 1) p =
      (ENNReal.ofReal |h p.1| + best (fun x => ENNReal.ofReal |h x|) (ENNReal.ofReal lam) n p.2) - ENNReal.ofReal lam := rfl
    rw [e, e2]
    have h1 : ENNReal.ofReal |psum h n m p.2 + h p.1| ≤ ENNReal.ofReal |psum h n m p.2| + ENNReal.ofReal |h p.1| := by
      rw [← ENNReal.ofReal_add (abs_nonneg _) (abs_nonneg _)]
      exact ENNReal.ofReal_le_ofReal (abs_add_le _ _)
    refine h1.trans ((add_le_add_left ih _).trans ?_)
    set b := best (fun x => ENNReal.ofReal |h x|) (ENNReal.ofReal lam) n p.2
    set a := ENNReal.ofReal |h p.1|
    set L := ENNReal.ofReal lam
    have h2 : a + b ≤ L + ((a + b) - L) := le_add_tsub
    calc (m : ℝ≥0∞) * L + b + a = m * L + (a + b) := by ring
      _ ≤ m * L + (L + ((a + b) - L)) := by gcongr
      _ = ((m + 1 : ℕ) : ℝ≥0∞) * L + ((a + b) - L) := by push_cast; ring

theorem excess_le (a lam : ℝ≥0∞) : (a - lam) + lam * (if a - lam = 0 then 0 else 1) ≤ a := by
  split
  · rename_i h; rw [h]; simp
  · rename_i h
    have : lam ≤ a := by
      by_contra hc
      exact h (tsub_eq_zero_of_le (not_le.mp hc).le)
    rw [mul_one, tsub_add_cancel_of_le this]

/-- The mean of the best excess. -/
noncomputable def bestMean (μ : Measure X) (K : Kernel X X) (H : X → ℝ≥0∞) (lam : ℝ≥0∞) (n : ℕ) : ℝ≥0∞ :=
  ∫⁻ x, ∫⁻ p, best H lam n p ∂pathKer K n x ∂μ

theorem best_step (hK : K ∘ₘ μ = μ) {H : X → ℝ≥0∞} (hH : Measurable H) (lam : ℝ≥0∞) (n : ℕ) :
    bestMean μ K H lam (n + 1) + lam * ∫⁻ x, ∫⁻ p, (if best H lam (n + 1) p = 0 then 0 else 1) ∂pathKer K (n + 1) x ∂μ ≤
      ∫⁻ x, H x ∂μ + bestMean μ K H lam n := by
  have hn := pathKer_markov (K := K) n
  have hn1 := pathKer_markov (K := K) (n + 1)
  have hb := best_meas hH lam n
  have hb1 := best_meas hH lam (n + 1)
  have hi : Measurable fun p : Path X (n + 1) => (if best H lam (n + 1) p = 0 then 0 else 1 : ℝ≥0∞) :=
    Measurable.ite (measurableSet_eq_fun hb1 measurable_const) measurable_const measurable_const
  have hk : Measurable fun y => ∫⁻ p, best H lam n p ∂pathKer K n y := hb.lintegral_kernel
  have hpt : ∀ x, ∫⁻ p, best H lam (n + 1) p ∂pathKer K (n + 1) x +
      lam * ∫⁻ p, (if best H lam (n + 1) p = 0 then 0 else 1) ∂pathKer K (n + 1) x ≤
      ∫⁻ y, (H y + ∫⁻ p, best H lam n p ∂pathKer K n y) ∂K x := by
    intro x
    rw [← lintegral_const_mul _ hi, ← lintegral_add_left hb1]
    have hG : Measurable fun p : X × Path X n => H p.1 + best H lam n p.2 :=
      (hH.comp measurable_fst).add (hb.comp measurable_snd)
    have h1 : ∫⁻ p, (best H lam (n + 1) p + lam * (if best H lam (n + 1) p = 0 then 0 else 1)) ∂pathKer K (n + 1) x ≤
        ∫⁻ p, (H p.1 + best H lam n p.2) ∂(pathKer K (n + 1) x : Measure (X × Path X n)) :=
      lintegral_mono fun p => excess_le (H p.1 + best H lam n p.2) lam
    refine h1.trans_eq ((lintegral_pathKer_succ n x hG).trans (lintegral_congr fun y => ?_))
    show ∫⁻ p, (H y + best H lam n p) ∂pathKer K n y = _
    rw [lintegral_add_left measurable_const]
    simp
  have hs : ∀ G : X → ℝ≥0∞, Measurable G → ∫⁻ x, ∫⁻ y, G y ∂K x ∂μ = ∫⁻ x, G x ∂μ := by
    intro G hG
    conv_rhs => rw [← hK]
    rw [Measure.lintegral_bind K.measurable.aemeasurable hG.aemeasurable]
  unfold bestMean
  rw [← lintegral_const_mul _ hi.lintegral_kernel, ← lintegral_add_left hb1.lintegral_kernel, ← lintegral_add_left hH,
    ← hs (fun y => H y + ∫⁻ p, best H lam n p ∂pathKer K n y) (hH.add hk)]
  exact lintegral_mono hpt

theorem bestMean_fin (hK : K ∘ₘ μ = μ) {H : X → ℝ≥0∞} (hH : Measurable H) (hfin : ∫⁻ x, H x ∂μ ≠ ⊤) (lam : ℝ≥0∞) (n : ℕ) :
    bestMean μ K H lam n ≠ ⊤ := by
  induction n with
  | zero =>
    have e : bestMean μ K H lam 0 = 0 := by
      unfold bestMean
      have : ∀ p : Path X 0, best H lam 0 p = 0 := fun p => rfl
      simp [this]
    rw [e]; exact ENNReal.zero_ne_top
  | succ n ih =>
    exact ne_top_of_le_ne_top (ENNReal.add_ne_top.mpr ⟨hfin, ih⟩) (le_self_add.trans (best_step hK hH lam n))

/-- The maximal inequality. -/
theorem maximal (hK : K ∘ₘ μ = μ) {H : X → ℝ≥0∞} (hH : Measurable H) (hfin : ∫⁻ x, H x ∂μ ≠ ⊤) (lam : ℝ≥0∞) (n : ℕ) :
    lam * ∫⁻ x, ∫⁻ p, (if best H lam n p = 0 then 0 else 1) ∂pathKer K n x ∂μ ≤ ∫⁻ x, H x ∂μ := by
  cases n with
  | zero =>
    have : ∀ p : Path X 0, best H lam 0 p = 0 := fun p => rfl
    simp [this]
  | succ n =>
    have h1 := best_step hK hH lam n
    have h2 : bestMean μ K H lam n ≤ bestMean μ K H lam (n + 1) :=
      lintegral_mono fun x => best_mono hH lam n x (φ := id) measurable_id monotone_id
    have h3 := bestMean_fin hK hH hfin lam n
    refine (ENNReal.add_le_add_iff_left h3).mp ?_
    rw [add_comm (bestMean μ K H lam n) (∫⁻ x, H x ∂μ)]
    exact (add_le_add_left h2 _).trans h1

/-! ### Splitting off a small part -/

theorem exists_split {f : X → ℝ} {B c : ℝ} (h : Bdd f B) (hB : |c| ≤ B) (n : ℕ) :
    ∃ g G, Bdd g G ∧ ∀ x, n * (f x - c) - first K f c n x = g x - ∫ y, g y ∂K x := by
  induction n with
  | zero =>
    refine ⟨fun _ => 0, 0, ⟨measurable_const, fun x => by simp⟩, fun x => ?_⟩
    have : first K f c 0 x = 0 := by
      show ∫ s, (s - ((0 : ℕ) : ℝ) * c) ∂Measure.dirac (0 : ℝ) = 0
      simp
    rw [this]; simp
  | succ n ih =>
    obtain ⟨g, G, hg, he⟩ := ih
    have hb := (centred_bdd h hB).add (first_bdd (K := K) h hB n)
    refine ⟨fun x => g x + ((f x - c) + first K f c n x), _, hg.add hb, fun x => ?_⟩
    have h1 := he x
    rw [first_succ h hB n x, integral_add (hg.integrable (K x)) (hb.integrable (K x))]
    push_cast
    linarith

theorem first_abs {f : X → ℝ} {B c : ℝ} (h : Bdd f B) (hB : |c| ≤ B) (n : ℕ) (x : X) {η : ℝ} (hη : 0 < η) :
    |first K f c n x| / n ≤ (η + second K f c n x / (n : ℝ) ^ 2 / η) / 2 := by
  have hmk := sumKer_markov (K := K) h.meas n
  rcases Nat.eq_zero_or_pos n with rfl | hn
  · simp; positivity
  have hn' : (0 : ℝ) < n := by exact_mod_cast hn
  have hi : Integrable (fun s : ℝ => s - n * c) (sumKer K f n x) :=
    sumKer_integrable h n x (measurable_id.sub measurable_const) fun s hs => abs_excess hB hs
  have hi2 : Integrable (fun s : ℝ => (s - n * c) ^ 2) (sumKer K f n x) :=
    sumKer_integrable h n x ((measurable_id.sub measurable_const).pow_const 2) fun s hs => sq_excess hB hs
  have h1 : |first K f c n x| ≤ ∫ s, |s - n * c| ∂sumKer K f n x := abs_integral_le_integral_abs
  have h2 : ∫ s, |s - n * c| ∂sumKer K f n x ≤ ∫ s, (n * η / 2 + (1 / (2 * n * η)) * (s - n * c) ^ 2) ∂sumKer K f n x := by
    refine integral_mono hi.abs ((integrable_const _).add (hi2.const_mul _)) fun s => ?_
    have : 0 ≤ (|s - n * c| - n * η) ^ 2 := sq_nonneg _
    have h3 : (s - n * c) ^ 2 = |s - n * c| ^ 2 := (sq_abs _).symm
    show |s - n * c| ≤ n * η / 2 + (1 / (2 * n * η)) * (s - n * c) ^ 2
    rw [h3]
    have hp : 0 < 2 * n * η := by positivity
    rw [← sub_nonneg]
    have e : n * η / 2 + (1 / (2 * n * η)) * |s - n * c| ^ 2 - |s - n * c| = (|s - n * c| - n * η) ^ 2 / (2 * n * η) := by
      field_simp; ring
    rw [e]; positivity
  rw [integral_add (integrable_const _) (hi2.const_mul _), integral_const_mul] at h2
  simp only [integral_const, probReal_univ, one_smul] at h2
  have h4 := h1.trans h2
  rw [div_le_iff₀ hn']
  refine h4.trans_eq ?_
  show _ + 1 / (2 * n * η) * second K f c n x = _
  field_simp

/-- The part that is left is a difference, up to something small. -/
theorem split_small (hK : K ∘ₘ μ = μ) (hE : Ergo μ K) {f : X → ℝ} {B c : ℝ} (h : Bdd f B) (hc : ∫ x, f x ∂μ = c) {η : ℝ} (hη : 0 < η) :
    ∃ g G r R, Bdd g G ∧ Bdd r R ∧ (∀ x, f x - c = (g x - ∫ y, g y ∂K x) + r x) ∧ ∫⁻ x, ENNReal.ofReal |r x| ∂μ ≤ ENNReal.ofReal η := by
  have hB : |c| ≤ B := by
    rw [← hc]
    have := norm_integral_le_of_norm_le_const (μ := μ) (f := f) (C := B) (ae_of_all _ h.le)
    simpa using this
  have h2 := second_mean hK hE h hc
  obtain ⟨n, hn, hn0⟩ := (((tendsto_order.mp h2).2 (η ^ 2) (by positivity)).and (eventually_gt_atTop 0)).exists
  have hn' : (0 : ℝ) < n := by exact_mod_cast hn0
  obtain ⟨g, G, hg, he⟩ := exists_split (K := K) h hB n
  have hf1 := first_bdd (K := K) h hB n
  have hg' : Bdd (fun x => (n : ℝ)⁻¹ * g x) ((n : ℝ)⁻¹ * G) := ⟨measurable_const.mul hg.meas, fun x => by
    rw [abs_mul, abs_of_pos (by positivity : (0 : ℝ) < (n : ℝ)⁻¹)]
    exact mul_le_mul_of_nonneg_left (hg.le x) (by positivity)⟩
  have hr : Bdd (fun x => (n : ℝ)⁻¹ * first K f c n x) ((n : ℝ)⁻¹ * (n * (2 * B))) := ⟨measurable_const.mul hf1.meas, fun x => by
    rw [abs_mul, abs_of_pos (by positivity : (0 : ℝ) < (n : ℝ)⁻¹)]
    exact mul_le_mul_of_nonneg_left (hf1.le x) (by positivity)⟩
  refine ⟨_, _, _, _, hg', hr, fun x => ?_, ?_⟩
  · rw [integral_const_mul, ← mul_sub, ← he x]
    field_simp
    ring
  · have hb2 := second_bdd (K := K) h hB n
    rw [← ofReal_integral_eq_lintegral_ofReal (hr.integrable μ).abs (ae_of_all _ fun x => abs_nonneg _)]
    refine ENNReal.ofReal_le_ofReal ?_
    have hi : Integrable (fun x => (η + second K f c n x / (n : ℝ) ^ 2 / η) / 2) μ :=
      ((integrable_const _).add (((hb2.integrable μ).div_const _).div_const _)).div_const _
    calc ∫ x, |(n : ℝ)⁻¹ * first K f c n x| ∂μ ≤ ∫ x, (η + second K f c n x / (n : ℝ) ^ 2 / η) / 2 ∂μ := by
          refine integral_mono (hr.integrable μ).abs hi fun x => ?_
          show |(n : ℝ)⁻¹ * first K f c n x| ≤ _
          rw [abs_mul, abs_of_pos (by positivity : (0 : ℝ) < (n : ℝ)⁻¹), ← div_eq_inv_mul]
          exact first_abs h hB n x hη
      _ = (η + (∫ x, second K f c n x ∂μ) / (n : ℝ) ^ 2 / η) / 2 := by
          rw [integral_div, integral_add (integrable_const _) (((hb2.integrable μ).div_const _).div_const _), integral_div, integral_div]
          simp
      _ ≤ η := by
          have : (∫ x, second K f c n x ∂μ) / (n : ℝ) ^ 2 / η ≤ η := by
            rw [div_le_iff₀ hη, ← sq]; exact hn.le
          linarith

/-! ### Differences -/

theorem diff_bdd {g : X → ℝ} {G : ℝ} (hg : Bdd g G) : Bdd (fun x => g x - ∫ y, g y ∂K x) (2 * G) :=
  ⟨hg.meas.sub (hg.next K).meas, fun x => by
    have h1 := abs_sub (g x) (∫ y, g y ∂K x)
    have h2 := hg.le x
    have h3 := (hg.next K).le x
    linarith⟩

theorem first_diff {g : X → ℝ} {G : ℝ} (hg : Bdd g G) (hG : 0 ≤ G) (n : ℕ) :
    ∃ r, Bdd r G ∧ ∀ x, first K (fun x => g x - ∫ y, g y ∂K x) 0 n x = ∫ y, g y ∂K x - r x := by
  have hu := diff_bdd (K := K) hg
  have hB : |(0 : ℝ)| ≤ 2 * G := by rw [abs_zero]; positivity
  induction n with
  | zero =>
    refine ⟨_, hg.next K, fun x => ?_⟩
    rw [sub_self]
    show ∫ s, (s - ((0 : ℕ) : ℝ) * 0) ∂Measure.dirac (0 : ℝ) = 0
    simp
  | succ n ih =>
    obtain ⟨r, hr, he⟩ := ih
    refine ⟨_, hr.next K, fun x => ?_⟩
    rw [first_succ hu hB n x, ← integral_sub (hg.integrable (K x)) (hr.integrable (K x))]
    refine integral_congr_ae (ae_of_all _ fun y => ?_)
    show g y - ∫ z, g z ∂K y - 0 + first K (fun x => g x - ∫ y, g y ∂K x) 0 n y = g y - r y
    rw [he y]
    ring

theorem second_diff (hK : K ∘ₘ μ = μ) {g : X → ℝ} {G : ℝ} (hg : Bdd g G) (hG : 0 ≤ G) (n : ℕ) :
    ∫ x, second K (fun x => g x - ∫ y, g y ∂K x) 0 n x ∂μ ≤ n * (12 * G ^ 2) := by
  have hu := diff_bdd (K := K) hg
  have hB : |(0 : ℝ)| ≤ 2 * G := by rw [abs_zero]; positivity
  set u := fun x => g x - ∫ y, g y ∂K x with hudef
  induction n with
  | zero =>
    have : ∀ x, second K u 0 0 x = 0 := fun x => by
      show ∫ s, (s - ((0 : ℕ) : ℝ) * 0) ^ 2 ∂Measure.dirac (0 : ℝ) = 0
      simp
    simp [this]
  | succ n ih =>
    have hf1 := first_bdd (K := K) hu hB n
    have b3 := second_bdd (K := K) hu hB n
    obtain ⟨r, hr, he⟩ := first_diff (K := K) hg hG n
    have hpt : ∀ y, |(u y - 0) ^ 2 + 2 * ((u y - 0) * first K u 0 n y)| ≤ 12 * G ^ 2 := by
      intro y
      have h1 : |u y| ≤ 2 * G := hu.le y
      have h2 : |first K u 0 n y| ≤ 2 * G := by
        rw [he y]
        have h1 := abs_sub (∫ z, g z ∂K y) (r y)
        have h2 := hr.le y
        have h3 := (hg.next K).le y
        linarith
      rw [sub_zero]
      have h4 : |u y ^ 2| ≤ (2 * G) ^ 2 := by rw [abs_pow]; exact pow_le_pow_left₀ (abs_nonneg _) h1 2
      have h5 : |2 * (u y * first K u 0 n y)| ≤ 2 * ((2 * G) * (2 * G)) := by
        rw [abs_mul, abs_mul, abs_two]
        exact mul_le_mul_of_nonneg_left (mul_le_mul h1 h2 (abs_nonneg _) (by positivity)) zero_le_two
      have := abs_add_le (u y ^ 2) (2 * (u y * first K u 0 n y))
      nlinarith
    have b12 : Bdd (fun y => (u y - 0) ^ 2 + 2 * ((u y - 0) * first K u 0 n y)) (12 * G ^ 2) :=
      ⟨((hu.meas.sub measurable_const).pow_const 2).add (measurable_const.mul ((hu.meas.sub measurable_const).mul hf1.meas)), hpt⟩
    rw [integral_congr_ae (ae_of_all _ fun x => second_succ hu hB n x), integral_next hK (b12.add b3),
      integral_add (b12.integrable μ) (b3.integrable μ)]
    have l1 : ∫ x, ((u x - 0) ^ 2 + 2 * ((u x - 0) * first K u 0 n x)) ∂μ ≤ 12 * G ^ 2 := by
      have := norm_integral_le_of_norm_le_const (μ := μ) (f := fun x => (u x - 0) ^ 2 + 2 * ((u x - 0) * first K u 0 n x))
        (C := 12 * G ^ 2) (ae_of_all _ b12.le)
      simp only [probReal_univ, mul_one] at this
      exact (le_abs_self _).trans this
    push_cast
    linarith

theorem cheby {f : X → ℝ} {B : ℝ} (h : Bdd f B) (hB0 : 0 ≤ B) (n : ℕ) {t : ℝ} (ht : 0 < t) :
    ∫⁻ x, sumKer K f n x {s | t ≤ |s|} ∂μ ≤ ENNReal.ofReal ((∫ x, second K f 0 n x ∂μ) / t ^ 2) := by
  have hB : |(0 : ℝ)| ≤ B := by rw [abs_zero]; exact hB0
  have hmk := sumKer_markov (K := K) h.meas n
  have hpt : ∀ x, sumKer K f n x {s | t ≤ |s|} ≤ ENNReal.ofReal (second K f 0 n x / t ^ 2) := by
    intro x
    have hms : Measurable fun s : ℝ => ENNReal.ofReal ((s - n * 0) ^ 2) :=
      ((measurable_id.sub measurable_const).pow_const 2).ennreal_ofReal
    have hi2 : Integrable (fun s : ℝ => (s - n * 0) ^ 2) (sumKer K f n x) :=
      sumKer_integrable h n x ((measurable_id.sub measurable_const).pow_const 2) fun s hs => sq_excess hB hs
    have hmarkov := mul_meas_ge_le_lintegral hms (ENNReal.ofReal (t ^ 2)) (μ := sumKer K f n x)
    rw [← ofReal_integral_eq_lintegral_ofReal hi2 (ae_of_all _ fun s => sq_nonneg _)] at hmarkov
    have hsub : {s : ℝ | t ≤ |s|} ⊆ {s | ENNReal.ofReal (t ^ 2) ≤ ENNReal.ofReal ((s - n * 0) ^ 2)} := by
      intro s hs
      refine ENNReal.ofReal_le_ofReal ?_
      rw [mul_zero, sub_zero, ← sq_abs s]
      exact pow_le_pow_left₀ ht.le hs 2
    have hpos : (0 : ℝ) < t ^ 2 := by positivity
    have h4 : ENNReal.ofReal (t ^ 2) * sumKer K f n x {s | t ≤ |s|} ≤ ENNReal.ofReal (second K f 0 n x) :=
      (mul_le_mul_right (measure_mono hsub) _).trans hmarkov
    rw [ENNReal.ofReal_div_of_pos hpos, ENNReal.le_div_iff_mul_le (Or.inl (ENNReal.ofReal_pos.mpr hpos).ne') (Or.inl ENNReal.ofReal_ne_top), mul_comm]
    exact h4
  refine (lintegral_mono hpt).trans_eq ?_
  have hb := second_bdd (K := K) h hB n
  rw [← ofReal_integral_eq_lintegral_ofReal ((hb.integrable μ).div_const _) (ae_of_all _ fun x => ?_), integral_div]
  refine div_nonneg ?_ (by positivity)
  exact integral_nonneg fun s => sq_nonneg _

/-- Far away at one of the squares from `a ^ 2` on. -/
theorem far_at_squares (hK : K ∘ₘ μ = μ) {g : X → ℝ} {G : ℝ} (hg : Bdd g G) (hG : 0 ≤ G) {ε : ℝ} (hε : 0 < ε) (n a j : ℕ) (ha : 2 ≤ a) :
    ∫⁻ x, pathKer K n x {p | ∃ k, a ≤ k ∧ k < a + j ∧ k ^ 2 ≤ n ∧ ε * (k : ℝ) ^ 2 ≤ |psum (fun x => g x - ∫ y, g y ∂K x) n (k ^ 2) p|} ∂μ ≤
      ENNReal.ofReal (12 * G ^ 2 / ε ^ 2 * (1 / ((a : ℝ) - 1) - 1 / ((a : ℝ) + j - 1))) := by
  have hmk := pathKer_markov (K := K) n
  have hu := diff_bdd (K := K) hg
  set u := fun x => g x - ∫ y, g y ∂K x with hudef
  have ha' : (2 : ℝ) ≤ a := by exact_mod_cast ha
  induction j with
  | zero =>
    have : {p : Path X n | ∃ k, a ≤ k ∧ k < a + 0 ∧ k ^ 2 ≤ n ∧ ε * (k : ℝ) ^ 2 ≤ |psum u n (k ^ 2) p|} = ∅ := by
      ext p
      simp only [Set.mem_ofPred_eq, Set.mem_empty_iff_false, iff_false]
      rintro ⟨k, h1, h2, -⟩
      omega
    simp only [this, measure_empty, lintegral_zero]
    exact bot_le
  | succ j ih =>
    have hsub : ∀ x, pathKer K n x {p | ∃ k, a ≤ k ∧ k < a + (j + 1) ∧ k ^ 2 ≤ n ∧ ε * (k : ℝ) ^ 2 ≤ |psum u n (k ^ 2) p|} ≤
        pathKer K n x {p | ∃ k, a ≤ k ∧ k < a + j ∧ k ^ 2 ≤ n ∧ ε * (k : ℝ) ^ 2 ≤ |psum u n (k ^ 2) p|} +
        pathKer K n x {p | (a + j) ^ 2 ≤ n ∧ ε * ((a + j : ℕ) : ℝ) ^ 2 ≤ |psum u n ((a + j) ^ 2) p|} := by
      intro x
      refine (measure_mono fun p hp => ?_).trans (measure_union_le _ _)
      obtain ⟨k, h1, h2, h3, h4⟩ := hp
      rcases (show k < a + j ∨ k = a + j by omega) with h | rfl
      · exact Or.inl ⟨k, h1, h, h3, h4⟩
      · exact Or.inr ⟨h3, h4⟩
    have hset : ∀ k : ℕ, MeasurableSet {p : Path X n | ε * (k : ℝ) ^ 2 ≤ |psum u n (k ^ 2) p|} := fun k =>
      measurableSet_le measurable_const (measurable_norm.comp (psum_meas hu.meas n (k ^ 2)))
    have hm1 : Measurable fun x => pathKer K n x {p | (a + j) ^ 2 ≤ n ∧ ε * ((a + j : ℕ) : ℝ) ^ 2 ≤ |psum u n ((a + j) ^ 2) p|} := by
      refine Kernel.measurable_coe _ ?_
      exact (MeasurableSet.const _).inter (hset (a + j))
    have hlast : ∫⁻ x, pathKer K n x {p | (a + j) ^ 2 ≤ n ∧ ε * ((a + j : ℕ) : ℝ) ^ 2 ≤ |psum u n ((a + j) ^ 2) p|} ∂μ ≤
        ENNReal.ofReal (12 * G ^ 2 / ε ^ 2 * (1 / ((a : ℝ) + j) ^ 2)) := by
      by_cases hn : (a + j) ^ 2 ≤ n
      · have hms : MeasurableSet {s : ℝ | ε * ((a + j : ℕ) : ℝ) ^ 2 ≤ |s|} := measurableSet_le measurable_const measurable_norm
        have e : ∀ x, pathKer K n x {p | (a + j) ^ 2 ≤ n ∧ ε * ((a + j : ℕ) : ℝ) ^ 2 ≤ |psum u n ((a + j) ^ 2) p|} =
            sumKer K u ((a + j) ^ 2) x {s | ε * ((a + j : ℕ) : ℝ) ^ 2 ≤ |s|} := by
          intro x
          have e1 := path_sum (K := K) hu.meas hn x (g := {s : ℝ | ε * ((a + j : ℕ) : ℝ) ^ 2 ≤ |s|}.indicator 1) (measurable_one.indicator hms)
          rw [lintegral_indicator_one hms] at e1
          rw [← e1]
          have hms2 : MeasurableSet {p : Path X n | (a + j) ^ 2 ≤ n ∧ ε * ((a + j : ℕ) : ℝ) ^ 2 ≤ |psum u n ((a + j) ^ 2) p|} :=
            (MeasurableSet.const _).inter (hset (a + j))
          rw [← lintegral_indicator_one hms2]
          refine lintegral_congr fun p => ?_
          by_cases hp : ε * ((a + j : ℕ) : ℝ) ^ 2 ≤ |psum u n ((a + j) ^ 2) p|
          · have m1 : p ∈ {p : Path X n | (a + j) ^ 2 ≤ n ∧ ε * ((a + j : ℕ) : ℝ) ^ 2 ≤ |psum u n ((a + j) ^ 2) p|} := ⟨hn, hp⟩
            have m2 : psum u n ((a + j) ^ 2) p ∈ {s : ℝ | ε * ((a + j : ℕ) : ℝ) ^ 2 ≤ |s|} := hp
            rw [Set.indicator_of_mem m1, Set.indicator_of_mem m2]
            rfl
          · have m1 : p ∉ {p : Path X n | (a + j) ^ 2 ≤ n ∧ ε * ((a + j : ℕ) : ℝ) ^ 2 ≤ |psum u n ((a + j) ^ 2) p|} := fun h => hp h.2
            have m2 : psum u n ((a + j) ^ 2) p ∉ {s : ℝ | ε * ((a + j : ℕ) : ℝ) ^ 2 ≤ |s|} := hp
            rw [Set.indicator_of_notMem m1, Set.indicator_of_notMem m2]
        have hp0 : (0 : ℝ) < ((a + j : ℕ) : ℝ) := by push_cast; positivity
        simp only [e]
        refine (cheby hu (by positivity) ((a + j) ^ 2) (by positivity)).trans (ENNReal.ofReal_le_ofReal ?_)
        have h2 := second_diff (μ := μ) hK hg hG ((a + j) ^ 2)
        have e3 : 12 * G ^ 2 / ε ^ 2 * (1 / ((a : ℝ) + j) ^ 2) = (((a + j) ^ 2 : ℕ) : ℝ) * (12 * G ^ 2) / (ε * ((a + j : ℕ) : ℝ) ^ 2) ^ 2 := by
          push_cast at hp0 ⊢
          field_simp
        rw [e3]
        gcongr
      · have : {p : Path X n | (a + j) ^ 2 ≤ n ∧ ε * ((a + j : ℕ) : ℝ) ^ 2 ≤ |psum u n ((a + j) ^ 2) p|} = ∅ := by
          ext p
          simp only [Set.mem_ofPred_eq, Set.mem_empty_iff_false, iff_false]
          exact fun h => hn h.1
        simp only [this, measure_empty, lintegral_zero]
        exact bot_le
    refine (lintegral_mono hsub).trans ?_
    rw [lintegral_add_right _ hm1]
    refine (add_le_add ih hlast).trans ?_
    have hj : (0 : ℝ) ≤ j := Nat.cast_nonneg j
    have p1 : 0 ≤ 1 / ((a : ℝ) - 1) - 1 / ((a : ℝ) + j - 1) := by
      rw [sub_nonneg]
      exact one_div_le_one_div_of_le (by linarith) (by linarith)
    rw [← ENNReal.ofReal_add (by positivity) (by positivity), ← mul_add]
    refine ENNReal.ofReal_le_ofReal (mul_le_mul_of_nonneg_left ?_ (by positivity))
    have : 1 / ((a : ℝ) + j) ^ 2 ≤ 1 / ((a : ℝ) + j - 1) - 1 / ((a : ℝ) + (j + 1 : ℕ) - 1) := by
      push_cast
      have q1 : (0 : ℝ) < (a : ℝ) + j - 1 := by linarith
      have q2 : (0 : ℝ) < (a : ℝ) + (j + 1) - 1 := by linarith
      have q3 : (0 : ℝ) < (a : ℝ) + j := by linarith
      rw [div_sub_div _ _ q1.ne' q2.ne', div_le_div_iff₀ (by positivity) (by positivity)]
      nlinarith
    linarith

/-- Sums of differences are small compared to the number of states, from some time on. -/
theorem diff_strong (hK : K ∘ₘ μ = μ) {g : X → ℝ} {G : ℝ} (hg : Bdd g G) {ε δ : ℝ} (hε : 0 < ε) (hδ : 0 < δ) :
    ∃ n0, ∀ n, ∫⁻ x, pathKer K n x {p | ∃ m, n0 ≤ m ∧ m ≤ n ∧ ε * m ≤ |psum (fun x => g x - ∫ y, g y ∂K x) n m p|} ∂μ ≤ ENNReal.ofReal δ := by
  have hX : Nonempty X := by
    by_contra hX
    rw [not_nonempty_iff] at hX
    have := measure_univ (μ := μ)
    rw [Set.univ_eq_empty_iff.mpr hX, measure_empty] at this
    exact zero_ne_one this
  have hG : 0 ≤ G := (abs_nonneg _).trans (hg.le hX.some)
  have hu := diff_bdd (K := K) hg
  set u := fun x => g x - ∫ y, g y ∂K x with hudef
  obtain ⟨a, ha⟩ := exists_nat_ge (2 + 8 * G / ε + 48 * G ^ 2 / ε ^ 2 / δ)
  have q1 : 0 ≤ 8 * G / ε := by positivity
  have q2 : 0 ≤ 48 * G ^ 2 / ε ^ 2 / δ := by positivity
  have ha2 : (2 : ℝ) ≤ a := by linarith
  have ha2' : 2 ≤ a := by exact_mod_cast ha2
  have haG : 8 * G ≤ ε * a := by
    have : 8 * G / ε ≤ a := by linarith
    rw [div_le_iff₀ hε] at this
    linarith
  have had : 48 * G ^ 2 / ε ^ 2 ≤ δ * (a - 1) := by
    have : 48 * G ^ 2 / ε ^ 2 / δ ≤ a - 1 := by linarith
    rw [div_le_iff₀ hδ] at this
    linarith
  refine ⟨a ^ 2, fun n => ?_⟩
  have hsub : ∀ x, pathKer K n x {p | ∃ m, a ^ 2 ≤ m ∧ m ≤ n ∧ ε * m ≤ |psum u n m p|} ≤
      pathKer K n x {p | ∃ k, a ≤ k ∧ k < a + n ∧ k ^ 2 ≤ n ∧ (ε / 2) * (k : ℝ) ^ 2 ≤ |psum u n (k ^ 2) p|} := by
    refine fun x => measure_mono fun p hp => ?_
    obtain ⟨m, h1, h2, h3⟩ := hp
    have hk1 : Nat.sqrt m ^ 2 ≤ m := Nat.sqrt_le' m
    have hk2 : m < (Nat.sqrt m + 1) ^ 2 := Nat.lt_succ_sqrt' m
    have hka : a ≤ Nat.sqrt m := Nat.le_sqrt'.mpr h1
    set k := Nat.sqrt m with hk
    refine ⟨k, hka, ?_, hk1.trans h2, ?_⟩
    · have : k ≤ k ^ 2 := Nat.le_self_pow two_ne_zero k
      omega
    · obtain ⟨i, hi⟩ := Nat.exists_eq_add_of_le hk1
      have hi2 : i ≤ 2 * k := by nlinarith
      have hgap := psum_gap hu.le (by positivity) n (k ^ 2) i p
      rw [← hi] at hgap
      have h4 := abs_add_le (psum u n m p - psum u n (k ^ 2) p) (psum u n (k ^ 2) p)
      rw [sub_add_cancel] at h4
      have hi3 : (i : ℝ) ≤ 2 * k := by exact_mod_cast hi2
      have hm3 : (k : ℝ) ^ 2 ≤ m := by exact_mod_cast hk1
      have hka' : (a : ℝ) ≤ k := by exact_mod_cast hka
      have h5 : (i : ℝ) * (2 * G) ≤ 2 * k * (2 * G) := mul_le_mul_of_nonneg_right hi3 (by positivity)
      have h6 : 2 * (k : ℝ) * (2 * G) ≤ ε / 2 * (k : ℝ) ^ 2 := by
        have : 8 * G ≤ ε * k := haG.trans (mul_le_mul_of_nonneg_left hka' hε.le)
        have hk0 : (0 : ℝ) ≤ k := Nat.cast_nonneg k
        nlinarith
      have h7 : ε * (k : ℝ) ^ 2 ≤ ε * m := mul_le_mul_of_nonneg_left hm3 hε.le
      linarith
  refine (lintegral_mono hsub).trans ((far_at_squares hK hg hG (half_pos hε) n a n ha2').trans (ENNReal.ofReal_le_ofReal ?_))
  have hn0 : (0 : ℝ) ≤ n := Nat.cast_nonneg n
  have q3 : 0 ≤ 1 / ((a : ℝ) + n - 1) := by
    apply div_nonneg zero_le_one; linarith
  have q4 : (0 : ℝ) < a - 1 := by linarith
  calc 12 * G ^ 2 / (ε / 2) ^ 2 * (1 / ((a : ℝ) - 1) - 1 / ((a : ℝ) + n - 1)) ≤ 12 * G ^ 2 / (ε / 2) ^ 2 * (1 / ((a : ℝ) - 1)) :=
        mul_le_mul_of_nonneg_left (by linarith) (by positivity)
    _ = 48 * G ^ 2 / ε ^ 2 / (a - 1) := by field_simp; ring
    _ ≤ δ := by rw [div_le_iff₀ q4]; exact had

/-- The averages over the first `m` states, for all `m` from some time on, are close to the mean with high probability. -/
theorem strong_kernel (hK : K ∘ₘ μ = μ) (hE : Ergo μ K) {f : X → ℝ} {B c : ℝ} (h : Bdd f B) (hc : ∫ x, f x ∂μ = c) {ε δ : ℝ}
    (hε : 0 < ε) (hδ : 0 < δ) :
    ∃ n0, ∀ n, ∫⁻ x, pathKer K n x {p | ∃ m, n0 ≤ m ∧ m ≤ n ∧ ε * m ≤ |psum (fun x => f x - c) n m p|} ∂μ ≤ ENNReal.ofReal δ := by
  have hη : 0 < ε * δ / 8 := by positivity
  obtain ⟨g, G, r, R, hg, hr, hfe, hrs⟩ := split_small hK hE h hc hη
  obtain ⟨n0, hn0⟩ := diff_strong hK hg (half_pos hε) (half_pos hδ)
  have hfe' : (fun x => f x - c) = fun x => (g x - ∫ y, g y ∂K x) + r x := funext hfe
  have hu := diff_bdd (K := K) hg
  set u := fun x => g x - ∫ y, g y ∂K x with hudef
  refine ⟨max n0 1, fun n => ?_⟩
  have hmk := pathKer_markov (K := K) n
  set H : X → ℝ≥0∞ := fun x => ENNReal.ofReal |r x| with hHdef
  have hH : Measurable H := (measurable_norm.comp hr.meas).ennreal_ofReal
  set lam : ℝ := ε / 4 with hlam
  have hbm := best_meas hH (ENNReal.ofReal lam) n
  have hset : MeasurableSet {p : Path X n | best H (ENNReal.ofReal lam) n p ≠ 0} := (measurableSet_eq_fun hbm measurable_const).compl
  have hsub : ∀ x, pathKer K n x {p | ∃ m, max n0 1 ≤ m ∧ m ≤ n ∧ ε * m ≤ |psum (fun x => f x - c) n m p|} ≤
      pathKer K n x {p | ∃ m, n0 ≤ m ∧ m ≤ n ∧ ε / 2 * m ≤ |psum u n m p|} + pathKer K n x {p | best H (ENNReal.ofReal lam) n p ≠ 0} := by
    intro x
    refine (measure_mono fun p hp => ?_).trans (measure_union_le _ _)
    obtain ⟨m, h1, h2, h3⟩ := hp
    by_cases hb : best H (ENNReal.ofReal lam) n p = 0
    · left
      refine ⟨m, (le_max_left _ _).trans h1, h2, ?_⟩
      have h4 := psum_le_best (h := r) (lam := lam) (by positivity) n m p h2
      rw [hb, add_zero, ← ENNReal.ofReal_natCast, ← ENNReal.ofReal_mul (Nat.cast_nonneg m),
        ENNReal.ofReal_le_ofReal_iff (by positivity)] at h4
      rw [hfe', psum_add] at h3
      have h5 := abs_add_le (psum u n m p) (psum r n m p)
      have hm0 : (0 : ℝ) ≤ m := Nat.cast_nonneg m
      have : (m : ℝ) * lam = ε / 4 * m := by rw [hlam]; ring
      nlinarith
    · exact Or.inr hb
  have hmax := maximal hK hH (ne_top_of_le_ne_top ENNReal.ofReal_ne_top hrs) (ENNReal.ofReal lam) n
  have e : ∀ x, ∫⁻ p, (if best H (ENNReal.ofReal lam) n p = 0 then 0 else 1) ∂pathKer K n x =
      pathKer K n x {p | best H (ENNReal.ofReal lam) n p ≠ 0} := by
    intro x
    rw [← lintegral_indicator_one hset]
    refine lintegral_congr fun p => ?_
    by_cases hb : best H (ENNReal.ofReal lam) n p = 0
    · have m1 : p ∉ {p : Path X n | best H (ENNReal.ofReal lam) n p ≠ 0} := fun h => h hb
      rw [if_pos hb, Set.indicator_of_notMem m1]
    · have m1 : p ∈ {p : Path X n | best H (ENNReal.ofReal lam) n p ≠ 0} := hb
      rw [if_neg hb, Set.indicator_of_mem m1]; rfl
  simp only [e] at hmax
  have hl0 : ENNReal.ofReal lam ≠ 0 := (ENNReal.ofReal_pos.mpr (by positivity)).ne'
  have hm2 : ∫⁻ x, pathKer K n x {p | best H (ENNReal.ofReal lam) n p ≠ 0} ∂μ ≤ ENNReal.ofReal (δ / 2) := by
    have h1 : ENNReal.ofReal lam * ∫⁻ x, pathKer K n x {p | best H (ENNReal.ofReal lam) n p ≠ 0} ∂μ ≤
        ENNReal.ofReal lam * ENNReal.ofReal (δ / 2) := by
      refine hmax.trans (hrs.trans_eq ?_)
      rw [← ENNReal.ofReal_mul (by positivity), hlam]
      congr 1
      ring
    exact (ENNReal.mul_le_mul_iff_right hl0 ENNReal.ofReal_ne_top).mp h1
  refine (lintegral_mono hsub).trans ?_
  rw [lintegral_add_right _ (Kernel.measurable_coe _ hset)]
  refine (add_le_add (hn0 n) hm2).trans_eq ?_
  rw [← ENNReal.ofReal_add (by positivity) (by positivity), add_halves]

end SBayes.Meas
