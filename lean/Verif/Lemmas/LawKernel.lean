import Verif.Lemmas.LLNStart
import Verif.Lemmas.ErgoSource
import Verif.Model.SampleLoop
/- Laws as kernels. -/
namespace SBayes.Meas
set_option linter.unusedSectionVars false
open SBayes.MH SBayes.Kernel MeasureTheory Filter Topology
open scoped BigOperators ENNReal

variable {X : Type} [MeasurableSpace X] {π : Measure X}

/-! ### Laws that are measures -/

/-- A law that integrates with respect to a measure. -/
def IsMeas (d : Law X) : Prop := ∃ κ : Measure X, ∀ g, Measurable g → d g = ∫⁻ y, g y ∂κ

theorem IsMeas.congr {d d' : Law X} (h : IsMeas d') (he : ∀ g, Measurable g → d g = d' g) : IsMeas d := by
  obtain ⟨κ, hκ⟩ := h
  exact ⟨κ, fun g hg => (he g hg).trans (hκ g hg)⟩

theorem isMeas_map {Y : Type} [MeasurableSpace Y] (ν : Measure Y) {φ : Y → X} (hφ : Measurable φ) :
    IsMeas fun g : X → ℝ≥0∞ => ∫⁻ e, g (φ e) ∂ν := ⟨ν.map φ, fun _ hg => (lintegral_map hg hφ).symm⟩

theorem isMeas_mix {α : Type} (l : Rand α) (T : α → Law X) (h : ∀ a ∈ l, IsMeas (T a.1)) :
    IsMeas (Law.bind (Law.ofRand l) T) := by
  unfold Law.bind Law.ofRand
  induction l with
  | nil => exact ⟨0, fun g _ => by simp⟩
  | cons p l ih =>
    obtain ⟨κ, hκ⟩ := h p List.mem_cons_self
    obtain ⟨κ', hκ'⟩ := ih fun a ha => h a (List.mem_cons_of_mem _ ha)
    refine ⟨ENNReal.ofReal p.2 • κ + κ', fun g hg => ?_⟩
    rw [lintegral_add_measure, lintegral_smul_measure, ← hκ g hg, ← hκ' g hg]
    simp

theorem isMeas_ofRand {α : Type} (l : Rand α) (φ : α → X) : IsMeas fun g : X → ℝ≥0∞ => Law.ofRand l fun t => g (φ t) :=
  (isMeas_mix l (fun t g => g (φ t)) fun a _ => ⟨Measure.dirac (φ a.1), fun _ hg => (lintegral_dirac' _ hg).symm⟩)

/-- The kernel integrates like the law, almost everywhere. -/
def Represents (π : Measure X) (T : X → Law X) (K : ProbabilityTheory.Kernel X X) : Prop :=
  ∀ᵐ x ∂π, ∀ g, Measurable g → T x g = ∫⁻ y, g y ∂K x

open Classical in
theorem exists_kernel {T : X → Law X} (hT : Keeps π T) (hone : ∀ᵐ x ∂π, T x 1 = 1) (hrep : ∀ᵐ x ∂π, IsMeas (T x)) :
    ∃ K : ProbabilityTheory.Kernel X X, ProbabilityTheory.IsMarkovKernel K ∧ Represents π T K := by
  obtain ⟨s, hsub, hsm, h0⟩ := exists_measurable_superset_of_null (ae_iff.mp (hone.and hrep))
  have hgood : ∀ x, x ∉ s → T x 1 = 1 ∧ IsMeas (T x) := fun x hx => not_not.mp fun h => hx (hsub h)
  set κ : X → Measure X := fun x => if h : x ∈ s then Measure.dirac x else (hgood x h).2.choose with hκ
  have hκ1 : ∀ x ∈ s, κ x = Measure.dirac x := fun x hx => dif_pos hx
  have hκ2 : ∀ x, x ∉ s → ∀ g, Measurable g → T x g = ∫⁻ y, g y ∂κ x := fun x hx => by
    simp only [hκ, dif_neg hx]
    exact (hgood x hx).2.choose_spec
  have hκB : ∀ B, MeasurableSet B → ∀ x, κ x B = s.indicator (B.indicator 1) x + sᶜ.indicator (fun x => T x (B.indicator 1)) x := by
    intro B hB x
    by_cases hx : x ∈ s
    · rw [hκ1 x hx, Measure.dirac_apply' _ hB, Set.indicator_of_mem hx,
        Set.indicator_of_notMem (show x ∉ sᶜ from fun h => h hx) (fun x => T x (B.indicator 1)), add_zero]
    · rw [Set.indicator_of_notMem hx, Set.indicator_of_mem (by simpa using hx), zero_add, hκ2 x hx _ (measurable_one.indicator hB),
        lintegral_indicator_one hB]
  refine ⟨⟨κ, Measure.measurable_of_measurable_coe _ fun B hB => ?_⟩, ⟨fun x => ⟨?_⟩⟩, ?_⟩
  · simp only [hκB B hB]
    exact ((measurable_one.indicator hB).indicator hsm).add ((hT _ (measurable_one.indicator hB)).1.indicator hsm.compl)
  · show κ x Set.univ = 1
    by_cases hx : x ∈ s
    · rw [hκ1 x hx]; simp
    · have := hκ2 x hx 1 measurable_one
      rw [(hgood x hx).1] at this
      simpa using this.symm
  · refine (ae_iff.mpr (measure_mono_null (fun x hx => ?_) h0))
    by_contra hxs
    exact hx fun g hg => hκ2 x hxs g hg

section Rep
variable {T : X → Law X} {K : ProbabilityTheory.Kernel X X}

/-- Values on a null set do not matter, even if they make a function unmeasurable. -/
theorem Represents.null (hR : Represents π T K) (hT : Keeps π T) (hmono : ∀ x, Super (T x)) {N : Set X} (hN : π N = 0) :
    ∀ᵐ x ∂π, ∀ H G : X → ℝ≥0∞, Measurable G → (∀ y ∉ N, H y = G y) → T x H = ∫⁻ y, G y ∂K x := by
  obtain ⟨s, hsub, hsm, h0⟩ := exists_measurable_superset_of_null hN
  have hint := (hT _ (measurable_one.indicator hsm)).2
  rw [lintegral_indicator_one hsm, h0, lintegral_eq_zero_iff (hT _ (measurable_one.indicator hsm)).1] at hint
  filter_upwards [hR, hint] with x hx hx0 H G hG hHG
  have hx0' : K x s = 0 := by
    have : T x (s.indicator 1) = 0 := hx0
    rwa [hx _ (measurable_one.indicator hsm), lintegral_indicator_one hsm] at this
  have hae : ∀ᵐ y ∂K x, y ∉ s := measure_eq_zero_iff_ae_notMem.mp hx0'
  refine le_antisymm ?_ ?_
  · have hm : Measurable fun y => G y + s.indicator (fun _ => (⊤ : ℝ≥0∞)) y := hG.add (measurable_const.indicator hsm)
    calc T x H ≤ T x fun y => G y + s.indicator (fun _ => (⊤ : ℝ≥0∞)) y := by
          refine (hmono x).mono _ _ fun y => ?_
          by_cases hy : y ∈ s
          · rw [Set.indicator_of_mem hy, add_top]; exact le_top
          · rw [hHG y fun h => hy (hsub h)]; exact le_self_add
      _ = ∫⁻ y, G y ∂K x := by
          rw [hx _ hm]
          refine lintegral_congr_ae (hae.mono fun y hy => ?_)
          show G y + s.indicator (fun _ => (⊤ : ℝ≥0∞)) y = G y
          rw [Set.indicator_of_notMem hy, add_zero]
  · have hm : Measurable (sᶜ.indicator G) := hG.indicator hsm.compl
    calc ∫⁻ y, G y ∂K x = T x (sᶜ.indicator G) := by
          rw [hx _ hm]
          refine lintegral_congr_ae (hae.mono fun y hy => ?_)
          show G y = sᶜ.indicator G y
          rw [Set.indicator_of_mem hy]
      _ ≤ T x H := by
          refine (hmono x).mono _ _ fun y => ?_
          by_cases hy : y ∈ s
          · rw [Set.indicator_of_notMem (by simpa using hy)]; exact bot_le
          · rw [Set.indicator_of_mem hy, hHG y fun h => hy (hsub h)]

theorem Represents.null_ae (hR : Represents π T K) (hT : Keeps π T) (hmono : ∀ x, Super (T x)) {Q : X → Prop} (hQ : ∀ᵐ y ∂π, Q y) :
    ∀ᵐ x ∂π, ∀ H G : X → ℝ≥0∞, Measurable G → (∀ y, Q y → H y = G y) → T x H = ∫⁻ y, G y ∂K x :=
  (hR.null hT hmono (N := {y | ¬ Q y}) (ae_iff.mp hQ)).mono fun x hx H G hG hQ => hx H G hG fun y hy => hQ y (not_not.mp hy)

theorem Represents.invariant (hR : Represents π T K) (hT : Keeps π T) : π.bind K = π := by
  ext B hB
  rw [Measure.bind_apply hB K.measurable.aemeasurable, ← lintegral_indicator_one hB, ← (hT _ (measurable_one.indicator hB)).2]
  refine lintegral_congr_ae (hR.mono fun x hx => ?_)
  show K x B = T x (B.indicator 1)
  rw [hx _ (measurable_one.indicator hB), lintegral_indicator_one hB]

/-- Several iterations. -/
theorem super_run (hmono : ∀ x, Super (T x)) (n : ℕ) (x : X) : Super (run T n x) := by
  induction n generalizing x with
  | zero => exact Super.ret x
  | succ n ih => exact (hmono x).bind ih

theorem run_isMeas (hR : Represents π T K) [ProbabilityTheory.IsMarkovKernel K] (hT : Keeps π T) (hmono : ∀ x, Super (T x)) (n : ℕ) :
    ∃ K' : ProbabilityTheory.Kernel X X, ProbabilityTheory.IsMarkovKernel K' ∧ Represents π (run T n) K' := by
  induction n with
  | zero => exact ⟨ProbabilityTheory.Kernel.id, inferInstance, ae_of_all _ fun x g hg => by
      rw [ProbabilityTheory.Kernel.id_apply, lintegral_dirac' _ hg]; rfl⟩
  | succ n ih =>
    obtain ⟨K', hK', hR'⟩ := ih
    refine ⟨K'.comp K, inferInstance, ?_⟩
    filter_upwards [hR.null_ae hT hmono hR'] with x hx g hg
    rw [ProbabilityTheory.Kernel.lintegral_comp _ _ _ hg]
    exact hx _ _ (hg.lintegral_kernel) fun y hy => hy g hg

end Rep

/-! ### The log -/

/-- `n` further samples, `s` iterations apart. -/
noncomputable def further (T : X → Law X) (s : ℕ) : ℕ → X → Law (List X)
  | 0, _ => Law.ret []
  | n + 1, y => Law.bind (run T s y) fun z => Law.bind (further T s n z) fun l => Law.ret (z :: l)

theorem sampleLoop_skip (T : X → Law X) (s : ℕ) (j r i : ℕ) (x : X) (h : ∀ t < j, (i + t) % s ≠ 0) :
    sampleLoop T s (j + r) i x = Law.bind (run T j x) (sampleLoop T s r (i + j)) := by
  induction j generalizing i x with
  | zero => rw [Nat.zero_add]; rfl
  | succ j ih =>
    have e : j + 1 + r = (j + r) + 1 := by omega
    rw [e]
    unfold sampleLoop
    have h0 : i % s ≠ 0 := h 0 (Nat.succ_pos j)
    simp only [if_neg h0]
    have e2 : ∀ y, sampleLoop T s (j + r) (i + 1) y = Law.bind (run T j y) (sampleLoop T s r (i + 1 + j)) := fun y =>
      ih (i + 1) y fun t ht => by have := h (t + 1) (by omega); rwa [show i + 1 + t = i + (t + 1) by omega]
    funext g
    show T x (fun y => sampleLoop T s (j + r) (i + 1) y fun l => g l) = T x fun y => (Law.bind (run T j y) (sampleLoop T s r (i + (j + 1)))) g
    congr 1
    funext y
    rw [e2, show i + 1 + j = i + (j + 1) by omega]

/-- One sample after the first iteration, then one every `s` iterations. -/
theorem sampleLoop_further (T : X → Law X) {s : ℕ} (hs : 0 < s) (q i : ℕ) (hi : i % s = 0) (x : X) :
    sampleLoop T s (s * q + 1) i x = Law.bind (T x) fun y => Law.bind (further T s q y) fun l => Law.ret (y :: l) := by
  induction q generalizing i x with
  | zero =>
    rw [Nat.mul_zero, Nat.zero_add]
    unfold sampleLoop sampleLoop further
    simp only [if_pos hi]
  | succ q ih =>
    have e : s * (q + 1) + 1 = ((s - 1) + (s * q + 1)) + 1 := by rw [Nat.mul_add]; omega
    rw [e]
    unfold sampleLoop
    simp only [if_pos hi]
    have e2 : ∀ y, sampleLoop T s ((s - 1) + (s * q + 1)) (i + 1) y = further T s (q + 1) y := by
      intro y
      rw [sampleLoop_skip T s (s - 1) (s * q + 1) (i + 1) y fun t ht => ?_]
      · funext g
        have hi' : (i + 1 + (s - 1)) % s = 0 := by
          rw [show i + 1 + (s - 1) = i + s by omega, Nat.add_mod_right, hi]
        have e3 : sampleLoop T s (s * q + 1) (i + 1 + (s - 1)) = fun z => Law.bind (T z) fun y => Law.bind (further T s q y)
            fun l => Law.ret (y :: l) := funext fun z => ih _ hi' z
        rw [e3]
        show run T (s - 1) y (fun z => T z fun y => (Law.bind (further T s q y) fun l => Law.ret (y :: l)) g) =
          run T s y fun z => (Law.bind (further T s q z) fun l => Law.ret (z :: l)) g
        have hrun : ∀ (n : ℕ) (y : X) (h : X → ℝ≥0∞), run T n y (fun z => T z h) = run T (n + 1) y h := by
          intro n
          induction n with
          | zero => intro y h; rfl
          | succ n ih => intro y h; show T y (fun w => run T n w fun z => T z h) = T y fun w => run T (n + 1) w h; congr 1; funext w; exact ih w h
        rw [hrun, Nat.sub_add_cancel hs]
      · obtain ⟨k, hk⟩ := Nat.dvd_of_mod_eq_zero hi
        rw [hk, show s * k + 1 + t = (t + 1) + s * k by ring, Nat.add_mul_mod_self_left, Nat.mod_eq_of_lt (by omega)]
        omega
    simp only [e2]

theorem further_length (T : X → Law X) (s n : ℕ) (y : X) {g h : List X → ℝ≥0∞} (hgh : ∀ l, l.length = n → g l = h l) :
    further T s n y g = further T s n y h := by
  induction n generalizing y g h with
  | zero => exact hgh [] rfl
  | succ n ih =>
    show run T s y (fun z => further T s n z fun l => g (z :: l)) = run T s y fun z => further T s n z fun l => h (z :: l)
    congr 1
    funext z
    exact ih z fun l hl => hgh _ (by simp [hl])

/-- The sum of a function over the further samples. -/
theorem further_sum {T : X → Law X} {s : ℕ} {K : ProbabilityTheory.Kernel X X} [ProbabilityTheory.IsMarkovKernel K]
    (hR : Represents π (run T s) K) (hT : Keeps π (run T s)) (hmono : ∀ x, Super (run T s x)) {f : X → ℝ} (hf : Measurable f) (n : ℕ) :
    ∀ᵐ y ∂π, ∀ g : ℝ → ℝ≥0∞, Measurable g → further T s n y (fun l => g (l.map f).sum) = ∫⁻ t, g t ∂sumKer K f n y := by
  induction n with
  | zero =>
    refine ae_of_all _ fun y g hg => ?_
    show g (([] : List X).map f).sum = ∫⁻ t, g t ∂Measure.dirac (0 : ℝ)
    rw [lintegral_dirac' _ hg]
    rfl
  | succ n ih =>
    have hmk := sumKer_markov (K := K) hf n
    filter_upwards [hR.null_ae hT hmono ih] with y hy g hg
    rw [lintegral_sumKer_succ hf n y hg]
    refine hy _ _ ?_ fun z hz => ?_
    · have hgm : Measurable fun p : X × ℝ => g (p.2 + f p.1) := hg.comp (measurable_shift hf)
      exact hgm.lintegral_kernel_prod_right'
    · have := hz (fun t => g (t + f z)) (hg.comp (measurable_id.add measurable_const))
      rw [← this]
      show further T s n z (fun l => g ((z :: l).map f).sum) = _
      simp only [List.map_cons, List.sum_cons, add_comm (f z)]

end SBayes.Meas
