import Verif.Lemmas.LawLLN
/- Chains that never leave a set: the log, and its averages, from every point of the set. -/
namespace SBayes.Meas
set_option linter.unusedSectionVars false
open SBayes.MH SBayes.Kernel MeasureTheory Filter Topology
open scoped BigOperators ENNReal

variable {X : Type} [MeasurableSpace X] {π : Measure X} {G : Set X}

/-- On the set, the law integrates like the kernel, and stays in the set. -/
structure RepOn (G : Set X) (T : X → Law X) (κ : ProbabilityTheory.Kernel X X) : Prop where
  rep : ∀ x ∈ G, ∀ H g : X → ℝ≥0∞, Measurable g → (∀ y ∈ G, H y = g y) → T x H = ∫⁻ y, g y ∂κ x
  stay : ∀ x ∈ G, κ x Gᶜ = 0
  loc : ∀ x ∈ G, ∀ H H' : X → ℝ≥0∞, (∀ y ∈ G, H y = H' y) → T x H = T x H'

open Classical in
theorem exists_kernel_on {T : X → Law X} (hG : MeasurableSet G) (hT : ∀ g : X → ℝ≥0∞, Measurable g → Measurable fun x => T x g)
    (hone : ∀ x ∈ G, T x 1 = 1) (hrep : ∀ x ∈ G, IsMeas (T x))
    (hstay : ∀ x ∈ G, T x (Gᶜ.indicator 1) = 0)
    (hloc : ∀ x ∈ G, ∀ H H' : X → ℝ≥0∞, (∀ y ∈ G, H y = H' y) → T x H = T x H') :
    ∃ κ : ProbabilityTheory.Kernel X X, ProbabilityTheory.IsMarkovKernel κ ∧ RepOn G T κ := by
  set κ : X → Measure X := fun x => if h : x ∈ G then (hrep x h).choose else Measure.dirac x with hκ
  have hκ1 : ∀ x, x ∉ G → κ x = Measure.dirac x := fun x hx => dif_neg hx
  have hκ2 : ∀ x ∈ G, ∀ g, Measurable g → T x g = ∫⁻ y, g y ∂κ x := fun x hx => by
    simp only [hκ, dif_pos hx]
    exact (hrep x hx).choose_spec
  have hκB : ∀ B, MeasurableSet B → ∀ x, κ x B = Gᶜ.indicator (B.indicator 1) x + G.indicator (fun x => T x (B.indicator 1)) x := by
    intro B hB x
    by_cases hx : x ∈ G
    · rw [Set.indicator_of_notMem (show x ∉ Gᶜ from fun h => h hx), Set.indicator_of_mem hx, zero_add, hκ2 x hx _ (measurable_one.indicator hB),
        lintegral_indicator_one hB]
    · rw [hκ1 x hx, Measure.dirac_apply' _ hB, Set.indicator_of_mem (show x ∈ Gᶜ from hx),
        Set.indicator_of_notMem hx (fun x => T x (B.indicator 1)), add_zero]
  have hst : ∀ x ∈ G, κ x Gᶜ = 0 := fun x hx => by
    rw [← lintegral_indicator_one hG.compl, ← hκ2 x hx _ (measurable_one.indicator hG.compl)]
    exact hstay x hx
  refine ⟨⟨κ, Measure.measurable_of_measurable_coe _ fun B hB => ?_⟩, ⟨fun x => ⟨?_⟩⟩, ⟨fun x hx H g hg hHg => ?_, hst, hloc⟩⟩
  · simp only [hκB B hB]
    exact ((measurable_one.indicator hB).indicator hG.compl).add ((hT _ (measurable_one.indicator hB)).indicator hG)
  · show κ x Set.univ = 1
    by_cases hx : x ∈ G
    · have := hκ2 x hx 1 measurable_one
      rw [hone x hx] at this
      simpa using this.symm
    · rw [hκ1 x hx]; simp
  · show T x H = ∫⁻ y, g y ∂κ x
    rw [hloc x hx H g hHg, hκ2 x hx g hg]

/-- Several iterations of a kernel. -/
noncomputable def kpow (κ : ProbabilityTheory.Kernel X X) : ℕ → ProbabilityTheory.Kernel X X
  | 0 => ProbabilityTheory.Kernel.id
  | n + 1 => (kpow κ n).comp κ

variable {κ : ProbabilityTheory.Kernel X X}

instance kpow_markov [ProbabilityTheory.IsMarkovKernel κ] (n : ℕ) : ProbabilityTheory.IsMarkovKernel (kpow κ n) := by
  induction n with
  | zero => unfold kpow; infer_instance
  | succ n ih => unfold kpow; infer_instance

theorem kpow_add (a b : ℕ) : kpow κ (a + b) = (kpow κ b).comp (kpow κ a) := by
  induction a with
  | zero => rw [Nat.zero_add]; exact (ProbabilityTheory.Kernel.comp_id _).symm
  | succ a ih =>
    rw [show a + 1 + b = (a + b) + 1 by omega]
    show (kpow κ (a + b)).comp κ = (kpow κ b).comp ((kpow κ a).comp κ)
    rw [ih, ProbabilityTheory.Kernel.comp_assoc]

theorem kpow_mul (a b : ℕ) : kpow (kpow κ a) b = kpow κ (a * b) := by
  induction b with
  | zero => rfl
  | succ b ih =>
    rw [show a * (b + 1) = a + a * b by ring, kpow_add (κ := κ) a, ← ih]
    rfl

theorem kpow_succ_apply [ProbabilityTheory.IsMarkovKernel κ] (n : ℕ) (x : X) {B : Set X} (hB : MeasurableSet B) :
    kpow κ (n + 1) x B = ∫⁻ y, kpow κ n y B ∂κ x := ProbabilityTheory.Kernel.comp_apply' _ _ _ hB

theorem kpow_stay [ProbabilityTheory.IsMarkovKernel κ] (hG : MeasurableSet G) (h : ∀ x ∈ G, κ x Gᶜ = 0) (n : ℕ) :
    ∀ x ∈ G, kpow κ n x Gᶜ = 0 := by
  induction n with
  | zero =>
    intro x hx
    show (ProbabilityTheory.Kernel.id : ProbabilityTheory.Kernel X X) x Gᶜ = 0
    rw [ProbabilityTheory.Kernel.id_apply, Measure.dirac_apply' _ hG.compl]
    exact Set.indicator_of_notMem (show x ∉ Gᶜ from fun h => h hx) _
  | succ n ih =>
    intro x hx
    rw [kpow_succ_apply n x hG.compl]
    have hae : ∀ᵐ y ∂κ x, y ∈ G := (measure_eq_zero_iff_ae_notMem.mp (h x hx)).mono fun y hy => not_not.mp hy
    rw [lintegral_congr_ae (hae.mono fun y hy => ih y hy), lintegral_zero]

theorem kpow_inv [ProbabilityTheory.IsMarkovKernel κ] {μ : Measure X} (h : Measure.bind μ κ = μ) (n : ℕ) : Measure.bind μ (kpow κ n) = μ := by
  induction n with
  | zero => show Measure.bind μ (ProbabilityTheory.Kernel.id : ProbabilityTheory.Kernel X X) = μ; exact Measure.id_comp
  | succ n ih =>
    show Measure.bind μ ((kpow κ n).comp κ) = μ
    rw [← Measure.comp_assoc, h, ih]

namespace RepOn
variable {T : X → Law X}

theorem run_rep [ProbabilityTheory.IsMarkovKernel κ] (hR : RepOn G T κ) (n : ℕ) :
    ∀ x ∈ G, ∀ H g : X → ℝ≥0∞, Measurable g → (∀ y ∈ G, H y = g y) → Kernel.run T n x H = ∫⁻ y, g y ∂kpow κ n x := by
  induction n with
  | zero =>
    intro x hx H g hg h
    show H x = ∫⁻ y, g y ∂(ProbabilityTheory.Kernel.id : ProbabilityTheory.Kernel X X) x
    rw [ProbabilityTheory.Kernel.id_apply, lintegral_dirac' _ hg, h x hx]
  | succ n ih =>
    intro x hx H g hg h
    show T x (fun y => Kernel.run T n y H) = ∫⁻ y, g y ∂((kpow κ n).comp κ) x
    rw [ProbabilityTheory.Kernel.lintegral_comp _ _ _ hg]
    exact hR.rep x hx _ _ hg.lintegral_kernel fun y hy => ih y hy H g hg h

theorem run_loc (hR : RepOn G T κ) (n : ℕ) :
    ∀ x ∈ G, ∀ H H' : X → ℝ≥0∞, (∀ y ∈ G, H y = H' y) → Kernel.run T n x H = Kernel.run T n x H' := by
  induction n with
  | zero => exact fun x hx H H' h => h x hx
  | succ n ih => exact fun x hx H H' h => hR.loc x hx _ _ fun y hy => ih y hy H H' h

theorem run [ProbabilityTheory.IsMarkovKernel κ] (hG : MeasurableSet G) (hR : RepOn G T κ) (n : ℕ) : RepOn G (Kernel.run T n) (kpow κ n) := by
  refine ⟨?_, kpow_stay hG hR.stay n, ?_⟩
  · exact run_rep hR n
  · exact run_loc hR n

/-- The sum of a function over the further samples. -/
theorem further_sum {s : ℕ} [ProbabilityTheory.IsMarkovKernel κ] (hR : RepOn G (Kernel.run T s) κ) {f : X → ℝ} (hf : Measurable f) (n : ℕ) :
    ∀ y ∈ G, ∀ g : ℝ → ℝ≥0∞, Measurable g → further T s n y (fun l => g (l.map f).sum) = ∫⁻ t, g t ∂sumKer κ f n y := by
  induction n with
  | zero =>
    intro y _ g hg
    show g (([] : List X).map f).sum = ∫⁻ t, g t ∂Measure.dirac (0 : ℝ)
    rw [lintegral_dirac' _ hg]
    rfl
  | succ n ih =>
    have hmk := sumKer_markov (K := κ) hf n
    intro y hy g hg
    rw [lintegral_sumKer_succ hf n y hg]
    refine hR.rep y hy _ _ ?_ fun z hz => ?_
    · have hgm : Measurable fun p : X × ℝ => g (p.2 + f p.1) := hg.comp (measurable_shift hf)
      exact hgm.lintegral_kernel_prod_right'
    · have := ih z hz (fun t => g (t + f z)) (hg.comp (measurable_id.add measurable_const))
      rw [← this]
      show further T s n z (fun l => g ((z :: l).map f).sum) = _
      simp only [List.map_cons, List.sum_cons, add_comm (f z)]

end RepOn

/-! ### Null sets are left -/

/-- The functions between 0 and 1 that never decrease on average and vanish almost everywhere vanish on the set. -/
def NoEscape (μ : Measure X) (G : Set X) (κ : ProbabilityTheory.Kernel X X) : Prop :=
  ∀ s : X → ℝ≥0∞, Measurable s → (∀ x, s x ≤ 1) → (∀ x ∈ G, s x ≤ ∫⁻ y, s y ∂κ x) → (∀ᵐ x ∂μ, s x = 0) → ∀ x ∈ G, s x = 0

theorem vanish [ProbabilityTheory.IsMarkovKernel κ] {μ : Measure X} (hinv : Measure.bind μ κ = μ) (hno : NoEscape μ G κ) {B : Set X}
    (hB : MeasurableSet B) (h0 : μ B = 0) : ∀ x ∈ G, Tendsto (fun n => kpow κ n x B) atTop (𝓝 0) := by
  have hmeas : ∀ n, Measurable fun x => kpow κ n x B := fun n => ProbabilityTheory.Kernel.measurable_coe _ hB
  have key := hno (fun x => limsup (fun n => kpow κ n x B) atTop) (Measurable.limsup hmeas) ?_ ?_ ?_
  · intro x hx
    exact tendsto_of_le_liminf_of_limsup_le bot_le (key x hx).le
  · intro x
    refine limsup_le_of_le (h := Eventually.of_forall fun n => prob_le_one)
  · intro x _
    have e : limsup (fun n => kpow κ n x B) atTop = limsup (fun n => ∫⁻ y, kpow κ n y B ∂κ x) atTop := by
      rw [← limsup_nat_add _ 1]
      simp only [kpow_succ_apply _ x hB]
    rw [e]
    refine limsup_lintegral_le (fun _ => 1) hmeas (fun n => ae_of_all _ fun y => prob_le_one) ?_
    simp
  · have hz : ∀ n, ∀ᵐ x ∂μ, kpow κ n x B = 0 := by
      intro n
      have := kpow_inv hinv n
      have h1 : ∫⁻ x, kpow κ n x B ∂μ = 0 := by
        rw [← Measure.bind_apply hB (kpow κ n).measurable.aemeasurable, this, h0]
      rwa [lintegral_eq_zero_iff (hmeas n)] at h1
    rw [← ae_all_iff] at hz
    filter_upwards [hz] with x hx
    simp only [hx]
    exact limsup_const 0

end SBayes.Meas
