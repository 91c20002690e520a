import Verif.Lemmas.SamplerGibbs
/- Invariance of `GibbsSampleWeights`. -/
namespace SBayes.Meas
set_option linter.unusedSectionVars false
open SBayes.Lik SBayes.Clusters SBayes.MH SBayes.Source SBayes.Effects SBayes.Posterior SBayes.Draws SBayes.Kernel MeasureTheory
open scoped BigOperators ENNReal

variable {K N F S M C G : ℕ} {nG : Fin M → ℕ}

/-! ### Independent steps in all coordinates -/

section Pi
variable {ι X A B : Type} [Fintype ι] [DecidableEq ι] [MeasurableSpace X] [MeasurableSpace A] [MeasurableSpace B]

theorem lintegral_pi_pair (μ : ι → Measure X) (ν : ι → Measure A) [∀ i, SigmaFinite (μ i)] [∀ i, SigmaFinite (ν i)]
    {G : (ι → X) × (ι → A) → ℝ≥0∞} (hG : Measurable G) :
    ∫⁻ x, ∫⁻ a, G (x, a) ∂Measure.pi ν ∂Measure.pi μ = ∫⁻ z, G (fun i => (z i).1, fun i => (z i).2) ∂Measure.pi fun i => (μ i).prod (ν i) := by
  rw [← lintegral_prod _ hG.aemeasurable, ← (measurePreserving_arrowProdEquivProdArrow X A ι μ ν).lintegral_comp hG]
  rfl

theorem pi_step (ν : ι → Measure X) [∀ i, SigmaFinite (ν i)] (p : ι → X → ℝ≥0∞) (hp : ∀ i, Measurable (p i))
    [∀ i, SigmaFinite ((ν i).withDensity (p i))] (α : ι → Measure A) (β : ι → Measure B) [∀ i, SigmaFinite (α i)]
    [∀ i, SigmaFinite (β i)] (step : ι → X → A → B → X) (hs : ∀ i, Measurable fun z : X × A × B => step i z.1 z.2.1 z.2.2)
    (h : ∀ i (g : X → ℝ≥0∞), Measurable g → ∫⁻ v, p i v * (∫⁻ a, ∫⁻ b, g (step i v a b) ∂β i ∂α i) ∂ν i = ∫⁻ v, p i v * g v ∂ν i)
    {g : (ι → X) → ℝ≥0∞} (hg : Measurable g) :
    ∫⁻ w, (∏ i, p i (w i)) * (∫⁻ a, ∫⁻ b, g (fun i => step i (w i) (a i) (b i)) ∂Measure.pi β ∂Measure.pi α) ∂Measure.pi ν =
      ∫⁻ w, (∏ i, p i (w i)) * g w ∂Measure.pi ν := by
  have hP : Measurable fun w : ι → X => ∏ i, p i (w i) :=
    Finset.measurable_fun_prod _ fun i _ => (hp i).comp (measurable_pi_apply i)
  have hS : Measurable fun z : (ι → X) × (ι → A) × (ι → B) => fun i => step i (z.1 i) (z.2.1 i) (z.2.2 i) := by
    rw [measurable_pi_iff]
    intro i
    have : Measurable fun z : (ι → X) × (ι → A) × (ι → B) => (z.1 i, z.2.1 i, z.2.2 i) := by fun_prop
    exact Measurable.comp (g := fun z : X × A × B => step i z.1 z.2.1 z.2.2) (hs i) this
  have hS2 : Measurable fun z : (ι → X) × (ι → A × B) => fun i => step i (z.1 i) (z.2 i).1 (z.2 i).2 := by
    rw [measurable_pi_iff]
    intro i
    have : Measurable fun z : (ι → X) × (ι → A × B) => (z.1 i, z.2 i) := by fun_prop
    exact Measurable.comp (g := fun z : X × A × B => step i z.1 z.2.1 z.2.2) (hs i) this
  have hin : ∀ w : ι → X, ∫⁻ a, ∫⁻ b, g (fun i => step i (w i) (a i) (b i)) ∂Measure.pi β ∂Measure.pi α =
      ∫⁻ e, g (fun i => step i (w i) (e i).1 (e i).2) ∂Measure.pi fun i => (α i).prod (β i) := fun w =>
    lintegral_pi_pair α β (G := fun z => g (fun i => step i (w i) (z.1 i) (z.2 i)))
      (hg.comp (hS.comp ((measurable_const (a := w)).prodMk measurable_id)))
  simp only [hin]
  have hI : Measurable fun w : ι → X => ∫⁻ e, g (fun i => step i (w i) (e i).1 (e i).2) ∂Measure.pi fun i => (α i).prod (β i) :=
    Measurable.lintegral_prod_right' (f := fun z : (ι → X) × (ι → A × B) => g fun i => step i (z.1 i) (z.2 i).1 (z.2 i).2) (hg.comp hS2)
  have e1 := lintegral_withDensity_eq_lintegral_mul (Measure.pi ν) hP hI
  have e2 := lintegral_withDensity_eq_lintegral_mul (Measure.pi ν) hP hg
  rw [← pi_withDensity p hp] at e1 e2
  refine e1.symm.trans (Eq.trans ?_ e2)
  rw [lintegral_pi_pair (fun i => (ν i).withDensity (p i)) (fun i => (α i).prod (β i))
    (G := fun z => g fun i => step i (z.1 i) (z.2 i).1 (z.2 i).2) (hg.comp hS2)]
  have hf : ∀ i, Measurable fun z : X × A × B => step i z.1 z.2.1 z.2.2 := hs
  have hmap : ∀ i, (((ν i).withDensity (p i)).prod ((α i).prod (β i))).map (fun z : X × A × B => step i z.1 z.2.1 z.2.2) =
      (ν i).withDensity (p i) := by
    intro i
    refine Measure.ext_of_lintegral _ fun f hfm => ?_
    have hfs : Measurable fun z : X × A × B => f (step i z.1 z.2.1 z.2.2) := hfm.comp (hs i)
    have hin2 : ∀ v, ∫⁻ e : A × B, f (step i v e.1 e.2) ∂(α i).prod (β i) = ∫⁻ a, ∫⁻ b, f (step i v a b) ∂β i ∂α i := fun v =>
      lintegral_prod (fun e : A × B => f (step i v e.1 e.2)) (hfs.comp (measurable_const.prodMk measurable_id)).aemeasurable
    have hm2 : Measurable fun v => ∫⁻ e : A × B, f (step i v e.1 e.2) ∂(α i).prod (β i) :=
      Measurable.lintegral_prod_right' (f := fun z : X × A × B => f (step i z.1 z.2.1 z.2.2)) hfs
    rw [lintegral_map hfm (hs i), lintegral_prod _ hfs.aemeasurable]
    have e3 := lintegral_withDensity_eq_lintegral_mul (ν i) (hp i) hm2
    have e4 := lintegral_withDensity_eq_lintegral_mul (ν i) (hp i) hfm
    refine e3.trans (Eq.trans ?_ e4.symm)
    rw [← show ∫⁻ v, p i v * f v ∂ν i = ∫⁻ a, (p i * f) a ∂ν i from rfl, ← h i f hfm]
    refine lintegral_congr fun v => ?_
    rw [← hin2]
    rfl
  have hsf : ∀ i, SigmaFinite ((((ν i).withDensity (p i)).prod ((α i).prod (β i))).map
      (fun z : X × A × B => step i z.1 z.2.1 z.2.2)) := fun i => by rw [hmap]; infer_instance
  have hpm := Measure.pi_map_pi (μ := fun i => ((ν i).withDensity (p i)).prod ((α i).prod (β i)))
    (f := fun i (z : X × A × B) => step i z.1 z.2.1 z.2.2) fun i => (hs i).aemeasurable
  simp only [hmap] at hpm
  rw [← hpm, lintegral_map hg]
  rw [measurable_pi_iff]
  exact fun i => (hs i).comp (measurable_pi_apply i)

end Pi

/-! ### One feature -/

section RowStep
variable (src : Fin N → Fin F → Fin C → Bool) (has : Fin N → Fin C → Bool) (i1 i2 : Fin C) (f : Fin F)

/-- The probability of the sources of feature `f` as a function of its weights. -/
noncomputable def rowLh (v : Fin C → ℝ) : ℝ := sourceLh src (normalizeWeights (fun _ => v) has) f

/-- The acceptance ratio of feature `f` as a function of its weights and of the drawn share. -/
noncomputable def rowAcc (v : Fin C → ℝ) (a : ℝ) : ℝ :=
  rowLh src has f (mixPair v i1 i2 a) / rowLh src has f v *
    (ProbabilityTheory.betaPDFReal (1 + pairCounts src has i1 i2 f i2) (1 + pairCounts src has i1 i2 f i1) (v i2 / (v i1 + v i2)) /
      ProbabilityTheory.betaPDFReal (1 + pairCounts src has i1 i2 f i2) (1 + pairCounts src has i1 i2 f i1) a)

theorem pAccept_row (w : Fin F → Fin C → ℝ) (a2 : Fin F → ℝ) :
    pAccept src has w i1 i2 a2 f = rowAcc src has i1 i2 f (w f) (a2 f) := by
  unfold pAccept rowAcc rowLh
  dsimp only
  rw [sourceLh_congr src has w (fun _ => w f) f rfl,
    sourceLh_congr src has (fun f => (resamplePair src has w i1 i2 f (a2 f)).new) (fun _ => mixPair (w f) i1 i2 (a2 f)) f rfl]
  rfl

open Classical in
/-- The step of feature `f`. -/
noncomputable def rowStep (v : Fin C → ℝ) (a u : ℝ) : Fin C → ℝ :=
  if u < rowAcc src has i1 i2 f v a then mixPair v i1 i2 a else v

theorem gibbsWeights_row (w : Fin F → Fin C → ℝ) (a2 u : Fin F → ℝ) :
    (gibbsWeights src has w i1 i2 a2 u).new = fun f => rowStep src has i1 i2 f (w f) (a2 f) (u f) := by
  funext f
  unfold gibbsWeights gibbs rowStep
  dsimp only
  rw [pAccept_row]
  rfl

theorem meas_rowLh : Measurable (rowLh src has f) := by
  unfold rowLh sourceLh
  refine Finset.measurable_fun_prod _ fun n _ => Finset.measurable_fun_sum _ fun c _ => Measurable.const_mul ?_ _
  exact meas_normalizeWeights (w := fun (v : Fin C → ℝ) (_ : Fin F) => v) (fun _ c => measurable_pi_apply c) has n f c

theorem meas_mixPair : Measurable fun z : (Fin C → ℝ) × ℝ => mixPair z.1 i1 i2 z.2 := by
  unfold mixPair
  refine measurable_normalize.comp ?_
  rw [measurable_pi_iff]
  intro k
  simp only [Function.update_apply]
  split
  · fun_prop
  · split <;> fun_prop

theorem meas_rowAcc : Measurable fun z : (Fin C → ℝ) × ℝ => rowAcc src has i1 i2 f z.1 z.2 := by
  have hb := ProbabilityTheory.measurable_betaPDFReal (1 + pairCounts src has i1 i2 f i2) (1 + pairCounts src has i1 i2 f i1)
  have h1 : Measurable fun z : (Fin C → ℝ) × ℝ => z.1 i2 / (z.1 i1 + z.1 i2) := by fun_prop
  have a1 := (meas_rowLh src has f).comp (meas_mixPair i1 i2)
  have a2 : Measurable fun z : (Fin C → ℝ) × ℝ => rowLh src has f z.1 := (meas_rowLh src has f).comp measurable_fst
  have a3 := hb.comp h1
  have a4 : Measurable fun z : (Fin C → ℝ) × ℝ => ProbabilityTheory.betaPDFReal (1 + pairCounts src has i1 i2 f i2)
    (1 + pairCounts src has i1 i2 f i1) z.2 := hb.comp measurable_snd
  exact (a1.div a2).mul (a3.div a4)

theorem meas_choice {r : (Fin C → ℝ) → ℝ → ℝ} {k : (Fin C → ℝ) → ℝ → Fin C → ℝ} (hr : Measurable fun z : (Fin C → ℝ) × ℝ => r z.1 z.2)
    (hk : Measurable fun z : (Fin C → ℝ) × ℝ => k z.1 z.2) {D : ∀ z : (Fin C → ℝ) × ℝ × ℝ, Decidable (z.2.2 < r z.1 z.2.1)} :
    Measurable fun z : (Fin C → ℝ) × ℝ × ℝ => @ite _ (z.2.2 < r z.1 z.2.1) (D z) (k z.1 z.2.1) z.1 := by
  have h1 : Measurable fun z : (Fin C → ℝ) × ℝ × ℝ => (z.1, z.2.1) := by fun_prop
  have h2 : Measurable fun z : (Fin C → ℝ) × ℝ × ℝ => z.2.2 := by fun_prop
  exact Measurable.ite (measurableSet_lt h2 (hr.comp h1)) (hk.comp h1) measurable_fst

theorem meas_rowStep : Measurable fun z : (Fin C → ℝ) × ℝ × ℝ => rowStep src has i1 i2 f z.1 z.2.1 z.2.2 :=
  meas_choice (r := rowAcc src has i1 i2 f) (k := fun v a => mixPair v i1 i2 a) (meas_rowAcc src has i1 i2 f) (meas_mixPair i1 i2)

theorem counts_pos (c : Fin C) : 0 < 1 + pairCounts src has i1 i2 f c := by
  have : 0 ≤ pairCounts src has i1 i2 f c := Finset.sum_nonneg fun n _ => by split <;> [split <;> norm_num; norm_num]
  linarith

theorem lintegral_beta {a b : ℝ} {h : ℝ → ℝ≥0∞} (hh : Measurable h) :
    ∫⁻ x, h x ∂betaLaw a b = ∫⁻ t in Set.Ioo (0 : ℝ) 1, ENNReal.ofReal (ProbabilityTheory.betaPDFReal a b t) * h t := by
  unfold betaLaw ProbabilityTheory.betaMeasure
  have hm : Measurable (ProbabilityTheory.betaPDF a b) := (ProbabilityTheory.measurable_betaPDFReal a b).ennreal_ofReal
  rw [lintegral_withDensity_eq_lintegral_mul _ hm hh, ← lintegral_indicator measurableSet_Ioo]
  refine lintegral_congr fun x => ?_
  by_cases hx : x ∈ Set.Ioo (0 : ℝ) 1
  · rw [Set.indicator_of_mem hx]
    rfl
  · rw [Set.indicator_of_notMem hx]
    have : ProbabilityTheory.betaPDFReal a b x = 0 := by
      rw [ProbabilityTheory.betaPDFReal, if_neg (show ¬ (0 < x ∧ x < 1) from hx)]
    show ENNReal.ofReal (ProbabilityTheory.betaPDFReal a b x) * h x = 0
    rw [this, ENNReal.ofReal_zero, zero_mul]

open Classical in
theorem lintegral_uniform_lt {p : ℝ} (hp : 0 ≤ p) (A B : ℝ≥0∞) :
    ∫⁻ u, (if u < p then A else B) ∂uniform01 = ENNReal.ofReal (min 1 p) * A + ENNReal.ofReal (1 - min 1 p) * B := by
  have hs : MeasurableSet (Set.Iio p) := measurableSet_Iio
  have h1 : ∀ u : ℝ, (if u < p then A else B) = (Set.Iio p).indicator (fun _ => A) u + (Set.Ici p).indicator (fun _ => B) u := by
    intro u
    by_cases h : u < p
    · rw [if_pos h, Set.indicator_of_mem (show u ∈ Set.Iio p from h), Set.indicator_of_notMem (show u ∉ Set.Ici p from not_le.mpr h), add_zero]
    · rw [if_neg h, Set.indicator_of_notMem (show u ∉ Set.Iio p from h), Set.indicator_of_mem (show u ∈ Set.Ici p from not_lt.mp h), zero_add]
  simp only [h1]
  rw [lintegral_add_left (measurable_const.indicator hs), lintegral_indicator_const hs, lintegral_indicator_const measurableSet_Ici]
  unfold uniform01
  rw [Measure.restrict_apply hs, Measure.restrict_apply measurableSet_Ici]
  have e1 : Set.Iio p ∩ Set.Ico (0 : ℝ) 1 = Set.Ico 0 (min 1 p) := by
    ext u; simp only [Set.mem_inter_iff, Set.mem_Iio, Set.mem_Ico, lt_min_iff]; tauto
  have e2 : Set.Ici p ∩ Set.Ico (0 : ℝ) 1 = Set.Ico p 1 := by
    ext u
    simp only [Set.mem_inter_iff, Set.mem_Ici, Set.mem_Ico]
    exact ⟨fun h => ⟨h.1, h.2.2⟩, fun h => ⟨h.1, hp.trans h.1, h.2⟩⟩
  rw [e1, e2, Real.volume_Ico, Real.volume_Ico, sub_zero, mul_comm A, mul_comm B]
  congr 2
  rcases le_total p 1 with h | h
  · rw [min_eq_right h]
  · rw [min_eq_left h, sub_self, ENNReal.ofReal_zero, ENNReal.ofReal_of_nonpos (by linarith)]

theorem row_step (h1 : ∀ n f, ∃! c, src n f c = true) (hhas : ∀ n f c, src n f c = true → has n c = true) (hij : i1 ≠ i2)
    {g : (Fin C → ℝ) → ℝ≥0∞} (hg : Measurable g) :
    ∫⁻ v, ENNReal.ofReal (rowLh src has f v) * (∫⁻ a, ∫⁻ u, g (rowStep src has i1 i2 f v a u) ∂uniform01
      ∂betaLaw (1 + pairCounts src has i1 i2 f i2) (1 + pairCounts src has i1 i2 f i1)) ∂uniformSimplex Finset.univ =
      ∫⁻ v, ENNReal.ofReal (rowLh src has f v) * g v ∂uniformSimplex Finset.univ := by
  classical
  set α := 1 + pairCounts src has i1 i2 f i2 with hα
  set β := 1 + pairCounts src has i1 i2 f i1 with hβ
  have hα0 : 0 < α := counts_pos src has i1 i2 f i2
  have hβ0 : 0 < β := counts_pos src has i1 i2 f i1
  have hb := ProbabilityTheory.measurable_betaPDFReal α β
  have hbpos : ∀ t ∈ Set.Ioo (0 : ℝ) 1, 0 < ProbabilityTheory.betaPDFReal α β t := fun t ht =>
    ProbabilityTheory.betaPDFReal_pos ht.1 ht.2 hα0 hβ0
  have hI : ∀ᵐ t ∂volume.restrict (Set.Ioo (0 : ℝ) 1), t ∈ Set.Ioo (0 : ℝ) 1 := ae_restrict_mem measurableSet_Ioo
  have hacc := meas_rowAcc src has i1 i2 f
  have hmin : Measurable fun z : (Fin C → ℝ) × ℝ => min 1 (rowAcc src has i1 i2 f z.1 z.2) := measurable_const.min hacc
  have hrow : ∀ᵐ v ∂uniformSimplex (Finset.univ : Finset (Fin C)), Row Finset.univ v :=
    uniformSimplex_ae ⟨i1, Finset.mem_univ i1⟩
  have hpos : ∀ v, Row Finset.univ v → 0 < rowLh src has f v := fun v hv =>
    sourceLh_pos src h1 has hhas (fun _ => v) f fun c => hv.pos (Finset.mem_univ c)
  have hmix : ∀ v, Row Finset.univ v → ∀ t, mixPair v i1 i2 t = Effects.along v i2 i1 t := fun v hv t =>
    mixPair_eq_along hij hv.2 t
  have hal : ∀ v, Row Finset.univ v → ∀ t ∈ Set.Ioo (0 : ℝ) 1, Row Finset.univ (Effects.along v i2 i1 t) := fun v hv t ht =>
    hv.along (Finset.mem_univ _) (Finset.mem_univ _) hij.symm ht
  have hshare : ∀ v, Row Finset.univ v → ∀ t, Effects.along v i2 i1 t i2 / (Effects.along v i2 i1 t i1 + Effects.along v i2 i1 t i2) = t := by
    intro v hv t
    have : 0 < v i2 + v i1 := add_pos (hv.pos (Finset.mem_univ _)) (hv.pos (Finset.mem_univ _))
    rw [along_left _ hij.symm, along_right, ← add_mul, sub_add_cancel, one_mul]
    field_simp
  have hra : ∀ v, Row Finset.univ v → ∀ s ∈ Set.Ioo (0 : ℝ) 1, ∀ t ∈ Set.Ioo (0 : ℝ) 1,
      rowAcc src has i1 i2 f (Effects.along v i2 i1 s) t = rowLh src has f (Effects.along v i2 i1 t) / rowLh src has f (Effects.along v i2 i1 s) *
        (ProbabilityTheory.betaPDFReal α β s / ProbabilityTheory.betaPDFReal α β t) := by
    intro v hv s hs t ht
    unfold rowAcc
    rw [hmix _ (hal v hv s hs), along_along _ hij.symm, hshare v hv, ← hα, ← hβ]
  have hap : ∀ v, Row Finset.univ v → ∀ s ∈ Set.Ioo (0 : ℝ) 1, ∀ t ∈ Set.Ioo (0 : ℝ) 1,
      min 1 (rowAcc src has i1 i2 f (Effects.along v i2 i1 s) t) = acceptProb (rowLh src has f (Effects.along v i2 i1 s))
        (rowLh src has f (Effects.along v i2 i1 t)) (ProbabilityTheory.betaPDFReal α β t) (ProbabilityTheory.betaPDFReal α β s) := by
    intro v hv s hs t ht
    rw [hra v hv s hs t ht]
    unfold acceptProb
    rw [if_neg (hbpos s hs).ne', if_neg (hbpos t ht).ne']
  have hcur : ∀ v, Row Finset.univ v → ∃ a ∈ Set.Ioo (0 : ℝ) 1, Effects.along v i2 i1 a = v := fun v hv =>
    two_row (hv.pos (Finset.mem_univ _)) (hv.pos (Finset.mem_univ _))
  have key := slice_mh (refresh_along (Finset.mem_univ i2) (Finset.mem_univ i1) hij.symm)
    (fun v => ENNReal.ofReal (rowLh src has f v)) (meas_rowLh src has f).ennreal_ofReal
    (fun _ t => ENNReal.ofReal (ProbabilityTheory.betaPDFReal α β t))
    (fun v t => ENNReal.ofReal (min 1 (rowAcc src has i1 i2 f v t)))
    (fun v t => ENNReal.ofReal (1 - min 1 (rowAcc src has i1 i2 f v t)))
    (hb.comp measurable_snd).ennreal_ofReal hmin.ennreal_ofReal (hmin.const_sub 1).ennreal_ofReal ?_ ?_ g hg
  · rw [← key]
    refine lintegral_congr_ae ?_
    filter_upwards [hrow] with v hv
    congr 1
    have hgm : Measurable fun z : ℝ × ℝ => g (rowStep src has i1 i2 f v z.1 z.2) :=
      hg.comp (Measurable.comp (g := fun z : (Fin C → ℝ) × ℝ × ℝ => rowStep src has i1 i2 f z.1 z.2.1 z.2.2)
        (meas_rowStep src has i1 i2 f) ((measurable_const (a := v)).prodMk measurable_id))
    have : SFinite uniform01 := by unfold uniform01; infer_instance
    rw [lintegral_beta (Measurable.lintegral_prod_right' (f := fun z : ℝ × ℝ => g (rowStep src has i1 i2 f v z.1 z.2)) hgm)]
    refine lintegral_congr_ae ?_
    filter_upwards [hI] with t ht
    congr 1
    obtain ⟨a, ha, hav⟩ := hcur v hv
    have hnn : 0 ≤ rowAcc src has i1 i2 f v t := by
      have := hra v hv a ha t ht
      rw [hav] at this
      rw [this]
      exact mul_nonneg (div_nonneg (hpos _ (hal v hv t ht)).le (hpos v hv).le) (div_nonneg (hbpos a ha).le (hbpos t ht).le)
    rw [← hmix v hv, ← lintegral_uniform_lt hnn]
    refine lintegral_congr fun u => ?_
    unfold rowStep
    split <;> rfl
  · filter_upwards [hrow] with v hv
    rw [← betaPDFReal_lintegral hα0 hβ0]
    refine lintegral_congr_ae ?_
    filter_upwards [hI] with t ht
    obtain ⟨a, ha, hav⟩ := hcur v hv
    have e := hap v hv a ha t ht
    rw [hav] at e
    rw [e]
    obtain ⟨b0, b1⟩ := accept_mem (hpos v hv).le (hpos _ (hal v hv t ht)).le (hbpos t ht).le (hbpos a ha).le
    rw [← ENNReal.ofReal_add b0 (sub_nonneg.mpr b1), add_sub_cancel, ENNReal.ofReal_one, mul_one]
  · filter_upwards [hrow] with v hv
    filter_upwards [hI] with s hs
    filter_upwards [hI] with t ht
    refine ⟨along_along _ hij.symm s t, ?_⟩
    have h1 := hbpos s hs
    have h2 := hbpos t ht
    have p1 := hpos _ (hal v hv s hs)
    have p2 := hpos _ (hal v hv t ht)
    rw [hap v hv s hs t ht, hap v hv t ht s hs, ← ENNReal.ofReal_mul h2.le, ← ENNReal.ofReal_mul p1.le, ← ENNReal.ofReal_mul h1.le,
      ← ENNReal.ofReal_mul p2.le]
    congr 1
    exact accept_balance p1 p2 h2 h1

end RowStep

/-! ### The operator -/

section Op
variable {m : Setup K N F S M nG}

theorem sourceArray_unique (s : Fin N × Fin F → Fin (M + 1)) (n : Fin N) (f : Fin F) : ∃! c, sourceArray s n f c = true :=
  ⟨s (n, f), by simp [sourceArray, eye], fun c hc => by
    unfold sourceArray eye at hc
    exact (beq_iff_eq.mp hc).symm⟩

theorem sourceArray_iff {s : Fin N × Fin F → Fin (M + 1)} {n : Fin N} {f : Fin F} {c : Fin (M + 1)} :
    sourceArray s n f c = true ↔ c = s (n, f) := by
  unfold sourceArray eye
  rw [beq_iff_eq]
  exact eq_comm

theorem prod_rowLh (s : Fin N × Fin F → Fin (M + 1)) (has : Fin N → Fin (M + 1) → Bool) (w : Fin F → Fin (M + 1) → ℝ) :
    ∏ n, ∏ f, normalizeWeights w has n f (s (n, f)) = ∏ f, rowLh (sourceArray s) has f (w f) := by
  rw [Finset.prod_comm]
  refine Finset.prod_congr rfl fun f _ => ?_
  unfold rowLh
  rw [sourceLh_congr (sourceArray s) has (fun _ => w f) w f rfl]
  unfold sourceLh
  refine Finset.prod_congr rfl fun n _ => ?_
  rw [Finset.sum_eq_single (s (n, f))]
  · rw [if_pos (sourceArray_iff.mpr rfl), one_mul]
  · intro c _ hc
    rw [if_neg (fun h => hc (sourceArray_iff.mp h)), zero_mul]
  · exact fun h => absurd (Finset.mem_univ _) h

/-- The move of `GibbsSampleWeights` for a drawn pair of components. -/
noncomputable def weightsMove (m : Setup K N F S M nG) (ij : Fin (M + 1) × Fin (M + 1)) (x : Disc K N F M × Cont K F S M nG) :
    Law (Disc K N F M × Cont K F S M nG) :=
  mhStep (Kernel.post m) (fun x =>
    let has := hasComponents m.d x.1.1
    let src := sourceArray x.1.2
    let c := pairCounts src has ij.1 ij.2
    Law.bind (Law.draw (Measure.pi fun f => betaLaw (1 + c f ij.2) (1 + c f ij.1))) fun a2 =>
      Law.bind (Law.draw (Measure.pi fun _ : Fin F => uniform01)) fun u =>
        let r := gibbsWeights src has x.2.1 ij.1 ij.2 a2 u
        Law.ret ⟨(x.1, r.new, x.2.2), r.q, r.qBack⟩) x

theorem keeps_weightsMove (hm : WellPosed m) (hs : m.cfg.sampleSource = true) {ij : Fin (M + 1) × Fin (M + 1)} (hij : ij.1 ≠ ij.2) :
    Keeps (target m Prod.fst (Kernel.post m)) (weightsMove m ij) := by
  have hbeta : ∀ (d : Disc K N F M) (f : Fin F), IsProbabilityMeasure (betaLaw
      (1 + pairCounts (sourceArray d.2) (hasComponents m.d d.1) ij.1 ij.2 f ij.2)
      (1 + pairCounts (sourceArray d.2) (hasComponents m.d d.1) ij.1 ij.2 f ij.1)) := fun d f =>
    ProbabilityTheory.isProbabilityMeasureBeta (counts_pos _ _ _ _ _ _) (counts_pos _ _ _ _ _ _)
  have hu : IsFiniteMeasure uniform01 := by unfold uniform01; infer_instance
  have hT : ∀ d c g, weightsMove m ij (d, c) g = ∫⁻ a2, ∫⁻ u, g (d, (fun f => rowStep (sourceArray d.2) (hasComponents m.d d.1)
      ij.1 ij.2 f (c.1 f) (a2 f) (u f)), c.2) ∂Measure.pi (fun _ : Fin F => uniform01)
      ∂Measure.pi fun f => betaLaw (1 + pairCounts (sourceArray d.2) (hasComponents m.d d.1) ij.1 ij.2 f ij.2)
        (1 + pairCounts (sourceArray d.2) (hasComponents m.d d.1) ij.1 ij.2 f ij.1) := by
    intro d c g
    unfold weightsMove mhStep Law.bind Law.draw
    dsimp only
    refine lintegral_congr fun a2 => lintegral_congr fun u => ?_
    rw [← gibbsWeights_row]
    exact mhStep_gibbs g
  have hstep : ∀ d : Disc K N F M, Measurable fun z : (Cont K F S M nG) × (Fin F → ℝ) × (Fin F → ℝ) =>
      (d, (fun f => rowStep (sourceArray d.2) (hasComponents m.d d.1) ij.1 ij.2 f (z.1.1 f) (z.2.1 f) (z.2.2 f)), z.1.2) := by
    intro d
    refine measurable_const.prodMk (Measurable.prodMk ?_ (measurable_snd.comp measurable_fst))
    rw [measurable_pi_iff]
    intro f
    have : Measurable fun z : (Cont K F S M nG) × (Fin F → ℝ) × (Fin F → ℝ) => (z.1.1 f, z.2.1 f, z.2.2 f) := by fun_prop
    exact Measurable.comp (g := fun z : (Fin (M + 1) → ℝ) × ℝ × ℝ => rowStep (sourceArray d.2) (hasComponents m.d d.1) ij.1 ij.2 f
      z.1 z.2.1 z.2.2) (meas_rowStep _ _ _ _ f) this
  have hTm : ∀ d g, Measurable g → Measurable fun c => weightsMove m ij (d, c) g := by
    intro d g hg
    simp only [hT]
    have h1 : Measurable fun z : (Cont K F S M nG × (Fin F → ℝ)) × (Fin F → ℝ) => g (d, (fun f => rowStep (sourceArray d.2)
        (hasComponents m.d d.1) ij.1 ij.2 f (z.1.1.1 f) (z.1.2 f) (z.2 f)), z.1.1.2) := by
      have : Measurable fun z : (Cont K F S M nG × (Fin F → ℝ)) × (Fin F → ℝ) => (z.1.1, z.1.2, z.2) := by fun_prop
      exact hg.comp ((hstep d).comp this)
    have h2 := Measurable.lintegral_prod_right' (ν := Measure.pi fun _ : Fin F => uniform01) h1
    exact Measurable.lintegral_prod_right' (ν := Measure.pi fun f => betaLaw
        (1 + pairCounts (sourceArray d.2) (hasComponents m.d d.1) ij.1 ij.2 f ij.2)
        (1 + pairCounts (sourceArray d.2) (hasComponents m.d d.1) ij.1 ij.2 f ij.1)) h2
  refine keeps_of_cont (meas_post m) hTm fun d hd g hg => ?_
  have hpost := fun c => post_eq hm hs hd d.2 c
  by_cases hhas : ∀ n f, hasComponents m.d d.1 n (d.2 (n, f)) = true
  · have hL : Measurable fun c : Cont K F S M nG => ENNReal.ofReal (Kernel.post m (d, c)) * weightsMove m ij (d, c) g :=
      (meas_post m d).ennreal_ofReal.mul (hTm d g hg)
    have hR : Measurable fun c : Cont K F S M nG => ENNReal.ofReal (Kernel.post m (d, c)) * g (d, c) :=
      (meas_post m d).ennreal_ofReal.mul (hg.comp (measurable_const.prodMk measurable_id))
    unfold contRef
    rw [lintegral_prod_symm _ hL.aemeasurable, lintegral_prod_symm _ hR.aemeasurable]
    refine lintegral_congr fun y => ?_
    set A := (∏ n, ∏ f, componentLh m.d y.1 y.2 d.1 n f (d.2 (n, f))) *
      (clusterTerm m d.1 * ∏ i, ∏ g, confEffectPrior m.cfg.app (m.cfg.conf i g) (y.2 i g)) with hA
    have hfac : ∀ w : Fin F → Fin (M + 1) → ℝ, (∀ f, Row Finset.univ (w f)) → ENNReal.ofReal (Kernel.post m (d, w, y)) =
        ENNReal.ofReal A * ∏ f, ENNReal.ofReal (rowLh (sourceArray d.2) (hasComponents m.d d.1) f (w f)) := by
      intro w hw
      have hnn : ∀ f, 0 ≤ rowLh (sourceArray d.2) (hasComponents m.d d.1) f (w f) := fun f =>
        (sourceLh_pos (sourceArray d.2) (sourceArray_unique d.2) _ (fun n f c hc => by rw [sourceArray_iff.mp hc]; exact hhas n f)
          (fun _ => w f) f fun c => (hw f).pos (Finset.mem_univ c)).le
      rw [← ENNReal.ofReal_prod_of_nonneg fun f _ => hnn f, ← ENNReal.ofReal_mul' (Finset.prod_nonneg fun f _ => hnn f)]
      congr 1
      have := hpost (w, y)
      rw [prod_rowLh] at this
      refine Eq.trans this ?_
      rw [hA]
      ring
    have hrows : ∀ᵐ w ∂Measure.pi fun _ : Fin F => uniformSimplex (Finset.univ : Finset (Fin (M + 1))), ∀ f, Row Finset.univ (w f) := by
      rw [ae_all_iff]
      intro f
      exact (Measure.quasiMeasurePreserving_eval (fun _ : Fin F => uniformSimplex (Finset.univ : Finset (Fin (M + 1)))) f).ae
        (uniformSimplex_ae Finset.univ_nonempty)
    have hstepf := pi_step (fun _ : Fin F => uniformSimplex (Finset.univ : Finset (Fin (M + 1))))
      (fun f v => ENNReal.ofReal (rowLh (sourceArray d.2) (hasComponents m.d d.1) f v))
      (fun f => (meas_rowLh _ _ f).ennreal_ofReal)
      (fun f => betaLaw (1 + pairCounts (sourceArray d.2) (hasComponents m.d d.1) ij.1 ij.2 f ij.2)
        (1 + pairCounts (sourceArray d.2) (hasComponents m.d d.1) ij.1 ij.2 f ij.1)) (fun _ => uniform01)
      (fun f => rowStep (sourceArray d.2) (hasComponents m.d d.1) ij.1 ij.2 f) (fun f => meas_rowStep _ _ _ _ f)
      (fun f g hg => row_step _ _ _ _ f (sourceArray_unique d.2)
        (fun n f c hc => by rw [sourceArray_iff.mp hc]; exact hhas n f) hij hg)
      (g := fun w => g (d, w, y)) (hg.comp (measurable_const.prodMk (measurable_id.prodMk measurable_const)))
    have e1 : ∀ H : (Fin F → Fin (M + 1) → ℝ) → ℝ≥0∞, ∫⁻ w, ENNReal.ofReal (Kernel.post m (d, w, y)) * H w
        ∂Measure.pi (fun _ : Fin F => uniformSimplex (Finset.univ : Finset (Fin (M + 1)))) = ENNReal.ofReal A *
        ∫⁻ w, (∏ f, ENNReal.ofReal (rowLh (sourceArray d.2) (hasComponents m.d d.1) f (w f))) * H w
        ∂Measure.pi (fun _ : Fin F => uniformSimplex (Finset.univ : Finset (Fin (M + 1)))) := by
      intro H
      rw [← lintegral_const_mul' _ _ ENNReal.ofReal_ne_top]
      refine lintegral_congr_ae ?_
      filter_upwards [hrows] with w hw
      rw [hfac w hw, mul_assoc]
    rw [e1, e1]
    congr 1
    refine Eq.trans (lintegral_congr fun w => ?_) hstepf
    rw [hT]
  · have hz : ∀ c, Kernel.post m (d, c) = 0 := by
      intro c
      push Not at hhas
      obtain ⟨n, f, hnf⟩ := hhas
      have hnf' : hasComponents m.d d.1 n (d.2 (n, f)) = false := by simpa using hnf
      refine (hpost c).trans ?_
      have : ∏ n, ∏ f, normalizeWeights c.1 (hasComponents m.d d.1) n f (d.2 (n, f)) = 0 := by
        refine Finset.prod_eq_zero (Finset.mem_univ n) (Finset.prod_eq_zero (Finset.mem_univ f) ?_)
        unfold normalizeWeights
        rw [hnf']
        simp [b2n]
      rw [this, mul_zero, mul_zero]
    simp only [hz, ENNReal.ofReal_zero, zero_mul]

/-- `GibbsSampleWeights`. -/
theorem keeps_weights (hm : WellPosed m) (hs : m.cfg.sampleSource = true) :
    Keeps (target m Prod.fst (Kernel.post m)) (mhStep (Kernel.post m) (propose m .weights)) := by
  have h2 := Keeps.mix (samplePair (List.finRange (M + 1))) (ofRand_one (pair_weights hm.hasConfounder))
    (fun ij x => weightsMove m ij x) fun ij hij => keeps_weightsMove hm hs (samplePair_mem hij).2.2
  exact h2

end Op

end SBayes.Meas
