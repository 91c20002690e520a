import Verif.Lemmas.ErgoPi
import Verif.Lemmas.SimplexPair
/- Sets of probability vectors that are closed under moving mass between two entries. -/
namespace SBayes.Meas
open MeasureTheory ProbabilityTheory SBayes.Effects SBayes.Draws
open scoped BigOperators ENNReal

variable {C : ℕ}

/-- The probability vector with the given entries, the rest at `p`. -/
noncomputable def fillIn (p : Fin C) (x : Fin C → ℝ) : Fin C → ℝ := Function.update x p (1 - ∑ i, x i)

theorem measurable_fillIn (p : Fin C) : Measurable (fillIn p) := by
  unfold fillIn
  exact (measurable_update_pair (X := fun _ : Fin C => ℝ) p).comp (measurable_id.prodMk (by fun_prop))

theorem base_erase {A : Finset (Fin C)} {p : Fin C} (hp : p ∈ A) :
    base A = ((base (A.erase p)).prod (volume.restrict (Set.Ioi 0))).map fun q => Function.update q.1 p q.2 := by
  have hu := measurable_update_pair (X := fun _ : Fin C => ℝ) p
  symm
  conv_rhs => unfold base
  refine (Measure.pi_eq fun s hs => ?_).symm
  rw [Measure.map_apply hu (MeasurableSet.univ_pi hs)]
  have : (fun q : (Fin C → ℝ) × ℝ => Function.update q.1 p q.2) ⁻¹' Set.univ.pi s =
      (Set.univ.pi (Function.update s p Set.univ)) ×ˢ s p := by
    ext q
    simp only [Set.mem_preimage, Set.mem_pi, Set.mem_univ, true_imp_iff, Set.mem_prod]
    constructor
    · intro h
      refine ⟨fun i => ?_, by simpa using h p⟩
      by_cases hi : i = p
      · subst hi; simp
      · have := h i
        rw [Function.update_of_ne hi] at this ⊢
        exact this
    · rintro ⟨h1, h2⟩ i
      by_cases hi : i = p
      · subst hi; simpa using h2
      · have := h1 i
        rw [Function.update_of_ne hi] at this ⊢
        exact this
  rw [this, Measure.prod_prod]
  unfold base
  rw [Measure.pi_pi, ← Finset.mul_prod_erase Finset.univ _ (Finset.mem_univ p), ← Finset.mul_prod_erase Finset.univ _ (Finset.mem_univ p)]
  have h1 : base1 (A.erase p) p (Function.update s p Set.univ p) = 1 := by
    unfold base1; simp
  have h2 : base1 A p (s p) = (volume.restrict (Set.Ioi 0)) (s p) := by
    unfold base1; rw [if_pos hp]
  have h3 : ∀ i ∈ Finset.univ.erase p, base1 (A.erase p) i (Function.update s p Set.univ i) = base1 A i (s i) := by
    intro i hi
    have hi := Finset.ne_of_mem_erase hi
    unfold base1
    rw [Function.update_of_ne hi]
    simp [Finset.mem_erase, hi]
  rw [h1, h2, Finset.prod_congr rfl h3, one_mul, mul_comm]

theorem sum_update_zero {p : Fin C} {x : Fin C → ℝ} (hx : x p = 0) (a : ℝ) : ∑ i, Function.update x p a i = ∑ i, x i + a := by
  rw [← Finset.add_sum_erase _ _ (Finset.mem_univ p), ← Finset.add_sum_erase Finset.univ x (Finset.mem_univ p),
    Function.update_self, hx, zero_add, add_comm]
  congr 1
  exact Finset.sum_congr rfl fun i hi => Function.update_of_ne (Finset.ne_of_mem_erase hi) _ _

theorem normalize_update {p : Fin C} {x : Fin C → ℝ} (hx : x p = 0) {a : ℝ} (h : 0 < ∑ i, x i + a) :
    normalize (Function.update x p a) = fillIn p ((∑ i, x i + a)⁻¹ • x) := by
  funext i
  unfold Effects.normalize fillIn
  rw [sum_update_zero hx]
  have hs : ∑ i, ((∑ i, x i + a)⁻¹ • x) i = (∑ i, x i + a)⁻¹ * ∑ i, x i := by
    simp [Finset.mul_sum]
  by_cases hi : i = p
  · subst hi
    rw [Function.update_self, Function.update_self, hs]
    field_simp
    ring
  · rw [Function.update_of_ne hi, Function.update_of_ne hi, Pi.smul_apply, smul_eq_mul]
    field_simp

/-- The uniform distribution on the simplex in coordinates. -/
theorem uniformSimplex_coords {A : Finset (Fin C)} {p : Fin C} (hp : p ∈ A) {B : Set (Fin C → ℝ)} (hB : MeasurableSet B) :
    uniformSimplex A B = ENNReal.ofReal (Real.Gamma A.card) * base (A.erase p) {x | ∑ i, x i < 1 ∧ fillIn p x ∈ B} := by
  have hA : A.Nonempty := ⟨p, hp⟩
  have hu := measurable_update_pair (X := fun _ : Fin C => ℝ) p
  have hn := measurable_normalize (ι := Fin C)
  have hf := measurable_fillIn p
  set g : (Fin C → ℝ) → ℝ≥0∞ := B.indicator 1 with hg
  have hgm : Measurable g := measurable_one.indicator hB
  set Q : Set (Fin C → ℝ) := {x | ∑ i, x i < 1 ∧ fillIn p x ∈ B} with hQ
  have hQm : MeasurableSet Q := by
    rw [hQ, Set.ofPred_and]
    exact (measurableSet_lt (by fun_prop) measurable_const).inter (hf hB)
  have hG : Measurable fun x : Fin C → ℝ => g (normalize x) * ENNReal.ofReal (Real.exp (-∑ i, x i)) :=
    (hgm.comp hn).mul (by fun_prop)
  have hGu : Measurable fun q : (Fin C → ℝ) × ℝ => g (normalize (Function.update q.1 p q.2)) *
      ENNReal.ofReal (Real.exp (-∑ i, Function.update q.1 p q.2 i)) := hG.comp hu
  rw [← lintegral_indicator_one hB, lintegral_uniformSimplex hA hgm, base_erase hp, lintegral_map hG hu, lintegral_prod _ hGu.aemeasurable]
  -- the sum as a variable
  have e1 : ∫⁻ x, (∫⁻ a in Set.Ioi (0 : ℝ), g (normalize (Function.update x p a)) *
      ENNReal.ofReal (Real.exp (-∑ i, Function.update x p a i))) ∂base (A.erase p) =
      ∫⁻ x, (∫⁻ s in Set.Ioi (0 : ℝ), Q.indicator 1 (s⁻¹ • x) * ENNReal.ofReal (Real.exp (-s))) ∂base (A.erase p) := by
    refine lintegral_congr_ae ?_
    filter_upwards [base_ae (A.erase p)] with x hx
    have hxp : x p = 0 := by simpa using hx p
    have hx0 : 0 ≤ ∑ i, x i := Finset.sum_nonneg fun i _ => by
      have := hx i; split at this <;> [exact this.le; exact this.ge]
    set σ := ∑ i, x i with hσ
    have h1 : ∀ a ∈ Set.Ioi (0 : ℝ), g (normalize (Function.update x p a)) *
        ENNReal.ofReal (Real.exp (-∑ i, Function.update x p a i)) =
        g (fillIn p ((σ + a)⁻¹ • x)) * ENNReal.ofReal (Real.exp (-(σ + a))) := by
      intro a ha
      have ha : 0 < a := ha
      rw [normalize_update hxp (by rw [← hσ]; linarith), sum_update_zero hxp, ← hσ]
    rw [setLIntegral_congr_fun measurableSet_Ioi h1]
    rw [← lintegral_indicator measurableSet_Ioi, ← lintegral_indicator measurableSet_Ioi]
    rw [← lintegral_sub_right_eq_self _ σ]
    refine lintegral_congr fun s => ?_
    have hsum : ∀ s : ℝ, ∑ i, (s⁻¹ • x) i = s⁻¹ * σ := fun s => by simp [hσ, Finset.mul_sum]
    by_cases hs : σ < s
    · have hs0 : 0 < s := lt_of_le_of_lt hx0 hs
      rw [Set.indicator_of_mem (show s - σ ∈ Set.Ioi (0 : ℝ) from by simpa using hs), Set.indicator_of_mem (show s ∈ Set.Ioi (0 : ℝ) from hs0),
        add_sub_cancel]
      congr 1
      have : (s⁻¹ • x ∈ Q) ↔ fillIn p (s⁻¹ • x) ∈ B := by
        rw [hQ, Set.mem_ofPred_eq, hsum]
        refine ⟨fun h => h.2, fun h => ⟨?_, h⟩⟩
        rw [inv_mul_lt_iff₀ hs0, mul_one]; exact hs
      by_cases hm : fillIn p (s⁻¹ • x) ∈ B
      · rw [hg, Set.indicator_of_mem hm, Set.indicator_of_mem (this.mpr hm)]; rfl
      · rw [hg, Set.indicator_of_notMem hm, Set.indicator_of_notMem (fun h => hm (this.mp h))]
    · rw [Set.indicator_of_notMem (show s - σ ∉ Set.Ioi (0 : ℝ) from by simpa using hs)]
      by_cases hs0 : 0 < s
      · rw [Set.indicator_of_mem (show s ∈ Set.Ioi (0 : ℝ) from hs0), Set.indicator_of_notMem, zero_mul]
        rintro ⟨h1, -⟩
        rw [hsum, inv_mul_lt_iff₀ hs0, mul_one] at h1
        exact hs h1
      · rw [Set.indicator_of_notMem (show s ∉ Set.Ioi (0 : ℝ) from hs0)]
  have hQs : Measurable fun q : (Fin C → ℝ) × ℝ => Q.indicator (1 : (Fin C → ℝ) → ℝ≥0∞) (q.2⁻¹ • q.1) * ENNReal.ofReal (Real.exp (-q.2)) := by
    refine Measurable.mul ((measurable_one.indicator hQm).comp ?_) (by fun_prop)
    exact (measurable_snd.inv).smul measurable_fst
  rw [e1, lintegral_lintegral_swap hQs.aemeasurable]
  have e2 : ∀ s ∈ Set.Ioi (0 : ℝ), ∫⁻ x, Q.indicator 1 (s⁻¹ • x) * ENNReal.ofReal (Real.exp (-s)) ∂base (A.erase p) =
      ENNReal.ofReal (s ^ (A.card - 1) * Real.exp (-s)) * base (A.erase p) Q := by
    intro s hs
    have hs : 0 < s := hs
    have hm : Measurable fun x : Fin C → ℝ => Q.indicator (1 : (Fin C → ℝ) → ℝ≥0∞) (s⁻¹ • x) * ENNReal.ofReal (Real.exp (-s)) :=
      hQs.comp (measurable_id.prodMk measurable_const)
    rw [lintegral_base_scale (A.erase p) hs hm, Finset.card_erase_of_mem hp]
    have h3 : ∀ x : Fin C → ℝ, s⁻¹ • s • x = x := fun x => by rw [smul_smul, inv_mul_cancel₀ hs.ne', one_smul]
    simp only [h3]
    rw [lintegral_mul_const _ (measurable_one.indicator hQm), lintegral_indicator_one hQm, ENNReal.ofReal_mul (by positivity)]
    ring
  rw [setLIntegral_congr_fun measurableSet_Ioi e2, lintegral_mul_const _ (by fun_prop), lintegral_Gamma_nat (Finset.card_pos.mpr hA)]

/-- Exponential entries instead of Lebesgue measure. -/
noncomputable abbrev expo (A : Finset (Fin C)) (i : Fin C) : Measure ℝ := gammaEntry A (fun _ => 1) i

instance (A : Finset (Fin C)) (i : Fin C) : IsProbabilityMeasure (expo A i) := gammaEntry_prob (fun _ _ => one_pos) i

theorem gdens_pos (A : Finset (Fin C)) (i : Fin C) {v : ℝ} (hv : if i ∈ A then 0 < v else v = 0) : gdens A (fun _ => 1) i v ≠ 0 := by
  unfold gdens
  split
  · rename_i h
    rw [if_pos h] at hv
    rw [gammaPDF_of_nonneg hv.le]
    simp only [ne_eq, ENNReal.ofReal_eq_zero, not_le]
    have := Real.exp_pos (-(1 * v))
    have := Real.rpow_pos_of_pos hv (1 - 1)
    have := Real.Gamma_pos_of_pos one_pos
    positivity
  · exact one_ne_zero

theorem ae_expo_iff (A : Finset (Fin C)) {P : (Fin C → ℝ) → Prop} :
    (∀ᵐ x ∂Measure.pi (expo A), P x) ↔ ∀ᵐ x ∂base A, P x := by
  have hm : Measurable fun x : Fin C → ℝ => ∏ i, gdens A (fun _ => 1) i (x i) :=
    Finset.measurable_prod _ fun i _ => (measurable_gdens A _ i).comp (measurable_pi_apply i)
  have hne : ∀ᵐ x ∂base A, ∏ i, gdens A (fun _ => 1) i (x i) ≠ 0 := by
    filter_upwards [base_ae A] with x hx
    exact Finset.prod_ne_zero_iff.mpr fun i _ => gdens_pos A i (hx i)
  constructor
  · intro h
    refine (withDensity_absolutelyContinuous' hm.aemeasurable hne).ae_le ?_
    rwa [← pi_gammaEntry]
  · intro h
    rw [show Measure.pi (expo A) = _ from pi_gammaEntry A fun _ => 1]
    exact (withDensity_absolutelyContinuous _ _).ae_le h

theorem ae_simplex_iff {A : Finset (Fin C)} {p : Fin C} (hp : p ∈ A) {B : Set (Fin C → ℝ)} (hB : MeasurableSet B) :
    (∀ᵐ u ∂uniformSimplex A, u ∈ B) ↔ ∀ᵐ x ∂Measure.pi (expo (A.erase p)), ∑ i, x i < 1 → fillIn p x ∈ B := by
  rw [ae_expo_iff, ae_iff, ae_iff]
  have h1 := uniformSimplex_coords hp hB.compl
  have h2 : {x : Fin C → ℝ | ¬ (∑ i, x i < 1 → fillIn p x ∈ B)} = {x | ∑ i, x i < 1 ∧ fillIn p x ∈ Bᶜ} := by
    ext x; simp
  rw [h2]
  refine Eq.congr_left h1 |>.trans ?_
  rw [mul_eq_zero]
  have hG : 0 < Real.Gamma A.card := Real.Gamma_pos_of_pos (by exact_mod_cast Finset.card_pos.mpr ⟨p, hp⟩)
  exact ⟨fun h => h.resolve_left (by simpa using hG), Or.inr⟩

theorem sum_update_eq (x : Fin C → ℝ) (i : Fin C) (t : ℝ) : ∑ k, Function.update x i t k = ∑ k, x k - x i + t := by
  rw [← Finset.add_sum_erase _ _ (Finset.mem_univ i), ← Finset.add_sum_erase Finset.univ x (Finset.mem_univ i),
    Function.update_self, Finset.sum_congr rfl fun k hk => Function.update_of_ne (Finset.ne_of_mem_erase hk) _ _]
  ring

theorem fillIn_along {p i : Fin C} (hip : i ≠ p) {v : Fin C → ℝ} (hv : v p = 0) {t : ℝ} (hs : v i + (1 - ∑ k, v k) ≠ 0) :
    along (fillIn p v) i p ((v i + (1 - ∑ k, v k))⁻¹ * t) = fillIn p (Function.update v i t) := by
  set s := v i + (1 - ∑ k, v k) with hsdef
  have h1 : fillIn p v i = v i := Function.update_of_ne hip _ _
  have h2 : fillIn p v p = 1 - ∑ k, v k := Function.update_self _ _ _
  unfold along
  rw [h1, h2, ← hsdef]
  unfold fillIn
  rw [sum_update_eq]
  funext k
  by_cases hk : k = p
  · subst hk
    simp only [Function.update_self]
    field_simp
    rw [hsdef]; ring
  · simp only [Function.update_of_ne hk]
    by_cases hki : k = i
    · subst hki
      simp only [Function.update_self]
      field_simp
    · simp only [Function.update_of_ne hki, Function.update_of_ne hk]

theorem quasi_scale {c : ℝ} (hc : c ≠ 0) : Measure.QuasiMeasurePreserving (fun t : ℝ => c * t) volume volume :=
  ⟨by fun_prop, by rw [Real.map_volume_mul_left hc]; exact Measure.smul_absolutelyContinuous⟩

theorem measurableSet_iff {X : Type} [MeasurableSpace X] {P Q : Set X} (hP : MeasurableSet P) (hQ : MeasurableSet Q) :
    MeasurableSet {x | x ∈ P ↔ x ∈ Q} := by
  have : {x | x ∈ P ↔ x ∈ Q} = (P ∩ Q) ∪ (Pᶜ ∩ Qᶜ) := by
    ext x; simp only [Set.mem_ofPred_eq, Set.mem_union, Set.mem_inter_iff, Set.mem_compl_iff, iff_iff_and_or_not_and_not]
  rw [this]
  exact (hP.inter hQ).union (hP.compl.inter hQ.compl)

theorem measurableSet_ae {X Y : Type} [MeasurableSpace X] [MeasurableSpace Y] {κ : Measure Y} [SFinite κ] {R : Set (X × Y)}
    (hR : MeasurableSet R) : MeasurableSet {x | ∀ᵐ y ∂κ, (x, y) ∈ R} := by
  have : {x | ∀ᵐ y ∂κ, (x, y) ∈ R} = {x | κ (Prod.mk x ⁻¹' Rᶜ) = 0} := by ext x; rfl
  rw [this]
  exact measurableSet_eq_fun (measurable_measure_prodMk_left hR.compl) measurable_const

theorem expo_ac {A : Finset (Fin C)} {i : Fin C} (hi : i ∈ A) : expo A i ≪ volume := by
  have h : expo A i = (base1 A i).withDensity (gdens A (fun _ => 1) i) := gammaEntry_eq A _ i
  rw [h]
  refine (withDensity_absolutelyContinuous _ _).trans ?_
  unfold base1
  rw [if_pos hi]
  exact Measure.absolutelyContinuous_of_le Measure.restrict_le_self

theorem expo_Ioo {A : Finset (Fin C)} {i : Fin C} (hi : i ∈ A) {b : ℝ} (hb : 0 < b) : expo A i (Set.Ioo 0 b) ≠ 0 := by
  have h : expo A i = (base1 A i).withDensity (gdens A (fun _ => 1) i) := gammaEntry_eq A _ i
  rw [h]
  intro h0
  rw [withDensity_apply_eq_zero (measurable_gdens A _ i)] at h0
  have hb1 : base1 A i = volume.restrict (Set.Ioi 0) := by unfold base1; rw [if_pos hi]
  rw [hb1, Measure.restrict_apply' measurableSet_Ioi] at h0
  have hsub : Set.Ioo (0 : ℝ) b ⊆ ({x | gdens A (fun _ => 1) i x ≠ 0} ∩ Set.Ioo 0 b) ∩ Set.Ioi 0 := fun x hx =>
    ⟨⟨gdens_pos A i (by rw [if_pos hi]; exact hx.1), hx⟩, hx.1⟩
  have := measure_mono_null hsub h0
  rw [Real.volume_Ioo, sub_zero, ENNReal.ofReal_eq_zero] at this
  linarith

/-- A set of probability vectors that is closed under moving mass between two entries. -/
theorem triv_simplex {A : Finset (Fin C)} (hA : A.Nonempty) {B : Set (Fin C → ℝ)} (hB : MeasurableSet B)
    (h : ∀ i ∈ A, ∀ j ∈ A, i ≠ j → ∀ᵐ u ∂uniformSimplex A, ∀ᵐ t ∂volume.restrict (Set.Ioo (0 : ℝ) 1), (along u i j t ∈ B ↔ u ∈ B)) :
    Triv (uniformSimplex A) B := by
  obtain ⟨p, hp⟩ := hA
  have hfill := measurable_fillIn p
  set ν : Fin C → Measure ℝ := fun i => expo (A.erase p) i with hν
  set OK : Set (Fin C → ℝ) := {v | ∑ k, v k < 1 ∧ v p = 0} with hOK
  have hOKm : MeasurableSet OK := by
    rw [hOK, Set.ofPred_and]
    exact (measurableSet_lt (by fun_prop) measurable_const).inter (measurableSet_eq_fun (measurable_pi_apply p) measurable_const)
  set r : Fin C → ℝ → ℝ → Prop := fun i t a => if i ∈ A.erase p then 0 < t ∧ t < a else t = a with hr
  -- one coordinate
  have hstep : ∀ i, ∀ᵐ q ∂(Measure.pi ν).prod (ν i), q.1 ∈ OK → r i q.2 (q.1 i) →
      Function.update q.1 i q.2 ∈ OK ∧ (Function.update q.1 i q.2 ∈ fillIn p ⁻¹' B ↔ q.1 ∈ fillIn p ⁻¹' B) := by
    intro i
    by_cases hi : i ∈ A.erase p
    · have hip := Finset.ne_of_mem_erase hi
      have hu := measurable_update_pair (X := fun _ : Fin C => ℝ) i
      have hms : MeasurableSet {q : (Fin C → ℝ) × ℝ | q.1 ∈ OK → (0 < q.2 ∧ q.2 < q.1 i) →
          (Function.update q.1 i q.2 ∈ fillIn p ⁻¹' B ↔ q.1 ∈ fillIn p ⁻¹' B)} := by
        have : {q : (Fin C → ℝ) × ℝ | q.1 ∈ OK → (0 < q.2 ∧ q.2 < q.1 i) →
          (Function.update q.1 i q.2 ∈ fillIn p ⁻¹' B ↔ q.1 ∈ fillIn p ⁻¹' B)} =
          (Prod.fst ⁻¹' OK)ᶜ ∪ ({q | 0 < q.2} ∩ {q | q.2 < q.1 i})ᶜ ∪
          {q | q ∈ (fun q : (Fin C → ℝ) × ℝ => Function.update q.1 i q.2) ⁻¹' (fillIn p ⁻¹' B) ↔ q ∈ Prod.fst ⁻¹' (fillIn p ⁻¹' B)} := by
          ext q
          simp only [Set.mem_ofPred_eq, Set.mem_union, Set.mem_compl_iff, Set.mem_preimage, Set.mem_inter_iff, imp_iff_not_or, or_assoc]
        rw [this]
        refine ((measurable_fst hOKm).compl.union (MeasurableSet.compl ?_)).union (measurableSet_iff (hu (hfill hB)) (measurable_fst (hfill hB)))
        exact (measurableSet_lt measurable_const measurable_snd).inter
          (measurableSet_lt measurable_snd ((measurable_pi_apply i).comp measurable_fst))
      have hae : ∀ᵐ q ∂(Measure.pi ν).prod (ν i), q.1 ∈ OK → (0 < q.2 ∧ q.2 < q.1 i) →
          (Function.update q.1 i q.2 ∈ fillIn p ⁻¹' B ↔ q.1 ∈ fillIn p ⁻¹' B) := by
        rw [Measure.ae_prod_iff_ae_ae hms]
        have hR : MeasurableSet {z : (Fin C → ℝ) × ℝ | along z.1 i p z.2 ∈ B ↔ z.1 ∈ B} :=
          measurableSet_iff ((measurable_along i p) hB) (measurable_fst hB)
        have h1 := (ae_simplex_iff hp (measurableSet_ae (κ := volume.restrict (Set.Ioo (0 : ℝ) 1)) hR)).mp
          (h i (Finset.mem_of_mem_erase hi) p hp hip)
        filter_upwards [h1] with v hv
        by_cases hvOK : v ∈ OK
        swap
        · exact ae_of_all _ fun t h => absurd h hvOK
        have h2 : ∀ᵐ τ ∂volume.restrict (Set.Ioo (0 : ℝ) 1), along (fillIn p v) i p τ ∈ B ↔ fillIn p v ∈ B := hv hvOK.1
        rw [ae_restrict_iff' measurableSet_Ioo] at h2
        set s := v i + (1 - ∑ k, v k) with hs
        by_cases hs0 : 0 < v i
        · have hspos : 0 < s := by have := hvOK.1; linarith
          have h3 := (quasi_scale (inv_ne_zero hspos.ne')).ae h2
          filter_upwards [(expo_ac hi).ae_le h3] with t ht _ htr
          have h4 := ht ⟨by have := htr.1; positivity, by
            rw [inv_mul_lt_iff₀ hspos, mul_one]; have := hvOK.1; have := htr.2; linarith⟩
          rw [fillIn_along hip hvOK.2 hspos.ne'] at h4
          exact h4
        · exact ae_of_all _ fun t _ ht => absurd (ht.1.trans ht.2) hs0
      filter_upwards [hae] with q hq h1 h2
      have h2' : 0 < q.2 ∧ q.2 < q.1 i := by simpa only [hr, if_pos hi] using h2
      refine ⟨⟨?_, ?_⟩, hq h1 h2'⟩
      · rw [sum_update_eq]
        have := h1.1; linarith [h2'.2]
      · rw [Function.update_of_ne hip.symm]; exact h1.2
    · refine ae_of_all _ fun q h1 h2 => ?_
      have h2' : q.2 = q.1 i := by simpa only [hr, if_neg hi] using h2
      rw [h2', Function.update_eq_self]
      exact ⟨h1, Iff.rfl⟩
  have hpair := chain_pi (ν := ν) (A := fillIn p ⁻¹' B) (OK := OK) (r := r) hstep
  have hpair' := Measure.ae_ae_of_ae_prod hpair
  -- points of the simplex are good
  have hgood : ∀ᵐ v ∂Measure.pi ν, ∀ k, if k ∈ A.erase p then 0 < v k else v k = 0 := (ae_expo_iff (A.erase p)).mpr (base_ae (A.erase p))
  have htwo : ∀ᵐ v ∂Measure.pi ν, ∀ᵐ v' ∂Measure.pi ν, ∑ k, v k < 1 → ∑ k, v' k < 1 → (v' ∈ fillIn p ⁻¹' B ↔ v ∈ fillIn p ⁻¹' B) := by
    filter_upwards [hgood, hpair'] with v hv hvp
    filter_upwards [hgood, hpair'] with v' hv' hvp' hsum hsum'
    have ok : ∀ v : Fin C → ℝ, (∀ k, if k ∈ A.erase p then 0 < v k else v k = 0) → ∑ k, v k < 1 → v ∈ OK := fun v hv hs =>
      ⟨hs, by simpa using hv p⟩
    have hbox : ∃ᵐ y ∂Measure.pi ν, ∀ k, k ∈ A.erase p → y k ∈ Set.Ioo 0 (min (v k) (v' k)) := by
      rw [frequently_ae_iff]
      have : {y : Fin C → ℝ | ∀ k, k ∈ A.erase p → y k ∈ Set.Ioo 0 (min (v k) (v' k))} =
          Set.univ.pi fun k => if k ∈ A.erase p then Set.Ioo 0 (min (v k) (v' k)) else Set.univ := by
        ext y
        simp only [Set.mem_ofPred_eq, Set.mem_pi, Set.mem_univ, true_imp_iff]
        refine forall_congr' fun k => ?_
        by_cases hk : k ∈ A.erase p <;> simp [hk]
      rw [this, Measure.pi_pi, Finset.prod_ne_zero_iff]
      intro k _
      by_cases hk : k ∈ A.erase p
      · rw [if_pos hk]
        have h1 := hv k
        have h2 := hv' k
        rw [if_pos hk] at h1 h2
        exact expo_Ioo hk (lt_min h1 h2)
      · rw [if_neg hk, measure_univ]; exact one_ne_zero
    obtain ⟨y, hy, hyg, hy1, hy2⟩ := (hbox.and_eventually (hgood.and (hvp.and hvp'))).exists
    have hrr : ∀ w : Fin C → ℝ, (∀ k, if k ∈ A.erase p then 0 < w k else w k = 0) → (∀ k ∈ A.erase p, y k < w k) → ∀ k, r k (y k) (w k) := by
      intro w hw hyw k
      by_cases hk : k ∈ A.erase p
      · simp only [hr, if_pos hk]; exact ⟨(hy k hk).1, hyw k hk⟩
      · simp only [hr, if_neg hk]
        have h1 := hyg k
        have h2 := hw k
        rw [if_neg hk] at h1 h2
        rw [h1, h2]
    have e1 := hy1 (ok v hv hsum) (hrr v hv fun k hk => (hy k hk).2.trans_le (min_le_left _ _))
    have e2 := hy2 (ok v' hv' hsum') (hrr v' hv' fun k hk => (hy k hk).2.trans_le (min_le_right _ _))
    exact e2.symm.trans e1
  by_cases hne : ∃ᵐ v ∂Measure.pi ν, ∑ k, v k < 1
  · obtain ⟨v, hv1, hv2⟩ := (hne.and_eventually htwo).exists
    by_cases hvB : v ∈ fillIn p ⁻¹' B
    · left
      rw [ae_simplex_iff hp hB]
      exact hv2.mono fun v' h hs => (h hv1 hs).mpr hvB
    · right
      have := (ae_simplex_iff hp hB.compl).mpr (hv2.mono fun v' h hs => fun hm => hvB ((h hv1 hs).mp hm))
      exact this
  · left
    rw [ae_simplex_iff hp hB]
    exact (Filter.not_frequently.mp hne).mono fun v h hs => absurd hs h

end SBayes.Meas
