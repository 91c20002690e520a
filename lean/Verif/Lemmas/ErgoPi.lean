import Verif.Lemmas.PiInt
import Mathlib.MeasureTheory.Measure.Prod
/- Sets of a product space that do not depend on any coordinate. -/
namespace SBayes.Meas
open MeasureTheory
open scoped BigOperators ENNReal

/-- Almost everything or almost nothing. -/
def Triv {X : Type} [MeasurableSpace X] (μ : Measure X) (A : Set X) : Prop := (∀ᵐ x ∂μ, x ∈ A) ∨ ∀ᵐ x ∂μ, x ∉ A

theorem triv_of_pairs {X : Type} [MeasurableSpace X] {μ : Measure X} [IsProbabilityMeasure μ] {A : Set X}
    (h : ∀ᵐ p ∂μ.prod μ, (p.2 ∈ A ↔ p.1 ∈ A)) : Triv μ A := by
  obtain ⟨x, hx⟩ := (Measure.ae_ae_of_ae_prod h).exists
  by_cases hxA : x ∈ A
  · exact .inl (hx.mono fun y hy => hy.mpr hxA)
  · exact .inr (hx.mono fun y hy hyA => hxA (hy.mp hyA))

section Prod
variable {X Y : Type} [MeasurableSpace X] [MeasurableSpace Y] {μ : Measure X} {κ : Measure Y} [IsProbabilityMeasure μ]
  [IsProbabilityMeasure κ]

theorem triv_prod {A : Set (X × Y)} (hA : MeasurableSet A) (h1 : ∀ᵐ y ∂κ, Triv μ {x | (x, y) ∈ A})
    (h2 : ∀ᵐ x ∂μ, Triv κ {y | (x, y) ∈ A}) : Triv (μ.prod κ) A := by
  have iff1 : (∀ᵐ p ∂μ.prod κ, p ∈ A) ↔ ∀ᵐ x ∂μ, ∀ᵐ y ∂κ, (x, y) ∈ A := Measure.ae_prod_iff_ae_ae hA
  have iff2 : (∀ᵐ p ∂μ.prod κ, p ∉ A) ↔ ∀ᵐ x ∂μ, ∀ᵐ y ∂κ, (x, y) ∉ A := Measure.ae_prod_iff_ae_ae hA.compl
  by_cases hx : ∀ᵐ x ∂μ, ∀ᵐ y ∂κ, (x, y) ∉ A
  · exact .inr (iff2.mpr hx)
  left
  rw [iff1]
  -- some `x` has a full slice
  have hfull : ∃ᵐ x ∂μ, ∀ᵐ y ∂κ, (x, y) ∈ A := by
    intro hcon
    apply hx
    filter_upwards [h2, hcon] with x h h'
    exact h.resolve_left h'
  -- so almost every column is full
  have hcol : ∀ᵐ y ∂κ, ∀ᵐ x ∂μ, (x, y) ∈ A := by
    have hsw : ∀ᵐ y ∂κ, ∀ᵐ x ∂μ, ((∀ᵐ y' ∂κ, (x, y') ∈ A) → (x, y) ∈ A) := by
      have hms : MeasurableSet {x | ∀ᵐ y ∂κ, (x, y) ∈ A} := by
        have : {x | ∀ᵐ y ∂κ, (x, y) ∈ A} = {x | κ (Prod.mk x ⁻¹' Aᶜ) = 0} := by
          ext x; rfl
        rw [this]
        exact measurableSet_eq_fun (measurable_measure_prodMk_left hA.compl) measurable_const
      have hpm : MeasurableSet {p : X × Y | (∀ᵐ y' ∂κ, (p.1, y') ∈ A) → p ∈ A} := by
        have : {p : X × Y | (∀ᵐ y' ∂κ, (p.1, y') ∈ A) → p ∈ A} = (Prod.fst ⁻¹' {x | ∀ᵐ y ∂κ, (x, y) ∈ A})ᶜ ∪ A := by
          ext p
          simp only [Set.mem_ofPred_eq, Set.mem_union, Set.mem_compl_iff, Set.mem_preimage, imp_iff_not_or]
        rw [this]
        exact (measurable_fst hms).compl.union hA
      have h3 : ∀ᵐ p ∂μ.prod κ, (∀ᵐ y' ∂κ, (p.1, y') ∈ A) → p ∈ A := by
        rw [Measure.ae_prod_iff_ae_ae hpm]
        refine ae_of_all _ fun x => ?_
        by_cases hf : ∀ᵐ y ∂κ, (x, y) ∈ A
        · exact hf.mono fun y hy _ => hy
        · exact ae_of_all _ fun y h => absurd h hf
      have h4 : ∀ᵐ q ∂κ.prod μ, (∀ᵐ y' ∂κ, (q.2, y') ∈ A) → (q.2, q.1) ∈ A :=
        (Measure.measurePreserving_swap (μ := κ) (ν := μ)).quasiMeasurePreserving.ae h3
      exact Measure.ae_ae_of_ae_prod h4
    filter_upwards [h1, hsw] with y hy hy'
    refine hy.resolve_right fun hno => ?_
    obtain ⟨x, hx1, hx2, hx3⟩ := (hfull.and_eventually (hy'.and hno)).exists
    exact hx3 (hx2 hx1)
  have : ∀ᵐ q ∂κ.prod μ, (q.2, q.1) ∈ A := (Measure.ae_prod_iff_ae_ae (measurable_swap hA)).mpr hcol
  exact iff1.mp ((Measure.measurePreserving_swap (μ := μ) (ν := κ)).quasiMeasurePreserving.ae this)

end Prod

section Pi
variable {ι : Type} [Fintype ι] [DecidableEq ι] {X : ι → Type} [∀ i, MeasurableSpace (X i)] {ν : (i : ι) → Measure (X i)}
  [∀ i, IsProbabilityMeasure (ν i)]

/-- Exchanging one coordinate of two independent points. -/
theorem swap_coord (i : ι) : MeasurePreserving (fun p : (∀ i, X i) × (∀ i, X i) =>
    (Function.update p.1 i (p.2 i), Function.update p.2 i (p.1 i))) ((Measure.pi ν).prod (Measure.pi ν))
    ((Measure.pi ν).prod (Measure.pi ν)) := by
  have hu := measurable_update_pair (X := X) i
  have hm : Measurable (fun p : (∀ i, X i) × (∀ i, X i) => (Function.update p.1 i (p.2 i), Function.update p.2 i (p.1 i))) :=
    (hu.comp (measurable_fst.prodMk ((measurable_pi_apply i).comp measurable_snd))).prodMk
      (hu.comp (measurable_snd.prodMk ((measurable_pi_apply i).comp measurable_fst)))
  refine ⟨hm, Measure.ext_of_lintegral _ fun G hG => ?_⟩
  have hGm : Measurable fun p : (∀ i, X i) × (∀ i, X i) => G (Function.update p.1 i (p.2 i), Function.update p.2 i (p.1 i)) := hG.comp hm
  rw [lintegral_map hG hm, lintegral_prod _ hGm.aemeasurable, lintegral_prod _ hG.aemeasurable]
  have expand : ∀ H : (∀ i, X i) × (∀ i, X i) → ℝ≥0∞, Measurable H → ∫⁻ v, ∫⁻ y, H (v, y) ∂Measure.pi ν ∂Measure.pi ν =
      ∫⁻ v, ∫⁻ y, ∫⁻ a, ∫⁻ b, H (Function.update v i a, Function.update y i b) ∂ν i ∂ν i ∂Measure.pi ν ∂Measure.pi ν := by
    intro H hH
    have m1 : Measurable fun v => ∫⁻ y, H (v, y) ∂Measure.pi ν := hH.lintegral_prod_right'
    rw [← lintegral_pi_update i m1]
    refine lintegral_congr fun v => ?_
    refine Eq.trans (lintegral_congr fun a => (lintegral_pi_update i (G := fun y => H (Function.update v i a, y))
      (hH.comp (measurable_const.prodMk measurable_id))).symm) (lintegral_lintegral_swap ?_)
    · refine Measurable.aemeasurable ?_
      have : Measurable fun q : (X i × (∀ i, X i)) × X i => H (Function.update v i q.1.1, Function.update q.1.2 i q.2) := by
        refine hH.comp (Measurable.prodMk ?_ ?_)
        · exact hu.comp (measurable_const.prodMk (measurable_fst.comp measurable_fst))
        · exact hu.comp ((measurable_snd.comp measurable_fst).prodMk measurable_snd)
      exact this.lintegral_prod_right'
  have e1 := expand _ hGm
  have e2 := expand _ hG
  refine e1.trans (Eq.trans ?_ e2.symm)
  refine lintegral_congr fun v => lintegral_congr fun y => ?_
  rw [lintegral_lintegral_swap]
  · simp only [Function.update_self, Function.update_idem]
  · refine Measurable.aemeasurable ?_
    refine (hG.comp hm).comp (Measurable.prodMk ?_ ?_)
    · exact hu.comp (measurable_const.prodMk measurable_fst)
    · exact hu.comp (measurable_const.prodMk measurable_snd)

/-- If membership in `A` does not change when a coordinate is replaced (where that is allowed), it does not change when all
coordinates are replaced. -/
theorem chain_pi {A OK : Set (∀ i, X i)} {r : (i : ι) → X i → X i → Prop}
    (h : ∀ i, ∀ᵐ p ∂(Measure.pi ν).prod (ν i), p.1 ∈ OK → r i p.2 (p.1 i) →
      Function.update p.1 i p.2 ∈ OK ∧ (Function.update p.1 i p.2 ∈ A ↔ p.1 ∈ A)) :
    ∀ᵐ p ∂(Measure.pi ν).prod (Measure.pi ν), p.1 ∈ OK → (∀ i, r i (p.2 i) (p.1 i)) → (p.2 ∈ A ↔ p.1 ∈ A) := by
  have key : ∀ s : Finset ι, ∀ᵐ p ∂(Measure.pi ν).prod (Measure.pi ν), p.1 ∈ OK → (∀ i ∈ s, r i (p.2 i) (p.1 i)) →
      (s.piecewise p.2 p.1 ∈ A ↔ p.1 ∈ A) := by
    intro s
    induction s using Finset.induction_on with
    | empty => exact ae_of_all _ fun p _ _ => by rw [Finset.piecewise_empty]
    | @insert i s hi ih =>
      have h1 := (swap_coord (ν := ν) i).quasiMeasurePreserving.ae ih
      have h2 : ∀ᵐ p ∂(Measure.pi ν).prod (Measure.pi ν), p.1 ∈ OK → r i (p.2 i) (p.1 i) →
          Function.update p.1 i (p.2 i) ∈ OK ∧ (Function.update p.1 i (p.2 i) ∈ A ↔ p.1 ∈ A) :=
        ((MeasurePreserving.id (Measure.pi ν)).prod (measurePreserving_eval ν i)).quasiMeasurePreserving.ae (h i)
      filter_upwards [h1, h2] with p h1 h2 hOK hr
      obtain ⟨h3, h4⟩ := h2 hOK (hr i (Finset.mem_insert_self i s))
      have h5 := h1 h3 fun j hj => by
        have : j ≠ i := fun e => hi (e ▸ hj)
        rw [Function.update_of_ne this, Function.update_of_ne this]
        exact hr j (Finset.mem_insert_of_mem hj)
      rw [← h4, ← h5]
      have : (insert i s).piecewise p.2 p.1 = s.piecewise (Function.update p.2 i (p.1 i)) (Function.update p.1 i (p.2 i)) := by
        funext j
        by_cases hj : j = i
        · subst hj
          simp [hi]
        · by_cases hjs : j ∈ s <;> simp [hj, hjs]
      rw [this]
  filter_upwards [key Finset.univ] with p hp hOK hr
  have := hp hOK fun i _ => hr i
  rwa [Finset.piecewise_univ] at this

/-- A set that is trivial in every coordinate is trivial. -/
theorem triv_pi {A : Set (∀ i, X i)} (hA : MeasurableSet A)
    (h : ∀ i, ∀ᵐ x ∂Measure.pi ν, Triv (ν i) {t | Function.update x i t ∈ A}) : Triv (Measure.pi ν) A := by
  refine triv_of_pairs ?_
  have := chain_pi (ν := ν) (A := A) (OK := Set.univ) (r := fun _ _ _ => True) fun i => ?_
  · exact this.mono fun p hp => hp trivial fun _ => trivial
  · have hu := measurable_update_pair (X := X) i
    have hmp : MeasurePreserving (fun p : (∀ i, X i) × X i => Function.update p.1 i p.2) ((Measure.pi ν).prod (ν i)) (Measure.pi ν) := by
      refine ⟨hu, Measure.ext_of_lintegral _ fun G hG => ?_⟩
      have hGu : Measurable fun p : (∀ i, X i) × X i => G (Function.update p.1 i p.2) := hG.comp hu
      rw [lintegral_map hG hu, lintegral_prod _ hGu.aemeasurable]
      exact lintegral_pi_update i hG
    -- almost every point agrees with its slice
    have hfull : MeasurableSet {x | ∀ᵐ t ∂ν i, Function.update x i t ∈ A} := by
      have : {x | ∀ᵐ t ∂ν i, Function.update x i t ∈ A} =
          {x | ν i (Prod.mk x ⁻¹' ((fun p : (∀ i, X i) × X i => Function.update p.1 i p.2) ⁻¹' A)ᶜ) = 0} := by
        ext x; rfl
      rw [this]
      exact measurableSet_eq_fun (measurable_measure_prodMk_left (hu hA).compl) measurable_const
    have hms : MeasurableSet {p : (∀ i, X i) × X i | (∀ᵐ t ∂ν i, Function.update p.1 i t ∈ A) ↔ Function.update p.1 i p.2 ∈ A} := by
      have : {p : (∀ i, X i) × X i | (∀ᵐ t ∂ν i, Function.update p.1 i t ∈ A) ↔ Function.update p.1 i p.2 ∈ A} =
          (Prod.fst ⁻¹' {x | ∀ᵐ t ∂ν i, Function.update x i t ∈ A} ∩ (fun p : (∀ i, X i) × X i => Function.update p.1 i p.2) ⁻¹' A) ∪
          ((Prod.fst ⁻¹' {x | ∀ᵐ t ∂ν i, Function.update x i t ∈ A})ᶜ ∩ ((fun p : (∀ i, X i) × X i => Function.update p.1 i p.2) ⁻¹' A)ᶜ) := by
        ext p
        simp only [Set.mem_ofPred_eq, Set.mem_union, Set.mem_inter_iff, Set.mem_compl_iff, Set.mem_preimage, iff_iff_and_or_not_and_not]
      rw [this]
      exact ((measurable_fst hfull).inter (hu hA)).union ((measurable_fst hfull).compl.inter (hu hA).compl)
    have hpair : ∀ᵐ p ∂(Measure.pi ν).prod (ν i), (∀ᵐ t ∂ν i, Function.update p.1 i t ∈ A) ↔ Function.update p.1 i p.2 ∈ A := by
      rw [Measure.ae_prod_iff_ae_ae hms]
      filter_upwards [h i] with x hx
      rcases hx with hx | hx
      · exact hx.mono fun t ht => iff_of_true hx ht
      · refine hx.mono fun t ht => iff_of_false (fun hc => ?_) ht
        obtain ⟨t, h1, h2⟩ := (hx.and hc).exists
        exact h1 h2
    have hself : ∀ᵐ x ∂Measure.pi ν, (∀ᵐ t ∂ν i, Function.update x i t ∈ A) ↔ x ∈ A := by
      have hms' : MeasurableSet {x | (∀ᵐ t ∂ν i, Function.update x i t ∈ A) ↔ x ∈ A} := by
        have : {x | (∀ᵐ t ∂ν i, Function.update x i t ∈ A) ↔ x ∈ A} =
            ({x | ∀ᵐ t ∂ν i, Function.update x i t ∈ A} ∩ A) ∪ ({x | ∀ᵐ t ∂ν i, Function.update x i t ∈ A}ᶜ ∩ Aᶜ) := by
          ext p
          simp only [Set.mem_ofPred_eq, Set.mem_union, Set.mem_inter_iff, Set.mem_compl_iff, iff_iff_and_or_not_and_not]
        rw [this]
        exact (hfull.inter hA).union (hfull.compl.inter hA.compl)
      rw [← hmp.map_eq, ae_map_iff hu.aemeasurable hms']
      filter_upwards [hpair] with p hp
      simpa only [Function.update_idem] using hp
    have hself' : ∀ᵐ p ∂(Measure.pi ν).prod (ν i), (∀ᵐ t ∂ν i, Function.update p.1 i t ∈ A) ↔ p.1 ∈ A :=
      Measure.quasiMeasurePreserving_fst.ae hself
    filter_upwards [hpair, hself'] with p h1 h2 _ _
    exact ⟨trivial, h1.symm.trans h2⟩

end Pi

end SBayes.Meas
