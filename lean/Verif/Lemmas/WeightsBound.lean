import Verif.Lemmas.ContMoves
import Verif.Lemmas.ErgoTotal
/- What `GibbsSampleWeights` does to a function of the state, in terms of the features whose proposals are accepted. -/
namespace SBayes.Meas
set_option linter.unusedSectionVars false
open SBayes.Lik SBayes.Clusters SBayes.MH SBayes.Source SBayes.Effects SBayes.Posterior SBayes.Draws SBayes.Kernel MeasureTheory
open scoped BigOperators ENNReal

variable {K N F S M C G : ℕ} {nG : Fin M → ℕ} {m : Setup K N F S M nG}

/-- Some features split the weights of two components anew. -/
noncomputable def resplitOn (fs : Fin F → Prop) [DecidablePred fs] (c : Cont K F S M nG) (i j : Fin (M + 1)) (a : Fin F → ℝ) :
    Cont K F S M nG := (fun f => if fs f then Effects.along (c.1 f) i j (a f) else c.1 f, c.2)

theorem meas_resplitOn (fs : Fin F → Prop) [DecidablePred fs] (c : Cont K F S M nG) (i j : Fin (M + 1)) :
    Measurable fun a : Fin F → ℝ => resplitOn fs c i j a := by
  refine Measurable.prodMk ?_ measurable_const
  rw [measurable_pi_iff]
  intro f
  by_cases h : fs f
  · simp only [h, if_true]
    exact (measurable_along i j).comp (measurable_const.prodMk (measurable_pi_apply f))
  · simp only [h, if_false]
    exact measurable_const

theorem resplit_list {β : Fin F → Measure ℝ} [∀ f, IsProbabilityMeasure (β f)] (i j : Fin (M + 1)) {h : Cont K F S M nG → ℝ≥0∞}
    (hh : Measurable h) {fs : List (Fin F)} (hfs : fs.Nodup) (c : Cont K F S M nG) :
    ∫⁻ a, h (resplitOn (· ∈ fs) c i j a) ∂Measure.pi β = opL (fs.map fun f => reshare f i j (β f)) h c := by
  induction fs generalizing c with
  | nil =>
    have e : ∀ a : Fin F → ℝ, resplitOn (· ∈ ([] : List (Fin F))) c i j a = c := fun a => by
      unfold resplitOn; simp
    simp only [e, lintegral_const, measure_univ, mul_one]
    rfl
  | cons f fs ih =>
    obtain ⟨hf, hfs⟩ := List.nodup_cons.mp hfs
    rw [List.map_cons]
    show _ = (reshare f i j (β f)).op (opL (fs.map fun f => reshare f i j (β f)) h) c
    rw [reshare_op]
    simp only [← ih hfs]
    have e : ∀ t a, resplitOn (· ∈ fs) ((wLens f).set c (Effects.along ((wLens f).get c) i j t)) i j a =
        resplitOn (· ∈ f :: fs) c i j (Function.update a f t) := by
      intro t a
      refine Prod.ext (funext fun f' => ?_) rfl
      show (if f' ∈ fs then Effects.along (Function.update c.1 f (Effects.along (c.1 f) i j t) f') i j (a f')
          else Function.update c.1 f (Effects.along (c.1 f) i j t) f') =
        if f' ∈ f :: fs then Effects.along (c.1 f') i j (Function.update a f t f') else c.1 f'
      by_cases h : f' = f
      · subst h
        rw [if_neg hf, if_pos List.mem_cons_self, Function.update_self, Function.update_self]
      · have h2 : f' ∈ f :: fs ↔ f' ∈ fs := by simp [h]
        rw [Function.update_of_ne h, Function.update_of_ne h]
        simp only [h2]
    simp only [e]
    have hG : Measurable fun a : Fin F → ℝ => h (resplitOn (· ∈ f :: fs) c i j a) := hh.comp (meas_resplitOn _ c i j)
    rw [← lintegral_pi_update (ν := β) f hG]
    refine lintegral_lintegral_swap (f := fun (a : Fin F → ℝ) (t : ℝ) => h (resplitOn (· ∈ f :: fs) c i j (Function.update a f t))) ?_
    exact (hG.comp (measurable_update_pair (X := fun _ : Fin F => ℝ) f)).aemeasurable

/-- The distribution of the proposed share. -/
noncomputable def shareLaw (m : Setup K N F S M nG) (d : Disc K N F M) (ij : Fin (M + 1) × Fin (M + 1)) (f : Fin F) : Measure ℝ :=
  betaLaw (1 + pairCounts (sourceArray d.2) (hasComponents m.d d.1) ij.1 ij.2 f ij.2)
    (1 + pairCounts (sourceArray d.2) (hasComponents m.d d.1) ij.1 ij.2 f ij.1)

instance shareLaw_prob (d : Disc K N F M) (ij : Fin (M + 1) × Fin (M + 1)) (f : Fin F) : IsProbabilityMeasure (shareLaw m d ij f) :=
  ProbabilityTheory.isProbabilityMeasureBeta (counts_pos _ _ _ _ _ _) (counts_pos _ _ _ _ _ _)

theorem shareLaw_ac (d : Disc K N F M) (ij : Fin (M + 1) × Fin (M + 1)) (f : Fin F) :
    shareLaw m d ij f ≪ volume.restrict (Set.Ioo (0 : ℝ) 1) := by
  unfold shareLaw
  rw [betaLaw_density]
  exact withDensity_absolutelyContinuous _ _

/-- The acceptance ratio of a feature. -/
noncomputable def shareAcc (m : Setup K N F S M nG) (d : Disc K N F M) (ij : Fin (M + 1) × Fin (M + 1)) (c : Cont K F S M nG) (f : Fin F)
    (t : ℝ) : ℝ := rowAcc (sourceArray d.2) (hasComponents m.d d.1) ij.1 ij.2 f (c.1 f) t

/-- The features whose proposals are accepted. -/
noncomputable def accepted (m : Setup K N F S M nG) (d : Disc K N F M) (ij : Fin (M + 1) × Fin (M + 1)) (c : Cont K F S M nG)
    (a u : Fin F → ℝ) : Finset (Fin F) := Finset.univ.filter fun f => u f < shareAcc m d ij c f (a f)

theorem weightsMove_accepted {ij : Fin (M + 1) × Fin (M + 1)} (hij : ij.1 ≠ ij.2) (d : Disc K N F M) {c : Cont K F S M nG}
    (hc : ∀ f, Row Finset.univ (c.1 f)) (g : Disc K N F M × Cont K F S M nG → ℝ≥0∞) :
    weightsMove m ij (d, c) g = ∫⁻ a, ∫⁻ u, g (d, resplitOn (· ∈ (accepted m d ij c a u).toList) c ij.2 ij.1 a)
      ∂Measure.pi (fun _ : Fin F => uniform01) ∂Measure.pi fun f => shareLaw m d ij f := by
  rw [weightsMove_eq]
  refine lintegral_congr fun a => lintegral_congr fun u => ?_
  congr 2
  refine Prod.ext (funext fun f => ?_) rfl
  show rowStep _ _ ij.1 ij.2 f (c.1 f) (a f) (u f) = if f ∈ (accepted m d ij c a u).toList then Effects.along (c.1 f) ij.2 ij.1 (a f) else c.1 f
  unfold rowStep
  have : f ∈ (accepted m d ij c a u).toList ↔ u f < rowAcc (sourceArray d.2) (hasComponents m.d d.1) ij.1 ij.2 f (c.1 f) (a f) := by
    rw [Finset.mem_toList]
    unfold accepted
    rw [Finset.mem_filter]
    exact ⟨fun h => h.2, fun h => ⟨Finset.mem_univ f, h⟩⟩
  by_cases h : u f < rowAcc (sourceArray d.2) (hasComponents m.d d.1) ij.1 ij.2 f (c.1 f) (a f)
  · rw [if_pos h, if_pos (this.mpr h), mixPair_eq_along hij (hc f).2]
  · rw [if_neg h, if_neg fun h' => h (this.mp h')]

/-- An upper bound by what may happen for each set of accepted features. -/
theorem weights_bound {ij : Fin (M + 1) × Fin (M + 1)} (hij : ij.1 ≠ ij.2) (d : Disc K N F M) {c : Cont K F S M nG}
    (hc : ∀ f, Row Finset.univ (c.1 f)) {s : Cont K F S M nG → ℝ≥0∞} {b : ℝ≥0∞} (hb : b ≠ ⊤)
    {k : Finset (Fin F) → Cont K F S M nG → ℝ≥0∞} (hk : ∀ Φ, Measurable (k Φ)) {χ : Finset (Fin F) → ℝ≥0∞}
    (hle : ∀ Φ y, s y ≤ b * χ Φ + k Φ y) {g : Disc K N F M × Cont K F S M nG → ℝ≥0∞} (hg : ∀ y, g (d, y) = s y) :
    weightsMove m ij (d, c) g ≤ b * (∫⁻ a, ∫⁻ u, χ (accepted m d ij c a u) ∂Measure.pi (fun _ : Fin F => uniform01)
        ∂Measure.pi fun f => shareLaw m d ij f) +
      ∑ Φ : Finset (Fin F), opL (Φ.toList.map fun f => reshare f ij.2 ij.1 (shareLaw m d ij f)) (k Φ) c := by
  have hu : IsProbabilityMeasure uniform01 := ⟨by unfold uniform01; simp⟩
  rw [weightsMove_accepted hij d hc]
  have hmk : ∀ Φ : Finset (Fin F), Measurable fun a : Fin F → ℝ => k Φ (resplitOn (· ∈ Φ.toList) c ij.2 ij.1 a) := fun Φ =>
    (hk Φ).comp (meas_resplitOn _ c ij.2 ij.1)
  have hpt : ∀ a u, g (d, resplitOn (· ∈ (accepted m d ij c a u).toList) c ij.2 ij.1 a) ≤
      b * χ (accepted m d ij c a u) + ∑ Φ : Finset (Fin F), k Φ (resplitOn (· ∈ Φ.toList) c ij.2 ij.1 a) := by
    intro a u
    rw [hg]
    refine (hle (accepted m d ij c a u) _).trans (add_le_add le_rfl ?_)
    exact Finset.single_le_sum (f := fun Φ : Finset (Fin F) => k Φ (resplitOn (· ∈ Φ.toList) c ij.2 ij.1 a)) (fun _ _ => bot_le)
      (Finset.mem_univ _)
  refine (lintegral_mono fun a => lintegral_mono fun u => hpt a u).trans ?_
  have hsum : Measurable fun a : Fin F → ℝ => ∑ Φ : Finset (Fin F), k Φ (resplitOn (· ∈ Φ.toList) c ij.2 ij.1 a) :=
    Finset.measurable_fun_sum _ fun Φ _ => hmk Φ
  have h1 : ∀ a : Fin F → ℝ, ∫⁻ u, (b * χ (accepted m d ij c a u) + ∑ Φ : Finset (Fin F), k Φ (resplitOn (· ∈ Φ.toList) c ij.2 ij.1 a))
      ∂Measure.pi (fun _ : Fin F => uniform01) = b * (∫⁻ u, χ (accepted m d ij c a u) ∂Measure.pi (fun _ : Fin F => uniform01)) +
        ∑ Φ : Finset (Fin F), k Φ (resplitOn (· ∈ Φ.toList) c ij.2 ij.1 a) := by
    intro a
    rw [lintegral_add_right _ measurable_const, lintegral_const, measure_univ, mul_one, lintegral_const_mul' _ _ hb]
  simp only [h1]
  rw [lintegral_add_right _ hsum, lintegral_const_mul' _ _ hb, lintegral_finsetSum' _ fun Φ _ => (hmk Φ).aemeasurable]
  refine add_le_add le_rfl (Finset.sum_le_sum fun Φ _ => ?_)
  exact (resplit_list ij.2 ij.1 (hk Φ) Φ.nodup_toList c).le

end SBayes.Meas
