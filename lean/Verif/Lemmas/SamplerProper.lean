import Verif.Lemmas.SamplerWeights
/- The posterior is a proper distribution. -/
namespace SBayes.Meas
set_option linter.unusedSectionVars false
open SBayes.Lik SBayes.Clusters SBayes.MH SBayes.Source SBayes.Effects SBayes.Posterior SBayes.Draws SBayes.Kernel SBayes.Prior MeasureTheory
open scoped BigOperators ENNReal

variable {K N F S M C G : ℕ} {nG : Fin M → ℕ} {m : Setup K N F S M nG}

theorem Row.le_one {n : ℕ} {A : Finset (Fin n)} {v : Fin n → ℝ} (h : Row A v) (i : Fin n) : v i ≤ 1 := by
  rw [← h.2]
  refine Finset.single_le_sum (fun j _ => ?_) (Finset.mem_univ i)
  have := h.1 j
  split at this
  · exact this.le
  · exact this.ge

theorem component_le_one {x : Features N F S} {probs : Fin G → Fin F → Fin S → ℝ} {groups : Fin G → Fin N → Bool}
    (hd : DisjointGroups groups) {order : List (Fin G)} (ho : VisitsAll order) (hp : ∀ g f s, probs g f s ≤ 1)
    (out : Fin N → Fin F → ℝ) (n : Fin N) (f : Fin F) (hx : Missing x n f ∨ ∃ s, Observed x n f s) :
    overwriteNA x (computeComponentLikelihood x probs groups order out) n f ≤ 1 := by
  have hspec := C09_component_likelihood_is_specified x probs groups hd order ho out
  rcases hx with hna | ⟨s, hs⟩
  · rw [hspec.missing n f hna]
  · by_cases h : ∃ g, groups g n = true
    · obtain ⟨g, hg⟩ := h
      rw [hspec.member n f s g hs hg]
      exact hp g f s
    · push Not at h
      rw [hspec.outside n f s hs fun g => by simpa using h g]
      exact zero_le_one

theorem componentLh_le_one (hm : WellPosed m) {z : Clus K N} (hz : DisjointGroups z) {c : Cont K F S M nG}
    (h : Interior m.cfg.app c) (n : Fin N) (f : Fin F) (i : Fin (M + 1)) : componentLh m.d c.2.1 c.2.2 z n f i ≤ 1 := by
  have hx : Missing m.d.features n f ∨ ∃ s, Observed m.d.features n f s := (hm.observed n f).imp_right fun ⟨s, hs, _⟩ => ⟨s, hs⟩
  unfold componentLh
  refine Fin.cases ?_ (fun j => ?_) i
  · rw [Fin.cons_zero]
    exact component_le_one hz (fun g => List.mem_finRange g) (fun g f s => (h.e g f).le_one s) _ n f hx
  · rw [Fin.cons_succ]
    exact component_le_one (hm.disjoint j) (fun g => List.mem_finRange g) (fun g f s => (h.ce j g f).le_one s) _ n f hx

theorem nw_sum {w : Fin F → Fin (M + 1) → ℝ} (hw : ∀ f i, 0 < w f i) (has : Fin N → Fin (M + 1) → Bool) (n : Fin N) (f : Fin F)
    (h : ∃ i, has n i = true) : ∑ i, normalizeWeights w has n f i = 1 := by
  unfold normalizeWeights
  rw [← Finset.sum_div]
  obtain ⟨i, hi⟩ := h
  refine div_self (Finset.sum_pos' (fun c _ => ?_) ⟨i, Finset.mem_univ i, ?_⟩).ne'
  · unfold b2n; split
    · rw [mul_one]; exact (hw f c).le
    · rw [mul_zero]
  · simp [b2n, hi, hw f i]

theorem nw_le_one (hm : WellPosed m) {c : Cont K F S M nG} (h : Interior m.cfg.app c) (z : Clus K N) (n : Fin N) (f : Fin F)
    (i : Fin (M + 1)) : normalizeWeights c.1 (hasComponents m.d z) n f i ≤ 1 := by
  have hp := h.positive hm
  rw [← nw_sum hp.weights (hasComponents m.d z) n f (has_some hm z n)]
  exact Finset.single_le_sum (fun j _ => (normalizeWeights_pos hp.weights _ n f j).1) (Finset.mem_univ i)

/-- The prior of the effects alone. -/
noncomputable def confTotal (m : Setup K N F S M nG) (ce : (c : Fin M) → Fin (nG c) → Fin F → Fin S → ℝ) : ℝ :=
  ∏ i, ∏ g, confEffectPrior m.cfg.app (m.cfg.conf i g) (ce i g)

theorem post_le (hm : WellPosed m) (hs : m.cfg.sampleSource = true) {d : Disc K N F M} (hd : Valid m.cl.minSize m.cl.maxSize d.1)
    {c : Cont K F S M nG} (h : Interior m.cfg.app c) : Kernel.post m (d, c) ≤ clusterTerm m d.1 * confTotal m c.2.2 := by
  have hp := h.positive hm
  have hC : 0 ≤ clusterTerm m d.1 * confTotal m c.2.2 :=
    mul_nonneg (clusterTerm_pos m d.1).le (Finset.prod_nonneg fun i _ => Finset.prod_nonneg fun g _ => (confPrior_pos hm h i g).le)
  have h1 : ∏ n, ∏ f, componentLh m.d c.2.1 c.2.2 d.1 n f (d.2 (n, f)) ≤ 1 :=
    Finset.prod_le_one (fun n _ => Finset.prod_nonneg fun f _ => (componentLh_pos hp hd.disjoint n f _).1) fun n _ =>
      Finset.prod_le_one (fun f _ => (componentLh_pos hp hd.disjoint n f _).1) fun f _ => componentLh_le_one hm hd.disjoint h n f _
  have h2 : ∏ n, ∏ f, normalizeWeights c.1 (hasComponents m.d d.1) n f (d.2 (n, f)) ≤ 1 :=
    Finset.prod_le_one (fun n _ => Finset.prod_nonneg fun f _ => (normalizeWeights_pos hp.weights _ n f _).1) fun n _ =>
      Finset.prod_le_one (fun f _ => (normalizeWeights_pos hp.weights _ n f _).1) fun f _ => nw_le_one hm h d.1 n f _
  have h3 : 0 ≤ ∏ n, ∏ f, normalizeWeights c.1 (hasComponents m.d d.1) n f (d.2 (n, f)) :=
    Finset.prod_nonneg fun n _ => Finset.prod_nonneg fun f _ => (normalizeWeights_pos hp.weights _ n f _).1
  refine (post_eq hm hs hd d.2 c).le.trans ?_
  refine (mul_le_of_le_one_left (mul_nonneg hC h3) h1).trans ?_
  exact mul_le_of_le_one_right hC h2

theorem post0_le (hm : WellPosed m) (hs : m.cfg.sampleSource = false) {z : Clus K N} (hd : Valid m.cl.minSize m.cl.maxSize z)
    {c : Cont K F S M nG} (h : Interior m.cfg.app c) : post0 m (z, c) ≤ clusterTerm m z * confTotal m c.2.2 := by
  have hp := h.positive hm
  have hC : 0 ≤ clusterTerm m z * confTotal m c.2.2 :=
    mul_nonneg (clusterTerm_pos m z).le (Finset.prod_nonneg fun i _ => Finset.prod_nonneg fun g _ => (confPrior_pos hm h i g).le)
  have h0 : ∀ n f, 0 ≤ ∑ i, normalizeWeights c.1 (hasComponents m.d z) n f i * componentLh m.d c.2.1 c.2.2 z n f i := fun n f =>
    Finset.sum_nonneg fun i _ => mul_nonneg (normalizeWeights_pos hp.weights _ n f i).1 (componentLh_pos hp hd.disjoint n f i).1
  have h1 : ∏ n, ∏ f, (∑ i, normalizeWeights c.1 (hasComponents m.d z) n f i * componentLh m.d c.2.1 c.2.2 z n f i) ≤ 1 := by
    refine Finset.prod_le_one (fun n _ => Finset.prod_nonneg fun f _ => h0 n f) fun n _ =>
      Finset.prod_le_one (fun f _ => h0 n f) fun f _ => ?_
    rw [← nw_sum hp.weights (hasComponents m.d z) n f (has_some hm z n)]
    exact Finset.sum_le_sum fun i _ => mul_le_of_le_one_right (normalizeWeights_pos hp.weights _ n f i).1
      (componentLh_le_one hm hd.disjoint h n f i)
  rw [post0_eq hm hs hd]
  exact mul_le_of_le_one_left hC h1

instance contRef_sfinite (app : Fin F → Fin S → Bool) : SFinite (contRef app : Measure (Cont K F S M nG)) := by
  unfold contRef; infer_instance

theorem contRef_prob {app : Fin F → Fin S → Bool} (h : ∀ f, ∃ s, app f s = true) :
    IsProbabilityMeasure (contRef app : Measure (Cont K F S M nG)) := by
  have := rows_prob h
  have : IsProbabilityMeasure (uniformSimplex (Finset.univ : Finset (Fin (M + 1)))) := uniformSimplex_prob Finset.univ_nonempty
  unfold contRef
  infer_instance

theorem confPrior_finite (hm : WellPosed m) (i : Fin M) (g : Fin (nG i)) :
    ∫⁻ x, ENNReal.ofReal (confEffectPrior m.cfg.app (m.cfg.conf i g) x) ∂Measure.pi (fun f => uniformSimplex (states m.cfg.app f)) ≠ ⊤ := by
  have := rows_prob (app := m.cfg.app) hm.hasState
  unfold confEffectPrior
  rcases hc : m.cfg.conf i g with _ | a
  · simp
  · have ha := hm.conc i g a hc
    dsimp only
    have hdens : ∀ f, ∫⁻ u, ENNReal.ofReal (dirichletPdf (states m.cfg.app f) (a f) u) ∂uniformSimplex (states m.cfg.app f) ≠ ⊤ := by
      intro f
      obtain ⟨s, hs⟩ := hm.hasState f
      have hA : (states m.cfg.app f).Nonempty := ⟨s, mem_states.mpr hs⟩
      have hpos : 0 < Real.Gamma (states m.cfg.app f).card := Real.Gamma_pos_of_pos (Nat.cast_pos.mpr hA.card_pos)
      have hprob := (dirichletLaw_prob hA fun s hs => ha f s (mem_states.mp hs)).measure_univ
      rw [dirichletLaw_density hA fun s hs => ha f s (mem_states.mp hs), withDensity_apply _ MeasurableSet.univ,
        Measure.restrict_univ] at hprob
      have e : ∀ u, ENNReal.ofReal (dirichletPdf (states m.cfg.app f) (a f) u) =
          ENNReal.ofReal (Real.Gamma (states m.cfg.app f).card) *
            ENNReal.ofReal (dirichletPdf (states m.cfg.app f) (a f) u / Real.Gamma (states m.cfg.app f).card) := by
        intro u
        rw [← ENNReal.ofReal_mul hpos.le, mul_div_cancel₀ _ hpos.ne']
      simp only [e]
      rw [lintegral_const_mul' _ _ ENNReal.ofReal_ne_top, hprob, mul_one]
      exact ENNReal.ofReal_ne_top
    have hle : ∫⁻ x : Fin F → Fin S → ℝ, ENNReal.ofReal (∏ f, dirichletPdf (states m.cfg.app f) (a f) (x f))
        ∂Measure.pi (fun f => uniformSimplex (states m.cfg.app f)) =
        ∫⁻ x : Fin F → Fin S → ℝ, ∏ f, ENNReal.ofReal (dirichletPdf (states m.cfg.app f) (a f) (x f))
        ∂Measure.pi (fun f => uniformSimplex (states m.cfg.app f)) := by
      refine lintegral_congr_ae ?_
      filter_upwards [rows_ae hm.hasState] with x hx
      refine ENNReal.ofReal_prod_of_nonneg fun f _ => ?_
      obtain ⟨s, hs⟩ := hm.hasState f
      exact (dirichletPdf_pos ⟨s, mem_states.mpr hs⟩ (fun s hs => ha f s (mem_states.mp hs)) fun s hs => (hx f).pos hs).le
    refine ne_of_eq_of_ne hle ?_
    rw [lintegral_pi_prod (fun f u => ENNReal.ofReal (dirichletPdf (states m.cfg.app f) (a f) u))
      fun f => (measurable_dirichletPdf _ _).ennreal_ofReal]
    exact ENNReal.prod_ne_top fun f _ => hdens f

theorem meas_confPrior (app : Fin F → Fin S → Bool) (a : Option (Fin F → Fin S → ℝ)) : Measurable (confEffectPrior app a) := by
  unfold confEffectPrior
  rcases a with _ | a
  · exact measurable_const
  · exact Finset.measurable_fun_prod _ fun f _ => (measurable_dirichletPdf _ _).comp (measurable_pi_apply f)

theorem confTotal_finite (hm : WellPosed m) :
    ∫⁻ c, ENNReal.ofReal (confTotal m c.2.2) ∂(contRef m.cfg.app : Measure (Cont K F S M nG)) ≠ ⊤ := by
  have := rows_prob (app := m.cfg.app) hm.hasState
  have : IsProbabilityMeasure (uniformSimplex (Finset.univ : Finset (Fin (M + 1)))) := uniformSimplex_prob Finset.univ_nonempty
  have hmeas : Measurable fun ce : (c : Fin M) → Fin (nG c) → Fin F → Fin S → ℝ =>
      ∏ i, ∏ g, ENNReal.ofReal (confEffectPrior m.cfg.app (m.cfg.conf i g) (ce i g)) :=
    Finset.measurable_fun_prod _ fun i _ => Finset.measurable_fun_prod _ fun g _ =>
      ((meas_confPrior _ _).comp ((measurable_pi_apply g).comp (measurable_pi_apply i))).ennreal_ofReal
  have e1 : ∫⁻ c, ENNReal.ofReal (confTotal m c.2.2) ∂(contRef m.cfg.app : Measure (Cont K F S M nG)) =
      ∫⁻ c, ∏ i, ∏ g, ENNReal.ofReal (confEffectPrior m.cfg.app (m.cfg.conf i g) (c.2.2 i g))
        ∂(contRef m.cfg.app : Measure (Cont K F S M nG)) := by
    refine lintegral_congr_ae ?_
    filter_upwards [interior_ae hm.hasState] with c hc
    unfold confTotal
    rw [ENNReal.ofReal_prod_of_nonneg fun i _ => Finset.prod_nonneg fun g _ => (confPrior_pos hm hc i g).le]
    exact Finset.prod_congr rfl fun i _ => ENNReal.ofReal_prod_of_nonneg fun g _ => (confPrior_pos hm hc i g).le
  rw [e1]
  have hm2 : Measurable fun c : Cont K F S M nG => ∏ i, ∏ g, ENNReal.ofReal (confEffectPrior m.cfg.app (m.cfg.conf i g) (c.2.2 i g)) :=
    hmeas.comp (measurable_snd.comp measurable_snd)
  have hm1 : Measurable fun y : (Fin K → Fin F → Fin S → ℝ) × ((c : Fin M) → Fin (nG c) → Fin F → Fin S → ℝ) =>
      ∏ i, ∏ g, ENNReal.ofReal (confEffectPrior m.cfg.app (m.cfg.conf i g) (y.2 i g)) := hmeas.comp measurable_snd
  unfold contRef
  rw [lintegral_prod _ hm2.aemeasurable]
  simp only [lintegral_const, measure_univ, mul_one]
  rw [lintegral_prod _ hm1.aemeasurable]
  simp only [lintegral_const, measure_univ, mul_one]
  rw [lintegral_pi_prod (fun i (x : Fin (nG i) → Fin F → Fin S → ℝ) =>
    ∏ g, ENNReal.ofReal (confEffectPrior m.cfg.app (m.cfg.conf i g) (x g))) fun i =>
    Finset.measurable_fun_prod _ fun g _ => ((meas_confPrior _ _).comp (measurable_pi_apply g)).ennreal_ofReal]
  refine ENNReal.prod_ne_top fun i _ => ?_
  rw [lintegral_pi_prod (fun g (x : Fin F → Fin S → ℝ) => ENNReal.ofReal (confEffectPrior m.cfg.app (m.cfg.conf i g) x)) fun g =>
    (meas_confPrior _ _).ennreal_ofReal]
  exact ENNReal.prod_ne_top fun g _ => confPrior_finite hm i g

section Target
variable {D : Type} [Fintype D] [MeasurableSpace D] [MeasurableSingletonClass D] {clusters : D → Clus K N}
  {post : D × Cont K F S M nG → ℝ}

theorem target_univ (hpost : ∀ d, Measurable fun c => post (d, c)) :
    target m clusters post Set.univ = ∑ d, ∫⁻ c, dens m clusters post d c ∂contRef m.cfg.app := by
  have := lintegral_target (m := m) (clusters := clusters) hpost (f := fun _ => 1) measurable_const
  rw [lintegral_const, one_mul] at this
  rw [this]
  simp only [mul_one]

theorem target_finite (hm : WellPosed m) (hpost : ∀ d, Measurable fun c => post (d, c))
    (hle : ∀ d, Valid m.cl.minSize m.cl.maxSize (clusters d) → ∀ c, Interior m.cfg.app c →
      post (d, c) ≤ clusterTerm m (clusters d) * confTotal m c.2.2) : target m clusters post Set.univ < ⊤ := by
  rw [target_univ hpost]
  refine ENNReal.sum_lt_top.mpr fun d _ => ?_
  by_cases hv : Valid m.cl.minSize m.cl.maxSize (clusters d)
  · simp only [dens_valid hv]
    have h1 : ∫⁻ c, ENNReal.ofReal (post (d, c)) ∂contRef m.cfg.app ≤
        ∫⁻ c : Cont K F S M nG, ENNReal.ofReal (clusterTerm m (clusters d)) * ENNReal.ofReal (confTotal m c.2.2) ∂contRef m.cfg.app := by
      refine lintegral_mono_ae ?_
      filter_upwards [interior_ae hm.hasState] with c hc
      rw [← ENNReal.ofReal_mul (clusterTerm_pos m _).le]
      exact ENNReal.ofReal_le_ofReal (hle d hv c hc)
    refine h1.trans_lt ?_
    rw [lintegral_const_mul' _ _ ENNReal.ofReal_ne_top]
    exact ENNReal.mul_lt_top ENNReal.ofReal_lt_top (lt_top_iff_ne_top.mpr (confTotal_finite hm))
  · simp only [dens_invalid hv, lintegral_zero, ENNReal.zero_lt_top]

theorem target_pos (hm : WellPosed m) (hpost : ∀ d, Measurable fun c => post (d, c)) {d : D}
    (hv : Valid m.cl.minSize m.cl.maxSize (clusters d)) (hpos : ∀ c, Interior m.cfg.app c → 0 < post (d, c)) :
    0 < target m clusters post Set.univ := by
  have := contRef_prob (K := K) (M := M) (nG := nG) hm.hasState
  rw [target_univ hpost]
  refine lt_of_lt_of_le ?_ (Finset.single_le_sum (fun _ _ => zero_le) (Finset.mem_univ d))
  simp only [dens_valid hv]
  rw [pos_iff_ne_zero]
  intro h
  rw [lintegral_eq_zero_iff (hpost d).ennreal_ofReal] at h
  have hf : ∀ᵐ c ∂(contRef m.cfg.app : Measure (Cont K F S M nG)), False := by
    filter_upwards [h, interior_ae hm.hasState] with c h1 h2
    have h1' : ENNReal.ofReal (post (d, c)) = 0 := h1
    rw [ENNReal.ofReal_eq_zero] at h1'
    exact absurd (hpos c h2) (not_lt.mpr h1')
  exact (IsProbabilityMeasure.ne_zero (contRef m.cfg.app : Measure (Cont K F S M nG))) (by simpa using hf)

end Target

/-- Some sources have positive probability. -/
theorem exists_source (hm : WellPosed m) (hs : m.cfg.sampleSource = true) {z : Clus K N} (hz : Valid m.cl.minSize m.cl.maxSize z) :
    ∃ s, ∀ c, Interior m.cfg.app c → 0 < Kernel.post m ((z, s), c) := by
  choose i hi using has_some hm z
  refine ⟨fun p => i p.1, fun c h => ?_⟩
  have hp := h.positive hm
  rw [post_eq hm hs hz]
  exact mul_pos (Finset.prod_pos fun n _ => Finset.prod_pos fun f _ => (componentLh_pos hp hz.disjoint n f _).2 (hi n))
    (mul_pos (mul_pos (clusterTerm_pos m z) (Finset.prod_pos fun i _ => Finset.prod_pos fun g _ => confPrior_pos hm h i g))
      (Finset.prod_pos fun n _ => Finset.prod_pos fun f _ => (normalizeWeights_pos hp.weights _ n f _).2 (hi n)))

end SBayes.Meas
