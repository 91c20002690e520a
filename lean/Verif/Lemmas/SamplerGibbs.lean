import Verif.Lemmas.SamplerAlter
/- Invariance of the Gibbs operators on effects. -/
namespace SBayes.Meas
set_option linter.unusedSectionVars false
open SBayes.Lik SBayes.Clusters SBayes.MH SBayes.Source SBayes.Effects SBayes.Posterior SBayes.Draws SBayes.Kernel MeasureTheory
open scoped BigOperators ENNReal

variable {K N F S M C G : ℕ} {nG : Fin M → ℕ}

/-- Drawn values for the applicable states, the old ones for the others. -/
def mergeRows (app : Fin F → Fin S → Bool) (v draw : Fin F → Fin S → ℝ) : Fin F → Fin S → ℝ :=
  fun f s => if app f s then draw f s else v f s

theorem writeEffect_merge (app : Fin F → Fin S → Bool) (e : Fin G → Fin F → Fin S → ℝ) (g : Fin G) (draw : Fin F → Fin S → ℝ) :
    writeEffect app e g draw = Function.update e g (mergeRows app (e g) draw) := rfl

theorem merge_rows {app : Fin F → Fin S → Bool} {v t : Fin F → Fin S → ℝ} (hv : ∀ f, Row (states app f) (v f))
    (ht : ∀ f, Row (states app f) (t f)) : mergeRows app v t = t := by
  funext f s
  unfold mergeRows
  split
  · rfl
  · rename_i h
    have hs : s ∉ states app f := fun h' => h (mem_states.mp h')
    rw [(hv f).zero hs, (ht f).zero hs]

theorem merge_merge (app : Fin F → Fin S → Bool) (v t u : Fin F → Fin S → ℝ) :
    mergeRows app (mergeRows app v t) u = mergeRows app v u := by
  funext f s
  unfold mergeRows
  split <;> rfl

theorem meas_merge (app : Fin F → Fin S → Bool) :
    Measurable fun z : (Fin F → Fin S → ℝ) × (Fin F → Fin S → ℝ) => mergeRows app z.1 z.2 := by
  rw [measurable_pi_iff]; intro f
  rw [measurable_pi_iff]; intro s
  unfold mergeRows
  by_cases h : app f s = true
  · simp only [h, if_true]; fun_prop
  · simp only [h, if_false, Bool.false_eq_true]; fun_prop

section
variable {X : Type} [MeasurableSpace X] (L : Lens X (Fin F → Fin S → ℝ)) {μ : Measure X} [SFinite μ]
  {app : Fin F → Fin S → Bool} {alpha : Fin F → Fin S → ℝ} {p : X → ℝ}

theorem meas_set_merge : Measurable fun z : X × (Fin F → Fin S → ℝ) => L.set z.1 (mergeRows app (L.get z.1) z.2) :=
  L.mset.comp (measurable_fst.prodMk ((meas_merge app).comp ((L.mget.comp measurable_fst).prodMk measurable_snd)))

theorem meas_gibbs_law (alpha : Fin F → Fin S → ℝ) {g : X → ℝ≥0∞} (hg : Measurable g) :
    Measurable fun x => ∫⁻ e, g (L.set x (mergeRows app (L.get x) e)) ∂Measure.pi fun f => dirichletLaw (states app f) (alpha f) :=
  Measurable.lintegral_prod_right' (f := fun z : X × (Fin F → Fin S → ℝ) => g (L.set z.1 (mergeRows app (L.get z.1) z.2)))
    (hg.comp (meas_set_merge L))

theorem rows_ae (h : ∀ f, ∃ s, app f s = true) :
    ∀ᵐ x ∂Measure.pi fun f => uniformSimplex (states app f), ∀ f, Row (states app f) (x f) := by
  rw [ae_all_iff]
  intro f
  obtain ⟨s, hs⟩ := h f
  exact (Measure.quasiMeasurePreserving_eval (fun f => uniformSimplex (states app f)) f).ae
    (uniformSimplex_ae ⟨s, mem_states.mpr hs⟩)

/-- The density of the drawn effects with respect to the uniform distribution. -/
noncomputable def effDens (app : Fin F → Fin S → Bool) (alpha : Fin F → Fin S → ℝ) (x : Fin F → Fin S → ℝ) : ℝ≥0∞ :=
  ∏ f, ENNReal.ofReal (dirichletPdf (states app f) (alpha f) (x f) / Real.Gamma (states app f).card)

theorem meas_effDens : Measurable (effDens app alpha) := by
  unfold effDens
  exact Finset.measurable_fun_prod _ fun f _ =>
    (((measurable_dirichletPdf _ _).comp (measurable_pi_apply f)).div_const _).ennreal_ofReal

theorem pi_dirichlet (h : ∀ f, ∃ s, app f s = true) (ha : ∀ f s, app f s = true → 0 < alpha f s) :
    (Measure.pi fun f => dirichletLaw (states app f) (alpha f)) =
      (Measure.pi fun f => uniformSimplex (states app f)).withDensity (effDens app alpha) := by
  have e : ∀ f, dirichletLaw (states app f) (alpha f) = (uniformSimplex (states app f)).withDensity
      fun u => ENNReal.ofReal (dirichletPdf (states app f) (alpha f) u / Real.Gamma (states app f).card) := fun f => by
    obtain ⟨s, hs⟩ := h f
    exact dirichletLaw_density ⟨s, mem_states.mpr hs⟩ fun s hs => ha f s (mem_states.mp hs)
  have hfin : ∀ f, SigmaFinite ((uniformSimplex (states app f)).withDensity
      fun u => ENNReal.ofReal (dirichletPdf (states app f) (alpha f) u / Real.Gamma (states app f).card)) := fun f => by
    rw [← e]; infer_instance
  simp only [e]
  exact pi_withDensity (ν := fun f => uniformSimplex (states app f))
    (fun f u => ENNReal.ofReal (dirichletPdf (states app f) (alpha f) u / Real.Gamma (states app f).card))
    fun f => ((measurable_dirichletPdf _ _).div_const _).ennreal_ofReal

theorem effDens_eq (h : ∀ f, ∃ s, app f s = true) (ha : ∀ f s, app f s = true → 0 < alpha f s) {t : Fin F → Fin S → ℝ}
    (ht : ∀ f, Row (states app f) (t f)) :
    effDens app alpha t = ENNReal.ofReal (gibbsEffectPdf app alpha t * (∏ f, (Real.Gamma (states app f).card)⁻¹)) := by
  unfold effDens gibbsEffectPdf
  rw [← ENNReal.ofReal_prod_of_nonneg, ← Finset.prod_mul_distrib]
  · simp only [div_eq_mul_inv]
  · intro f _
    obtain ⟨s, hs⟩ := h f
    refine div_nonneg (dirichletPdf_pos ⟨s, mem_states.mpr hs⟩ (fun s hs => ha f s (mem_states.mp hs)) fun s hs => (ht f).pos hs).le ?_
    exact Real.Gamma_nonneg_of_nonneg (Nat.cast_nonneg _)

theorem gibbs_step (h : ∀ f, ∃ s, app f s = true) (ha : ∀ f s, app f s = true → 0 < alpha f s)
    (hR : Refresh μ (Measure.pi fun f => uniformSimplex (states app f)) fun x e => L.set x e) (hp : Measurable p)
    (hrev : ∀ᵐ x ∂μ, (∀ f, Row (states app f) (L.get x f)) ∧ ∀ s t : Fin F → Fin S → ℝ, (∀ f, Row (states app f) (s f)) →
      (∀ f, Row (states app f) (t f)) → 0 ≤ p (L.set x s) ∧
        p (L.set x s) * gibbsEffectPdf app alpha t = p (L.set x t) * gibbsEffectPdf app alpha s)
    {g : X → ℝ≥0∞} (hg : Measurable g) :
    ∫⁻ x, ENNReal.ofReal (p x) * (∫⁻ e, g (L.set x (mergeRows app (L.get x) e)) ∂Measure.pi fun f =>
      dirichletLaw (states app f) (alpha f)) ∂μ = ∫⁻ x, ENNReal.ofReal (p x) * g x ∂μ := by
  have key := slice_mh hR (fun x => ENNReal.ofReal (p x)) hp.ennreal_ofReal (fun _ t => effDens app alpha t) (fun _ _ => 1)
    (fun _ _ => 0) (meas_effDens.comp measurable_snd) measurable_const measurable_const ?_ ?_ g hg
  · rw [← key]
    refine lintegral_congr_ae ?_
    filter_upwards [hrev] with x hx
    congr 1
    have hgm : Measurable fun e => g (L.set x (mergeRows app (L.get x) e)) :=
      hg.comp ((meas_set_merge L).comp (measurable_const.prodMk measurable_id))
    rw [pi_dirichlet h ha, lintegral_withDensity_eq_lintegral_mul _ meas_effDens hgm]
    refine lintegral_congr_ae ?_
    filter_upwards [rows_ae h] with e he
    show effDens app alpha e * g (L.set x (mergeRows app (L.get x) e)) = _
    rw [merge_rows hx.1 he, one_mul, zero_mul, add_zero]
  · refine Filter.Eventually.of_forall fun x => ?_
    simp only [add_zero, mul_one]
    have hprob : ∀ f, IsProbabilityMeasure (dirichletLaw (states app f) (alpha f)) := fun f => by
      obtain ⟨s, hs⟩ := h f
      exact dirichletLaw_prob ⟨s, mem_states.mpr hs⟩ fun s hs => ha f s (mem_states.mp hs)
    have h1 : (Measure.pi fun f => dirichletLaw (states app f) (alpha f)) Set.univ = 1 := measure_univ
    rw [pi_dirichlet h ha, withDensity_apply _ MeasurableSet.univ, Measure.restrict_univ] at h1
    exact h1
  · filter_upwards [hrev] with x hx
    filter_upwards [rows_ae h] with s hs
    filter_upwards [rows_ae h] with t ht
    refine ⟨L.set_set x s t, ?_⟩
    obtain ⟨h1, h2⟩ := hx.2 s t hs ht
    have h3 := (hx.2 t s ht hs).1
    simp only [mul_one]
    rw [effDens_eq h ha ht, effDens_eq h ha hs, ← ENNReal.ofReal_mul h1, ← ENNReal.ofReal_mul h3, ← mul_assoc, ← mul_assoc, h2]

theorem refresh_const {ν : Measure (Fin F → Fin S → ℝ)} [IsProbabilityMeasure ν] : Refresh ν ν fun _ e => e :=
  ⟨measurable_snd, fun g _ => by rw [lintegral_const, measure_univ, mul_one]⟩

theorem rows_prob (h : ∀ f, ∃ s, app f s = true) : IsProbabilityMeasure (Measure.pi fun f => uniformSimplex (states app f)) := by
  have : ∀ f, IsProbabilityMeasure (uniformSimplex (states app f)) := fun f => by
    obtain ⟨s, hs⟩ := h f
    exact uniformSimplex_prob ⟨s, mem_states.mpr hs⟩
  infer_instance

end

section Ops
variable {m : Setup K N F S M nG}

theorem counts_nonneg (x : Features N F S) (src : Fin N → Fin F → Fin C → Bool) (c : Fin C) (group : Fin N → Bool) (f : Fin F)
    (s : Fin S) : 0 ≤ attributedCounts x src c group f s := by
  unfold attributedCounts
  refine Finset.sum_nonneg fun n _ => ?_
  split
  · split <;> norm_num
  · exact le_rfl

/-- A Gibbs step on one group of effects. -/
noncomputable def effectMove (m : Setup K N F S M nG) (L : Lens (Cont K F S M nG) (Fin F → Fin S → ℝ))
    (alpha : Disc K N F M → Fin F → Fin S → ℝ) : Disc K N F M × Cont K F S M nG → Law (Disc K N F M × Cont K F S M nG) :=
  mhStep (Kernel.post m) fun x => Law.bind (Law.draw (Measure.pi fun f => dirichletLaw (states m.cfg.app f) (alpha x.1 f)))
    fun draw => Law.ret (gibbs (x.1, L.set x.2 (mergeRows m.cfg.app (L.get x.2) draw)))

theorem keeps_effectMove (hm : WellPosed m) (hs : m.cfg.sampleSource = true) (L : Lens (Cont K F S M nG) (Fin F → Fin S → ℝ))
    (alpha : Disc K N F M → Fin F → Fin S → ℝ) (ha : ∀ d f s, m.cfg.app f s = true → 0 < alpha d f s)
    (hR : Refresh (contRef m.cfg.app : Measure (Cont K F S M nG)) (Measure.pi fun f => uniformSimplex (states m.cfg.app f))
      fun x e => L.set x e)
    (hin : ∀ c, Interior m.cfg.app c → (∀ f, Row (states m.cfg.app f) (L.get c f)) ∧
      ∀ t : Fin F → Fin S → ℝ, (∀ f, Row (states m.cfg.app f) (t f)) → Interior m.cfg.app (L.set c t))
    (hrev : ∀ d, Valid m.cl.minSize m.cl.maxSize d.1 → ∀ c, Interior m.cfg.app c → ∀ s t : Fin F → Fin S → ℝ,
      (∀ f, Row (states m.cfg.app f) (s f)) → (∀ f, Row (states m.cfg.app f) (t f)) →
        Kernel.post m (d, L.set c s) * gibbsEffectPdf m.cfg.app (alpha d) t =
          Kernel.post m (d, L.set c t) * gibbsEffectPdf m.cfg.app (alpha d) s) :
    Keeps (target m Prod.fst (Kernel.post m)) (effectMove m L alpha) := by
  have hT : ∀ d c g, effectMove m L alpha (d, c) g = ∫⁻ e, g (d, L.set c (mergeRows m.cfg.app (L.get c) e))
      ∂Measure.pi fun f => dirichletLaw (states m.cfg.app f) (alpha d f) := by
    intro d c g
    unfold effectMove mhStep Law.bind Law.draw
    dsimp only
    refine lintegral_congr fun e => ?_
    exact mhStep_gibbs g
  refine keeps_of_cont (meas_post m) (fun d g hg => ?_) fun d hd g hg => ?_
  · simp only [hT]
    exact meas_gibbs_law L (alpha d) (g := fun c => g (d, c)) (hg.comp (measurable_const.prodMk measurable_id))
  · simp only [hT]
    refine gibbs_step L (p := fun c => Kernel.post m (d, c)) (g := fun c => g (d, c)) hm.hasState (ha d) hR (meas_post m d) ?_
      (hg.comp (measurable_const.prodMk measurable_id))
    filter_upwards [interior_ae hm.hasState] with c hc
    refine ⟨(hin c hc).1, fun s t hs' ht' => ⟨?_, hrev d hd c hc s t hs' ht'⟩⟩
    exact post_nonneg hm hs hd d.2 ((hin c hc).2 s hs')

/-- The posterior as likelihood times the rest. -/
theorem post_split (hm : WellPosed m) (hs : m.cfg.sampleSource = true) {d : Disc K N F M}
    (hd : Valid m.cl.minSize m.cl.maxSize d.1) (c : Cont K F S M nG) :
    Kernel.post m (d, c) = likelihood (freshObservationLhs m.d (params (d, c)) m.clOrder m.confOrder m.empty) *
      (clusterTerm m d.1 * (∏ i, ∏ g, confEffectPrior m.cfg.app (m.cfg.conf i g) (c.2.2 i g)) *
        (sourceWeights (normalizeWeights c.1 (hasComponents m.d d.1)) (sourceArray d.2)).prod) := by
  obtain ⟨geo, hgeo⟩ := Option.isSome_iff_exists.mp (hm.geo d.1 hd)
  unfold Kernel.post posterior prior clusterTerm
  simp only [params]
  rw [hgeo, hs]
  simp only [sourceTerm, Option.bind_eq_bind, Option.bind_some, Option.map_some, Option.getD_some]

/-- New values for the effect of one cluster. -/
theorem keeps_effectE (hm : WellPosed m) (hs : m.cfg.sampleSource = true) (k : Fin K) :
    Keeps (target m Prod.fst (Kernel.post m)) (effectMove m (eLens k) fun d =>
      gibbsAlpha (fun _ _ => 1) (attributedCounts m.d.features (sourceArray d.2) 0 (d.1 k))) := by
  have := rows_prob (app := m.cfg.app) hm.hasState
  refine keeps_effectMove hm hs (eLens k) _ (fun d f s _ => ?_) (refresh_e k refresh_const)
    (fun c hc => ⟨hc.e k, fun t ht => hc.set_e k ht⟩) fun d hd c hc s t hs' ht' => ?_
  · have := counts_nonneg m.d.features (sourceArray d.2) 0 (d.1 k) f s
    unfold gibbsAlpha
    linarith
  · have h := C26_cluster_effect_full_conditional m.d (params (d, c)) (sourceArray d.2) rfl m.cfg.app hm.observed
      hd.disjoint m.clOrder hm.clOrder m.confOrder m.empty k s t (fun f i hi => (hs' f).pos (mem_states.mpr hi))
      (fun f i hi => (ht' f).pos (mem_states.mpr hi))
    dsimp only at h
    have e : ∀ t : Fin F → Fin S → ℝ, (∀ f, Row (states m.cfg.app f) (t f)) →
        ({ params (d, c) with clusterEffect := writeEffect m.cfg.app (params (d, c)).clusterEffect k t } : Params ℝ K N F S M nG) =
          params (d, (eLens k).set c t) := by
      intro t ht
      rw [writeEffect_merge]
      have : mergeRows m.cfg.app ((params (d, c)).clusterEffect k) t = t := merge_rows (hc.e k) ht
      rw [this]
      rfl
    rw [e s hs', e t ht'] at h
    rw [post_split hm hs hd, post_split hm hs hd]
    show _ * (clusterTerm m d.1 * (∏ i, ∏ g, confEffectPrior m.cfg.app (m.cfg.conf i g) (c.2.2 i g)) *
        (sourceWeights (normalizeWeights c.1 (hasComponents m.d d.1)) (sourceArray d.2)).prod) * _ =
      _ * (clusterTerm m d.1 * (∏ i, ∏ g, confEffectPrior m.cfg.app (m.cfg.conf i g) (c.2.2 i g)) *
        (sourceWeights (normalizeWeights c.1 (hasComponents m.d d.1)) (sourceArray d.2)).prod) * _
    generalize (clusterTerm m d.1 * (∏ i, ∏ g, confEffectPrior m.cfg.app (m.cfg.conf i g) (c.2.2 i g)) *
        (sourceWeights (normalizeWeights c.1 (hasComponents m.d d.1)) (sourceArray d.2)).prod) = A
    have hz : (params (d, c)).clusters k = d.1 k := rfl
    rw [hz] at h
    linear_combination A * h

/-- `GibbsSampleClusterEffect`. -/
theorem keeps_clusterEffect (hm : WellPosed m) (hs : m.cfg.sampleSource = true) :
    Keeps (target m Prod.fst (Kernel.post m)) (mhStep (Kernel.post m) (propose m .clusterEffect)) := by
  have h2 := Keeps.mix (uniform (List.finRange K)) (ofRand_one (uniform_fin_dist hm.hasCluster))
    (fun k x => effectMove m (eLens k) (fun d =>
      gibbsAlpha (fun _ _ => 1) (attributedCounts m.d.features (sourceArray d.2) 0 (d.1 k))) x) fun k _ => keeps_effectE hm hs k.1
  exact h2

/-- `GibbsSampleConfoundingEffects`. -/
theorem keeps_confounding (hm : WellPosed m) (hs : m.cfg.sampleSource = true) (i : Fin M) :
    Keeps (target m Prod.fst (Kernel.post m)) (mhStep (Kernel.post m) (propose m (.confounding i))) := by
  classical
  have := rows_prob (app := m.cfg.app) hm.hasState
  have h1 : ∀ g : Fin (nG i), Keeps (target m Prod.fst (Kernel.post m)) (effectMove m (ceLens i g) fun d =>
      gibbsAlpha (concentration (m.cfg.conf i g)) (attributedCounts m.d.features (sourceArray d.2) i.succ (m.d.confGroups i g))) := by
    intro g
    refine keeps_effectMove hm hs (ceLens i g) _ (fun d f s happ => ?_) (refresh_ce i g refresh_const)
      (fun c hc => ⟨hc.ce i g, fun t ht => hc.set_ce i g ht⟩) fun d hd c hc s t hs' ht' => ?_
    · have h0 := counts_nonneg m.d.features (sourceArray d.2) i.succ (m.d.confGroups i g) f s
      have h1 : 0 < concentration (m.cfg.conf i g) f s := by
        unfold concentration
        rcases hc : m.cfg.conf i g with _ | a
        · exact one_pos
        · exact hm.conc i g a hc f s happ
      unfold gibbsAlpha
      linarith
    · have h := C26_confounding_effect_full_conditional m.d (params (d, c)) (sourceArray d.2) rfl m.cfg.app hm.observed i
        (hm.disjoint i) m.clOrder m.confOrder (hm.confOrder i) m.empty g (m.cfg.conf i g) s t
        (fun f i hi => (hs' f).pos (mem_states.mpr hi)) (fun f i hi => (ht' f).pos (mem_states.mpr hi))
      dsimp only at h
      have e : ∀ t : Fin F → Fin S → ℝ, (∀ f, Row (states m.cfg.app f) (t f)) →
          ({ params (d, c) with
              confEffect := Function.update (params (d, c)).confEffect i (writeEffect m.cfg.app ((params (d, c)).confEffect i) g t) } :
            Params ℝ K N F S M nG) =
            params (d, (ceLens i g).set c t) := by
        intro t ht
        rw [writeEffect_merge]
        have : mergeRows m.cfg.app ((params (d, c)).confEffect i g) t = t := merge_rows (hc.ce i g) ht
        rw [this]
        rfl
      rw [e s hs', e t ht'] at h
      have hpr : ∀ t : Fin F → Fin S → ℝ, (∏ i', ∏ g', confEffectPrior m.cfg.app (m.cfg.conf i' g') (((ceLens i g).set c t).2.2 i' g')) =
          confEffectPrior m.cfg.app (m.cfg.conf i g) t * ((∏ g' ∈ Finset.univ.erase g,
            confEffectPrior m.cfg.app (m.cfg.conf i g') (c.2.2 i g')) * ∏ i' ∈ Finset.univ.erase i, ∏ g',
            confEffectPrior m.cfg.app (m.cfg.conf i' g') (c.2.2 i' g')) := by
        intro t
        show (∏ i', ∏ g', confEffectPrior m.cfg.app (m.cfg.conf i' g')
          (Function.update c.2.2 i (Function.update (c.2.2 i) g t) i' g')) = _
        rw [← Finset.mul_prod_erase _ _ (Finset.mem_univ i), ← Finset.mul_prod_erase _ _ (Finset.mem_univ g),
          Function.update_self, Function.update_self, mul_assoc]
        congr 2
        · refine Finset.prod_congr rfl fun g' hg' => ?_
          rw [Function.update_of_ne (Finset.ne_of_mem_erase hg')]
        · refine Finset.prod_congr rfl fun i' hi' => Finset.prod_congr rfl fun g' _ => ?_
          rw [Function.update_of_ne (Finset.ne_of_mem_erase hi')]
      rw [post_split hm hs hd, post_split hm hs hd, hpr, hpr]
      show _ * (clusterTerm m d.1 * _ * (sourceWeights (normalizeWeights c.1 (hasComponents m.d d.1)) (sourceArray d.2)).prod) * _ =
        _ * (clusterTerm m d.1 * _ * (sourceWeights (normalizeWeights c.1 (hasComponents m.d d.1)) (sourceArray d.2)).prod) * _
      generalize ((∏ g' ∈ Finset.univ.erase g, confEffectPrior m.cfg.app (m.cfg.conf i g') (c.2.2 i g')) *
        ∏ i' ∈ Finset.univ.erase i, ∏ g', confEffectPrior m.cfg.app (m.cfg.conf i' g') (c.2.2 i' g')) = B
      generalize (sourceWeights (normalizeWeights c.1 (hasComponents m.d d.1)) (sourceArray d.2)).prod = W
      linear_combination clusterTerm m d.1 * B * W * h
  have h2 := Keeps.mix (uniform (List.finRange (nG i))) (ofRand_one (uniform_fin_dist (hm.hasGroup i)))
    (fun g x => effectMove m (ceLens i g) (fun d =>
      gibbsAlpha (concentration (m.cfg.conf i g)) (attributedCounts m.d.features (sourceArray d.2) i.succ (m.d.confGroups i g))) x)
    fun g _ => h1 g.1
  exact h2

end Ops

end SBayes.Meas
