import Verif.Lemmas.SubharmTotal
import Verif.Lemmas.ChainKernel
import Verif.Lemmas.LawPoint
/- The chain with sources, on all states of positive posterior. -/
namespace SBayes.Meas
set_option linter.unusedSectionVars false
open SBayes.Lik SBayes.Clusters SBayes.MH SBayes.Source SBayes.Effects SBayes.Posterior SBayes.Draws SBayes.Kernel SBayes.MCMC MeasureTheory
open Filter Topology
open scoped BigOperators ENNReal

variable {K N F S M : ℕ} {nG : Fin M → ℕ} {m : Setup K N F S M nG}

/-- All states of positive posterior. -/
def Live (m : Setup K N F S M nG) : Set (Disc K N F M × Cont K F S M nG) := {x | Good m x.1 ∧ Interior m.cfg.app x.2}

theorem row_meas {n : ℕ} (A : Finset (Fin n)) : MeasurableSet {v : Fin n → ℝ | Row A v} := by
  have e : {v : Fin n → ℝ | Row A v} = (⋂ i, {v : Fin n → ℝ | if i ∈ A then 0 < v i else v i = 0}) ∩ {v | ∑ i, v i = 1} := by
    ext v
    simp [Row, Set.mem_iInter]
  rw [e]
  refine (MeasurableSet.iInter fun i => ?_).inter ?_
  · by_cases h : i ∈ A
    · simp only [h, if_true]
      exact measurableSet_lt measurable_const (measurable_pi_apply i)
    · simp only [h, if_false]
      exact measurableSet_eq_fun (measurable_pi_apply i) measurable_const
  · exact measurableSet_eq_fun (Finset.measurable_fun_sum _ fun i _ => measurable_pi_apply i) measurable_const

theorem interior_meas (app : Fin F → Fin S → Bool) : MeasurableSet {c : Cont K F S M nG | Interior app c} := by
  have e : {c : Cont K F S M nG | Interior app c} = (⋂ f, {c : Cont K F S M nG | Row Finset.univ (c.1 f)}) ∩
      ((⋂ k, ⋂ f, {c : Cont K F S M nG | Row (states app f) (c.2.1 k f)}) ∩ ⋂ i, ⋂ g, ⋂ f, {c : Cont K F S M nG | Row (states app f) (c.2.2 i g f)}) := by
    ext c
    simp only [Set.mem_inter_iff, Set.mem_iInter, Set.mem_ofPred_eq]
    exact ⟨fun h => ⟨h.w, h.e, h.ce⟩, fun h => ⟨h.1, h.2.1, h.2.2⟩⟩
  rw [e]
  refine (MeasurableSet.iInter fun f => ?_).inter ((MeasurableSet.iInter fun k => MeasurableSet.iInter fun f => ?_).inter
    (MeasurableSet.iInter fun i => MeasurableSet.iInter fun g => MeasurableSet.iInter fun f => ?_))
  · have : Measurable fun c : Cont K F S M nG => c.1 f := (measurable_pi_apply f).comp measurable_fst
    exact this (row_meas _)
  · have : Measurable fun c : Cont K F S M nG => c.2.1 k f :=
      (measurable_pi_apply f).comp ((measurable_pi_apply k).comp (measurable_fst.comp measurable_snd))
    exact this (row_meas _)
  · have : Measurable fun c : Cont K F S M nG => c.2.2 i g f :=
      (measurable_pi_apply f).comp ((measurable_pi_apply g).comp ((measurable_pi_apply i).comp (measurable_snd.comp measurable_snd)))
    exact this (row_meas _)

theorem live_meas (m : Setup K N F S M nG) : MeasurableSet (Live m) :=
  ((Set.to_countable {d | Good m d}).measurableSet.preimage measurable_fst).inter (measurable_snd (interior_meas m.cfg.app))

theorem live_ae (hm : WellPosed m) (hs : m.cfg.sampleSource = true) : ∀ᵐ x ∂target m Prod.fst (Kernel.post m), x ∈ Live m := by
  rw [ae_target hm hs]
  intro d hd
  filter_upwards [interior_ae hm.hasState] with c hc using ⟨hd, hc⟩

/-- The operator cannot fail here, and does not leave the states of positive posterior. -/
structure OpOn (m : Setup K N F S M nG) (T : Law (Disc K N F M × Cont K F S M nG)) : Prop where
  mass : T 1 = 1
  meas : IsMeas T
  stay : T ((Live m)ᶜ.indicator 1) = 0
  loc : ∀ H H', (∀ y ∈ Live m, H y = H' y) → T H = T H'

theorem ofRand_live {α : Type} {l : Rand α} {φ : α → Disc K N F M × Cont K F S M nG} (h : ∀ p ∈ l, p.2 ≠ 0 → φ p.1 ∈ Live m) :
    (Law.ofRand l fun a => (Live m)ᶜ.indicator (1 : Disc K N F M × Cont K F S M nG → ℝ≥0∞) (φ a)) = 0 := by
  unfold Law.ofRand
  refine List.sum_eq_zero fun y hy => ?_
  obtain ⟨p, hp, rfl⟩ := List.mem_map.mp hy
  by_cases h0 : p.2 = 0
  · rw [h0, ENNReal.ofReal_zero, zero_mul]
  · dsimp only
    rw [Set.indicator_of_notMem (show φ p.1 ∉ (Live m)ᶜ from fun h' => h' (h p hp h0)), mul_zero]

theorem ofRand_local {α : Type} {l : Rand α} {φ : α → Disc K N F M × Cont K F S M nG} (h : ∀ p ∈ l, p.2 ≠ 0 → φ p.1 ∈ Live m)
    (H H' : Disc K N F M × Cont K F S M nG → ℝ≥0∞) (hH : ∀ y ∈ Live m, H y = H' y) :
    (Law.ofRand l fun a => H (φ a)) = Law.ofRand l fun a => H' (φ a) := by
  unfold Law.ofRand
  congr 1
  refine List.map_congr_left fun p hp => ?_
  by_cases h0 : p.2 = 0
  · rw [h0, ENNReal.ofReal_zero, zero_mul, zero_mul]
  · dsimp only
    rw [hH _ (h p hp h0)]

theorem OpOn.mix {α : Type} {l : Rand α} (hl : IsDist l) {T : α → Law (Disc K N F M × Cont K F S M nG)} (h : ∀ a ∈ l, OpOn m (T a.1)) :
    OpOn m (Law.bind (Law.ofRand l) T) := by
  refine ⟨mix_mass hl fun a ha => (h a ha).mass, isMeas_mix l T fun a ha => (h a ha).meas, ?_, fun H H' hH => ?_⟩
  · show (Law.ofRand l fun a => T a ((Live m)ᶜ.indicator 1)) = 0
    unfold Law.ofRand
    refine List.sum_eq_zero fun y hy => ?_
    obtain ⟨p, hp, rfl⟩ := List.mem_map.mp hy
    dsimp only
    rw [(h p hp).stay, mul_zero]
  · show (Law.ofRand l fun a => T a H) = Law.ofRand l fun a => T a H'
    unfold Law.ofRand
    congr 1
    refine List.map_congr_left fun p hp => ?_
    dsimp only
    rw [(h p hp).loc H H' hH]

theorem effect_on (hm : WellPosed m) (q : EBlk K M nG) {x : Disc K N F M × Cont K F S M nG} (hx : x ∈ Live m) :
    OpOn m (effectMove m (effLens q) (effAlpha m q) x) := by
  obtain ⟨d, c⟩ := x
  refine ⟨effectMove_mass hm _ _ (fun d f s h => effAlpha_pos hm q d f s h) _, effectMove_isMeas _ _ _, ?_, fun H H' hH => ?_⟩
  swap
  · rw [effectMove_op, effectMove_op]
    exact lintegral_congr_ae ((effResample_stays hm q d c hx.2).mono fun e he => hH _ ⟨hx.1, he⟩)
  rw [effectMove_op]
  refine Move.op_zero (effResample_stays hm q d) (fun c' hc' => ?_) hx.2
  exact Set.indicator_of_notMem (show (d, c') ∉ (Live m)ᶜ from fun h => h ⟨hx.1, hc'⟩) _

theorem weights_on {ij : Fin (M + 1) × Fin (M + 1)} (hij : ij.1 ≠ ij.2) {x : Disc K N F M × Cont K F S M nG} (hx : x ∈ Live m) :
    OpOn m (weightsMove m ij x) := by
  obtain ⟨d, c⟩ := x
  have hp : ∀ f, IsProbabilityMeasure (shareLaw m d ij f) := fun f => shareLaw_prob d ij f
  have hae : ∀ᵐ a ∂Measure.pi (fun f => shareLaw m d ij f), ∀ f, a f ∈ Set.Ioo (0 : ℝ) 1 := by
    rw [ae_all_iff]
    intro f
    have h1 : ∀ᵐ t ∂shareLaw m d ij f, t ∈ Set.Ioo (0 : ℝ) 1 := (shareLaw_ac d ij f).ae_le (ae_restrict_mem measurableSet_Ioo)
    exact (Measure.quasiMeasurePreserving_eval (fun f => shareLaw m d ij f) f).ae h1
  have hin : ∀ᵐ a ∂Measure.pi (fun f => shareLaw m d ij f), ∀ u, (d, resplitOn (· ∈ (accepted m d ij c a u).toList) c ij.2 ij.1 a) ∈ Live m := by
    refine hae.mono fun a ha u => ⟨hx.1, ⟨fun f => ?_, hx.2.e, hx.2.ce⟩⟩
    show Row Finset.univ (if f ∈ (accepted m d ij c a u).toList then Effects.along (c.1 f) ij.2 ij.1 (a f) else c.1 f)
    split
    · exact (hx.2.w f).along (Finset.mem_univ _) (Finset.mem_univ _) hij.symm (ha f)
    · exact hx.2.w f
  have hloc : ∀ H H' : Disc K N F M × Cont K F S M nG → ℝ≥0∞, (∀ y ∈ Live m, H y = H' y) → weightsMove m ij (d, c) H = weightsMove m ij (d, c) H' := by
    intro H H' hH
    rw [weightsMove_accepted hij d hx.2.w, weightsMove_accepted hij d hx.2.w]
    exact lintegral_congr_ae (hin.mono fun a ha => lintegral_congr fun u => hH _ (ha u))
  refine ⟨weightsMove_mass ij _, weightsMove_isMeas ij _, ?_, hloc⟩
  rw [hloc _ 0 fun y hy => Set.indicator_of_notMem (show y ∉ (Live m)ᶜ from fun h => h hy) _, weightsMove_accepted hij d hx.2.w]
  simp

theorem op_on (hm : WellPosed m) (hs : m.cfg.sampleSource = true) (op : OpKind M) {x : Disc K N F M × Cont K F S M nG} (hx : x ∈ Live m) :
    OpOn m (mhStep (Kernel.post m) (propose m op) x) := by
  obtain ⟨d, c⟩ := x
  obtain ⟨hd, hc⟩ := hx
  cases op with
  | cluster v =>
    cases v
    · obtain ⟨h0, h⟩ := cluster_step hm hs (clusterOp_false hm) hc
      obtain ⟨h1, h2⟩ := h d hd
      exact ⟨(h2 1).trans (ofRand_mass h1), (isMeas_ofRand _ fun d => (d, c)).congr fun g _ => h2 g,
        (h2 _).trans (ofRand_live fun p hp hne => ⟨step_good h0 hd hp hne, hc⟩), fun H H' hH =>
          (h2 H).trans ((ofRand_local (φ := fun d => (d, c)) (fun p hp hne => ⟨step_good h0 hd hp hne, hc⟩) H H' hH).trans (h2 H').symm)⟩
    · obtain ⟨h0, h⟩ := cluster_step hm hs (clusterOp_true hm) hc
      obtain ⟨h1, h2⟩ := h d hd
      exact ⟨(h2 1).trans (ofRand_mass h1), (isMeas_ofRand _ fun d => (d, c)).congr fun g _ => h2 g,
        (h2 _).trans (ofRand_live fun p hp hne => ⟨step_good h0 hd hp hne, hc⟩), fun H H' hH =>
          (h2 H).trans ((ofRand_local (φ := fun d => (d, c)) (fun p hp hne => ⟨step_good h0 hd hp hne, hc⟩) H H' hH).trans (h2 H').symm)⟩
  | source =>
    obtain ⟨r, hr, ⟨-, hst⟩, hg⟩ := source_step hm hs hc hd.1 d.2
    exact ⟨(hg 1).trans (ofRand_mass hr), (isMeas_ofRand r fun t => ((d.1, t), c)).congr fun g _ => hg g,
      (hg _).trans (ofRand_live (φ := fun t => ((d.1, t), c)) fun p hp hne => ⟨hst p hp hne, hc⟩), fun H H' hH =>
        (hg H).trans ((ofRand_local (φ := fun t => ((d.1, t), c)) (fun p hp hne => ⟨hst p hp hne, hc⟩) H H' hH).trans (hg H').symm)⟩
  | weights =>
    exact OpOn.mix (pair_weights hm.hasConfounder) (T := fun ij => weightsMove m ij (d, c)) fun ij hij =>
      weights_on (samplePair_mem hij).2.2 ⟨hd, hc⟩
  | clusterEffect =>
    exact OpOn.mix (uniform_fin_dist hm.hasCluster) (T := fun k => effectMove m (eLens k) (fun d =>
      gibbsAlpha (fun _ _ => 1) (attributedCounts m.d.features (sourceArray d.2) 0 (d.1 k))) (d, c)) fun k _ =>
        effect_on hm (.inl k.1) ⟨hd, hc⟩
  | confounding i =>
    exact OpOn.mix (uniform_fin_dist (hm.hasGroup i)) (T := fun g => effectMove m (ceLens i g) (fun d =>
      gibbsAlpha (concentration (m.cfg.conf i g)) (attributedCounts m.d.features (sourceArray d.2) i.succ (m.d.confGroups i g))) (d, c))
        fun g _ => effect_on hm (.inr ⟨i, g.1⟩) ⟨hd, hc⟩

theorem chain_on (hm : WellPosed m) (hs : m.cfg.sampleSource = true) {ops : List (OpKind M × ℝ)} (hd : IsDist ops)
    {x : Disc K N F M × Cont K F S M nG} (hx : x ∈ Live m) : OpOn m (chainStep (Kernel.post m) (propose m) ops x) :=
  OpOn.mix hd (T := fun op => mhStep (Kernel.post m) (propose m op) x) fun o _ => op_on hm hs o.1 hx

theorem chain_rep (hm : WellPosed m) (hs : m.cfg.sampleSource = true) {ops : List (OpKind M × ℝ)} (hd : IsDist ops) :
    ∃ κ : ProbabilityTheory.Kernel (Disc K N F M × Cont K F S M nG) (Disc K N F M × Cont K F S M nG),
      ProbabilityTheory.IsMarkovKernel κ ∧ RepOn (Live m) (chainStep (Kernel.post m) (propose m) ops) κ :=
  exists_kernel_on (live_meas m) (fun g hg => (keeps_chain hm hs hd g hg).1) (fun _ hx => (chain_on hm hs hd hx).mass)
    (fun _ hx => (chain_on hm hs hd hx).meas) (fun _ hx => (chain_on hm hs hd hx).stay) fun _ hx => (chain_on hm hs hd hx).loc

theorem chain_noEscape (hm : WellPosed m) (hs : m.cfg.sampleSource = true) {ops : List (OpKind M × ℝ)} (hd : IsDist ops)
    (hw : ∃ p, (OpKind.weights, p) ∈ ops ∧ 0 < p) (he : ∃ p, (OpKind.clusterEffect, p) ∈ ops ∧ 0 < p)
    (hce : ∀ i, ∃ p, (OpKind.confounding i, p) ∈ ops ∧ 0 < p)
    {κ : ProbabilityTheory.Kernel (Disc K N F M × Cont K F S M nG) (Disc K N F M × Cont K F S M nG)}
    (hR : RepOn (Live m) (chainStep (Kernel.post m) (propose m) ops) κ) : NoEscape (target m Prod.fst (Kernel.post m)) (Live m) κ := by
  intro s hsm hs1 hsub h0 x hx
  obtain ⟨d, c⟩ := x
  refine subharmonic_zero hm hs hd hw he hce hsm hs1 (fun d hd c hc => ?_) h0 d hx.1 c hx.2
  rw [hR.rep (d, c) ⟨hd, hc⟩ s s hsm fun _ _ => rfl]
  exact hsub (d, c) ⟨hd, hc⟩

end SBayes.Meas
