import Verif.Lemmas.Thin
import Verif.Props.Ergodic
/- The chain with sources is a Markov kernel, and is lazy. -/
namespace SBayes.Meas
set_option linter.unusedSectionVars false
open SBayes.Lik SBayes.Clusters SBayes.MH SBayes.Source SBayes.Effects SBayes.Posterior SBayes.Draws SBayes.Kernel SBayes.MCMC MeasureTheory
open scoped BigOperators ENNReal

variable {K N F S M C G : ℕ} {nG : Fin M → ℕ} {m : Setup K N F S M nG}

theorem effectMove_isMeas (L : Lens (Cont K F S M nG) (Fin F → Fin S → ℝ)) (alpha : Disc K N F M → Fin F → Fin S → ℝ)
    (x : Disc K N F M × Cont K F S M nG) : IsMeas (effectMove m L alpha x) := by
  obtain ⟨d, c⟩ := x
  have hφ : Measurable fun e => (d, L.set c (mergeRows m.cfg.app (L.get c) e)) :=
    measurable_const.prodMk ((meas_set_merge L).comp (measurable_const.prodMk measurable_id))
  exact (isMeas_map (Measure.pi fun f => dirichletLaw (states m.cfg.app f) (alpha d f)) hφ).congr fun g _ => effectMove_eq L alpha d c g

theorem weightsMove_isMeas (ij : Fin (M + 1) × Fin (M + 1)) (x : Disc K N F M × Cont K F S M nG) : IsMeas (weightsMove m ij x) := by
  obtain ⟨d, c⟩ := x
  have hu : IsProbabilityMeasure uniform01 := ⟨by unfold uniform01; simp⟩
  have hbeta : ∀ f : Fin F, IsProbabilityMeasure (betaLaw
      (1 + pairCounts (sourceArray d.2) (hasComponents m.d d.1) ij.1 ij.2 f ij.2)
      (1 + pairCounts (sourceArray d.2) (hasComponents m.d d.1) ij.1 ij.2 f ij.1)) := fun f =>
    ProbabilityTheory.isProbabilityMeasureBeta (counts_pos _ _ _ _ _ _) (counts_pos _ _ _ _ _ _)
  have hφ : Measurable fun z : (Fin F → ℝ) × (Fin F → ℝ) =>
      (d, (fun f => rowStep (sourceArray d.2) (hasComponents m.d d.1) ij.1 ij.2 f (c.1 f) (z.1 f) (z.2 f)), c.2) := by
    refine measurable_const.prodMk (Measurable.prodMk ?_ measurable_const)
    rw [measurable_pi_iff]
    intro f
    have : Measurable fun z : (Fin F → ℝ) × (Fin F → ℝ) => (c.1 f, z.1 f, z.2 f) := by fun_prop
    exact Measurable.comp (g := fun z : (Fin (M + 1) → ℝ) × ℝ × ℝ => rowStep (sourceArray d.2) (hasComponents m.d d.1) ij.1 ij.2 f
      z.1 z.2.1 z.2.2) (meas_rowStep _ _ _ _ f) this
  refine (isMeas_map ((Measure.pi fun f => betaLaw (1 + pairCounts (sourceArray d.2) (hasComponents m.d d.1) ij.1 ij.2 f ij.2)
        (1 + pairCounts (sourceArray d.2) (hasComponents m.d d.1) ij.1 ij.2 f ij.1)).prod (Measure.pi fun _ : Fin F => uniform01)) hφ).congr
    fun g hg => (weightsMove_eq ij d c g).trans ?_
  rw [lintegral_prod]
  exact (hg.comp hφ).aemeasurable

theorem op_isMeas (hm : WellPosed m) (hs : m.cfg.sampleSource = true) (op : MCMC.OpKind M) :
    ∀ᵐ x ∂target m Prod.fst (Kernel.post m), IsMeas (mhStep (Kernel.post m) (propose m op) x) := by
  cases op with
  | cluster v =>
    rw [ae_target hm hs]
    intro d hd
    filter_upwards [interior_ae hm.hasState] with c hc
    cases v
    · obtain ⟨h1, h2⟩ := (cluster_step hm hs (clusterOp_false hm) hc).2 d hd
      exact (isMeas_ofRand _ fun d => (d, c)).congr fun g _ => h2 g
    · obtain ⟨h1, h2⟩ := (cluster_step hm hs (clusterOp_true hm) hc).2 d hd
      exact (isMeas_ofRand _ fun d => (d, c)).congr fun g _ => h2 g
  | source =>
    rw [ae_target hm hs]
    intro d hd
    filter_upwards [interior_ae hm.hasState] with c hc
    obtain ⟨r, hr, -, hg⟩ := source_step hm hs hc hd.1 d.2
    exact (isMeas_ofRand r fun t => ((d.1, t), c)).congr fun g _ => hg g
  | weights =>
    refine ae_of_all _ fun x => ?_
    exact isMeas_mix _ (fun ij => weightsMove m ij x) fun ij _ => weightsMove_isMeas ij.1 x
  | clusterEffect =>
    refine ae_of_all _ fun x => ?_
    exact isMeas_mix _ (fun k => effectMove m (eLens k) (fun d =>
      gibbsAlpha (fun _ _ => 1) (attributedCounts m.d.features (sourceArray d.2) 0 (d.1 k))) x) fun k _ =>
        effectMove_isMeas _ _ x
  | confounding i =>
    refine ae_of_all _ fun x => ?_
    exact isMeas_mix _ (fun g => effectMove m (ceLens i g) (fun d =>
      gibbsAlpha (concentration (m.cfg.conf i g)) (attributedCounts m.d.features (sourceArray d.2) i.succ (m.d.confGroups i g))) x)
        fun g _ => effectMove_isMeas _ _ x

/-- What holds of every operator almost everywhere. -/
theorem ae_ops {π : Measure (Disc K N F M × Cont K F S M nG)} {P : OpKind M → Disc K N F M × Cont K F S M nG → Prop}
    (h : ∀ op, ∀ᵐ x ∂π, P op x) (ops : List (OpKind M × ℝ)) : ∀ᵐ x ∂π, ∀ o ∈ ops, P o.1 x := by
  induction ops with
  | nil => exact ae_of_all _ fun x o ho => absurd ho (by simp)
  | cons o l ih =>
    filter_upwards [h o.1, ih] with x h1 h2 o' ho'
    rcases List.mem_cons.mp ho' with rfl | h'
    · exact h1
    · exact h2 o' h'

theorem chain_kernel (hm : WellPosed m) (hs : m.cfg.sampleSource = true) {ops : List (OpKind M × ℝ)} (hd : IsDist ops) :
    ∃ κ : ProbabilityTheory.Kernel (Disc K N F M × Cont K F S M nG) (Disc K N F M × Cont K F S M nG),
      ProbabilityTheory.IsMarkovKernel κ ∧
        Represents (target m Prod.fst (Kernel.post m)) (chainStep (Kernel.post m) (propose m) ops) κ :=
  exists_kernel (keeps_chain hm hs hd) (chain_mass hm hs hd) ((ae_ops (op_isMeas hm hs) ops).mono fun x hx =>
    isMeas_mix ops (fun op => mhStep (Kernel.post m) (propose m op) x) hx)

theorem super_effectMove (L : Lens (Cont K F S M nG) (Fin F → Fin S → ℝ)) (alpha : Disc K N F M → Fin F → Fin S → ℝ)
    (x : Disc K N F M × Cont K F S M nG) : Super (effectMove m L alpha x) :=
  Super.mhStep ((Super.draw _).bind fun _ => Super.ret _)

theorem effectMove_idem (hm : WellPosed m) (L : Lens (Cont K F S M nG) (Fin F → Fin S → ℝ)) (alpha : Disc K N F M → Fin F → Fin S → ℝ)
    (ha : ∀ d f s, m.cfg.app f s = true → 0 < alpha d f s) (x : Disc K N F M × Cont K F S M nG)
    (g : Disc K N F M × Cont K F S M nG → ℝ≥0∞) :
    effectMove m L alpha x (fun y => effectMove m L alpha y g) = effectMove m L alpha x g := by
  obtain ⟨d, c⟩ := x
  have hp : ∀ f, IsProbabilityMeasure (dirichletLaw (states m.cfg.app f) (alpha d f)) := fun f => by
    obtain ⟨s, hs⟩ := hm.hasState f
    exact dirichletLaw_prob ⟨s, mem_states.mpr hs⟩ fun s hs => ha d f s (mem_states.mp hs)
  have e : ∀ t, effectMove m L alpha (d, L.set c (mergeRows m.cfg.app (L.get c) t)) g = effectMove m L alpha (d, c) g := by
    intro t
    rw [effectMove_eq, effectMove_eq]
    refine lintegral_congr fun u => ?_
    rw [L.get_set, L.set_set, merge_merge]
  rw [effectMove_eq]
  simp only [e]
  rw [lintegral_const, measure_univ, mul_one]

theorem mem_le_ofRand {α : Type} {l : Rand α} {a : α × ℝ} (h : a ∈ l) (g : α → ℝ≥0∞) : ENNReal.ofReal a.2 * g a.1 ≤ Law.ofRand l g :=
  List.single_le_sum (fun _ _ => bot_le) _ (List.mem_map.mpr ⟨a, h, rfl⟩)

theorem chain_lazy (hm : WellPosed m) (hs : m.cfg.sampleSource = true) {ops : List (OpKind M × ℝ)} {p : ℝ}
    (hmem : (OpKind.clusterEffect, p) ∈ ops) (hp : 0 < p) :
    ∃ E w, Lazy (target m Prod.fst (Kernel.post m)) (chainStep (Kernel.post m) (propose m) ops) E w := by
  let k : Fin K := ⟨0, hm.hasCluster⟩
  have hk : (k, 1 / ((List.finRange K).length : ℝ)) ∈ uniform (List.finRange K) := List.mem_map.mpr ⟨k, List.mem_finRange k, rfl⟩
  have hlen : 0 < ((List.finRange K).length : ℝ) := by exact_mod_cast List.length_pos_of_mem (List.mem_finRange k)
  refine ⟨effectMove m (eLens k) fun d => gibbsAlpha (fun _ _ => 1) (attributedCounts m.d.features (sourceArray d.2) 0 (d.1 k)),
    ENNReal.ofReal p * ENNReal.ofReal (1 / ((List.finRange K).length : ℝ)), ?_, ?_, ?_, keeps_effectE hm hs k,
    fun x => super_effectMove _ _ x, ae_of_all _ fun x => effectMove_mass hm _ _ (fun d f s _ => alphaE_pos d k f s) x,
    fun x g => effectMove_idem hm _ _ (fun d f s _ => alphaE_pos d k f s) x g⟩
  · exact mul_ne_zero (ENNReal.ofReal_pos.mpr hp).ne' (ENNReal.ofReal_pos.mpr (by positivity)).ne'
  · exact ENNReal.mul_ne_top ENNReal.ofReal_ne_top ENNReal.ofReal_ne_top
  · intro x g
    rw [mul_assoc]
    have h1 := mem_le_ofRand hk fun k => effectMove m (eLens k) (fun d =>
      gibbsAlpha (fun _ _ => 1) (attributedCounts m.d.features (sourceArray d.2) 0 (d.1 k))) x g
    have h2 := mem_le_ofRand hmem fun op => mhStep (Kernel.post m) (propose m op) x g
    exact (mul_le_mul_right h1 _).trans h2

end SBayes.Meas
