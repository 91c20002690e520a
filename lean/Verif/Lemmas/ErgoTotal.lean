import Verif.Lemmas.ErgoSource
/- The sampler with sources: total mass, and sets that all operators respect. -/
namespace SBayes.Meas
set_option linter.unusedSectionVars false
open SBayes.Lik SBayes.Clusters SBayes.MH SBayes.Source SBayes.Effects SBayes.Posterior SBayes.Draws SBayes.Kernel MeasureTheory
open scoped BigOperators ENNReal

variable {K N F S M C G : ℕ} {nG : Fin M → ℕ} {m : Setup K N F S M nG}

theorem mix_mass {α X : Type} {l : Rand α} (hl : IsDist l) {T : α → Law X} (h : ∀ a ∈ l, T a.1 1 = 1) :
    (Law.bind (Law.ofRand l) T) 1 = 1 := by
  unfold Law.bind Law.ofRand
  rw [← ofRand_one hl]
  congr 1
  refine List.map_congr_left fun a ha => ?_
  show ENNReal.ofReal a.2 * T a.1 1 = ENNReal.ofReal a.2
  rw [h a ha, mul_one]

theorem alphaE_pos (d : Disc K N F M) (k : Fin K) (f : Fin F) (s : Fin S) :
    0 < gibbsAlpha (fun _ _ => 1) (attributedCounts m.d.features (sourceArray d.2) 0 (d.1 k)) f s := by
  have := counts_nonneg m.d.features (sourceArray d.2) 0 (d.1 k) f s
  unfold gibbsAlpha
  linarith

theorem alphaCE_pos (hm : WellPosed m) (d : Disc K N F M) (i : Fin M) (g : Fin (nG i)) (f : Fin F) (s : Fin S)
    (happ : m.cfg.app f s = true) :
    0 < gibbsAlpha (concentration (m.cfg.conf i g)) (attributedCounts m.d.features (sourceArray d.2) i.succ (m.d.confGroups i g)) f s := by
  have h0 := counts_nonneg m.d.features (sourceArray d.2) i.succ (m.d.confGroups i g) f s
  have h1 : 0 < concentration (m.cfg.conf i g) f s := by
    unfold concentration
    rcases hc : m.cfg.conf i g with _ | a
    · exact one_pos
    · exact hm.conc i g a hc f s happ
  unfold gibbsAlpha
  linarith

theorem effectMove_mass (hm : WellPosed m) (L : Lens (Cont K F S M nG) (Fin F → Fin S → ℝ))
    (alpha : Disc K N F M → Fin F → Fin S → ℝ) (ha : ∀ d f s, m.cfg.app f s = true → 0 < alpha d f s)
    (x : Disc K N F M × Cont K F S M nG) : effectMove m L alpha x 1 = 1 := by
  have hp : ∀ f, IsProbabilityMeasure (dirichletLaw (states m.cfg.app f) (alpha x.1 f)) := fun f => by
    obtain ⟨s, hs⟩ := hm.hasState f
    exact dirichletLaw_prob ⟨s, mem_states.mpr hs⟩ fun s hs => ha x.1 f s (mem_states.mp hs)
  rw [← Prod.mk.eta (p := x), effectMove_eq]
  simp

theorem weightsMove_mass (ij : Fin (M + 1) × Fin (M + 1)) (x : Disc K N F M × Cont K F S M nG) : weightsMove m ij x 1 = 1 := by
  have hu : IsProbabilityMeasure uniform01 := ⟨by unfold uniform01; simp⟩
  have hbeta : ∀ f : Fin F, IsProbabilityMeasure (betaLaw
      (1 + pairCounts (sourceArray x.1.2) (hasComponents m.d x.1.1) ij.1 ij.2 f ij.2)
      (1 + pairCounts (sourceArray x.1.2) (hasComponents m.d x.1.1) ij.1 ij.2 f ij.1)) := fun f =>
    ProbabilityTheory.isProbabilityMeasureBeta (counts_pos _ _ _ _ _ _) (counts_pos _ _ _ _ _ _)
  rw [← Prod.mk.eta (p := x), weightsMove_eq]
  simp

/-- An operator always has a result. -/
theorem op_mass (hm : WellPosed m) (hs : m.cfg.sampleSource = true) (op : MCMC.OpKind M) :
    ∀ᵐ x ∂target m Prod.fst (Kernel.post m), mhStep (Kernel.post m) (propose m op) x 1 = 1 := by
  cases op with
  | cluster v =>
    rw [ae_target hm hs]
    intro d hd
    filter_upwards [interior_ae hm.hasState] with c hc
    cases v
    · obtain ⟨h1, h2⟩ := (cluster_step hm hs (clusterOp_false hm) hc).2 d hd
      exact (h2 1).trans (ofRand_mass h1)
    · obtain ⟨h1, h2⟩ := (cluster_step hm hs (clusterOp_true hm) hc).2 d hd
      exact (h2 1).trans (ofRand_mass h1)
  | source =>
    rw [ae_target hm hs]
    intro d hd
    filter_upwards [interior_ae hm.hasState] with c hc
    obtain ⟨r, hr, -, hg⟩ := source_step hm hs hc hd.1 d.2
    exact (hg 1).trans (ofRand_mass hr)
  | weights =>
    refine ae_of_all _ fun x => ?_
    exact mix_mass (pair_weights hm.hasConfounder) (T := fun ij => weightsMove m ij x) fun ij _ => weightsMove_mass ij.1 x
  | clusterEffect =>
    refine ae_of_all _ fun x => ?_
    exact mix_mass (uniform_fin_dist hm.hasCluster) (T := fun k => effectMove m (eLens k) (fun d =>
      gibbsAlpha (fun _ _ => 1) (attributedCounts m.d.features (sourceArray d.2) 0 (d.1 k))) x) fun k _ =>
        effectMove_mass hm _ _ (fun d f s _ => alphaE_pos d k.1 f s) x
  | confounding i =>
    refine ae_of_all _ fun x => ?_
    exact mix_mass (uniform_fin_dist (hm.hasGroup i)) (T := fun g => effectMove m (ceLens i g) (fun d =>
      gibbsAlpha (concentration (m.cfg.conf i g)) (attributedCounts m.d.features (sourceArray d.2) i.succ (m.d.confGroups i g))) x)
        fun g _ => effectMove_mass hm _ _ (fun d f s h => alphaCE_pos hm d i g.1 f s h) x

/-- A set that every operator respects is trivial. -/
theorem ops_triv (hm : WellPosed m) (hs : m.cfg.sampleSource = true) (hN : K * m.cl.minSize < N)
    {A : Set (Disc K N F M × Cont K F S M nG)} (hA : MeasurableSet A)
    (hcl : Splits (target m Prod.fst (Kernel.post m)) (mhStep (Kernel.post m) (propose m (.cluster true))) A)
    (hso : Splits (target m Prod.fst (Kernel.post m)) (mhStep (Kernel.post m) (propose m .source)) A)
    (hw : Splits (target m Prod.fst (Kernel.post m)) (mhStep (Kernel.post m) (propose m .weights)) A)
    (he : Splits (target m Prod.fst (Kernel.post m)) (mhStep (Kernel.post m) (propose m .clusterEffect)) A)
    (hce : ∀ i, Splits (target m Prod.fst (Kernel.post m)) (mhStep (Kernel.post m) (propose m (.confounding i))) A) :
    (∀ᵐ x ∂target m Prod.fst (Kernel.post m), x ∈ A) ∨ ∀ᵐ x ∂target m Prod.fst (Kernel.post m), x ∉ A := by
  classical
  have hw' : ∀ ij : Fin (M + 1) × Fin (M + 1), ij.1 ≠ ij.2 → Splits (target m Prod.fst (Kernel.post m)) (weightsMove m ij) A := by
    intro ij hij
    have hmem : ij ∈ ((List.finRange (M + 1)).product (List.finRange (M + 1))).filter fun p => decide (p.1 ≠ p.2) := by
      rw [List.mem_filter]
      exact ⟨List.pair_mem_product.mpr ⟨List.mem_finRange _, List.mem_finRange _⟩, by simpa using hij⟩
    refine Splits.of_mix (T := fun ij x => weightsMove m ij x) (l := samplePair (List.finRange (M + 1))) hw
      (a := ij) (List.mem_map.mpr ⟨ij, hmem, rfl⟩) ?_
    have := List.length_pos_of_mem hmem
    positivity
  have he' : ∀ k : Fin K, Splits (target m Prod.fst (Kernel.post m)) (effectMove m (eLens k) fun d =>
      gibbsAlpha (fun _ _ => 1) (attributedCounts m.d.features (sourceArray d.2) 0 (d.1 k))) A := by
    intro k
    refine Splits.of_mix (T := fun k x => effectMove m (eLens k) (fun d =>
      gibbsAlpha (fun _ _ => 1) (attributedCounts m.d.features (sourceArray d.2) 0 (d.1 k))) x) (l := uniform (List.finRange K)) he
      (a := k) (List.mem_map.mpr ⟨k, List.mem_finRange k, rfl⟩) ?_
    have := List.length_pos_of_mem (List.mem_finRange k)
    positivity
  have hce' : ∀ i (g : Fin (nG i)), Splits (target m Prod.fst (Kernel.post m)) (effectMove m (ceLens i g) fun d =>
      gibbsAlpha (concentration (m.cfg.conf i g)) (attributedCounts m.d.features (sourceArray d.2) i.succ (m.d.confGroups i g))) A := by
    intro i g
    refine Splits.of_mix (T := fun g x => effectMove m (ceLens i g) (fun d =>
      gibbsAlpha (concentration (m.cfg.conf i g)) (attributedCounts m.d.features (sourceArray d.2) i.succ (m.d.confGroups i g))) x)
      (l := uniform (List.finRange (nG i))) (hce i) (a := g) (List.mem_map.mpr ⟨g, List.mem_finRange g, rfl⟩) ?_
    have := List.length_pos_of_mem (List.mem_finRange g)
    positivity
  have htriv : ∀ d, Good m d → Triv (contRef m.cfg.app) {c | (d, c) ∈ A} := fun d hd =>
    triv_contRef hm.hasState (measurableSet_fibre hA d) (fun f => weights_triv hm hs hA hw' hd f)
      (fun k => effect_triv hm hs (eLens k) _ (fun d f s _ => alphaE_pos d k f s) (fun c hc => hc.e k) hA (he' k) hd)
      (fun i g => effect_triv hm hs (ceLens i g) _ (fun d f s h => alphaCE_pos hm d i g f s h) (fun c hc => hc.ce i g) hA (hce' i g) hd)
  have hagree : ∀ᵐ c ∂contRef m.cfg.app, ∀ d d', Good m d → Good m d' → (d, c) ∈ A → (d', c) ∈ A := by
    have h1 : ∀ᵐ c ∂contRef m.cfg.app, ∀ d, Good m d → (d, c) ∈ A →
        mhStep (Kernel.post m) (propose m .source) (d, c) (Aᶜ.indicator 1) = 0 := by
      rw [ae_all_iff]
      intro d
      by_cases hd : Good m d
      · exact ((ae_target hm hs).mp hso.stay d hd).mono fun c h _ => h
      · exact ae_of_all _ fun c h => absurd h hd
    have h2 : ∀ᵐ c ∂contRef m.cfg.app, ∀ d, Good m d → (d, c) ∈ A →
        mhStep (Kernel.post m) (propose m (.cluster true)) (d, c) (Aᶜ.indicator 1) = 0 := by
      rw [ae_all_iff]
      intro d
      by_cases hd : Good m d
      · exact ((ae_target hm hs).mp hcl.stay d hd).mono fun c h _ => h
      · exact ae_of_all _ fun c h => absurd h hd
    filter_upwards [h1, h2, interior_ae hm.hasState] with c h1 h2 hc d d' hd hd' hmem
    exact disc_const hm hs hN hc h1 h2 hd hd' hmem
  simp only [ae_target hm hs]
  by_cases hex : ∃ d, Good m d ∧ ∀ᵐ c ∂contRef m.cfg.app, c ∈ {c | (d, c) ∈ A}
  · obtain ⟨d, hd, hc⟩ := hex
    left
    intro d' hd'
    filter_upwards [hc, hagree] with c h1 h2 using h2 d d' hd hd' h1
  · right
    intro d hd
    rcases htriv d hd with h | h
    · exact absurd ⟨d, hd, h⟩ hex
    · exact h

end SBayes.Meas
