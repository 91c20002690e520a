import Verif.Lemmas.Reorder
import Verif.Lemmas.SamplerDisc
/- The uniform distributions and the posterior distribution in another order. -/
namespace SBayes.Reorder
open SBayes.Lik SBayes.Prior SBayes.Clusters SBayes.Effects SBayes.Posterior SBayes.Kernel SBayes.Draws SBayes.Meas MeasureTheory
open scoped BigOperators ENNReal

/-- Reordering the coordinates, and mapping each one. -/
theorem mp_pi {ι ι' : Type} [Fintype ι] [Fintype ι'] {α : ι → Type} {β : ι' → Type} [∀ i, MeasurableSpace (α i)]
    [∀ i, MeasurableSpace (β i)] (μ : (i : ι) → Measure (α i)) (ν : (i : ι') → Measure (β i)) [∀ i, SigmaFinite (μ i)]
    [∀ i, SigmaFinite (ν i)] (e : ι' ≃ ι) (g : (i : ι') → α (e i) → β i) (hg : ∀ i, MeasurePreserving (g i) (μ (e i)) (ν i)) :
    MeasurePreserving (fun (x : (i : ι) → α i) (i : ι') => g i (x (e i))) (Measure.pi μ) (Measure.pi ν) := by
  have h1 := (measurePreserving_piCongrLeft μ e).symm
  have h2 := measurePreserving_pi (fun i => μ (e i)) ν hg
  exact h2.comp h1

theorem normalize_perm {ι : Type} [Fintype ι] (σ : Equiv.Perm ι) (x : ι → ℝ) :
    normalize (fun i => x (σ i)) = fun i => normalize x (σ i) := by
  funext i
  unfold Effects.normalize
  rw [Equiv.sum_comp σ]

/-- The uniform distribution on probability vectors, in another order. -/
theorem mp_uniformSimplex {ι : Type} [Fintype ι] [DecidableEq ι] (σ : Equiv.Perm ι) {A A' : Finset ι} (h : A'.map σ.toEmbedding = A) :
    MeasurePreserving (fun (x : ι → ℝ) i => x (σ i)) (uniformSimplex A) (uniformSimplex A') := by
  refine ⟨by fun_prop, ?_⟩
  have hm : ∀ i, (σ i ∈ A) = (i ∈ A') := by
    intro i
    rw [← h, eq_iff_iff, Finset.mem_map]
    exact ⟨by rintro ⟨j, hj, e⟩; exact σ.injective e ▸ hj, fun hi => ⟨i, hi, rfl⟩⟩
  have hne : A.Nonempty ↔ A'.Nonempty := by rw [← h, Finset.map_nonempty]
  have hg : ∀ i, gammaEntry A (fun _ => 1) (σ i) = gammaEntry A' (fun _ => 1) i := by
    intro i; unfold gammaEntry; simp only [hm]
  have hpi := mp_pi (gammaEntry A fun _ => 1) (gammaEntry A' fun _ => 1) σ (fun _ x => x) fun i => by
    rw [hg]; exact MeasurePreserving.id _
  unfold uniformSimplex dirichletLaw
  by_cases hA : A.Nonempty
  · rw [if_pos ⟨hA, by simp⟩, if_pos ⟨hne.1 hA, by simp⟩, Measure.map_map (by fun_prop) measurable_normalize, ← hpi.map_eq,
      Measure.map_map measurable_normalize (by fun_prop)]
    congr 1
    funext x
    exact (normalize_perm σ x).symm
  · rw [if_neg (fun h => hA h.1), if_neg (fun h => hA (hne.2 h.1)), Measure.map_zero]

variable {K N F S M : ℕ} {nG nG' : Fin M → ℕ} (r : Reordering K N F S M nG nG')

theorem mp_table (app : Fin F → Fin S → Bool) :
    MeasurePreserving (r.table (α := ℝ)) (Measure.pi fun f => uniformSimplex (states app f))
      (Measure.pi fun f => uniformSimplex (states (r.table app) f)) :=
  mp_pi (α := fun _ => Fin S → ℝ) (β := fun _ => Fin S → ℝ) (fun f => uniformSimplex (states app f))
    (fun f => uniformSimplex (states (r.table app) f)) r.feat (fun f x s => x (r.state f s)) fun f => mp_uniformSimplex (r.state f) (states_reorder r app f)

theorem mp_cont (app : Fin F → Fin S → Bool) :
    MeasurePreserving r.cont (contRef app : Measure (Cont K F S M nG)) (contRef (r.table app) : Measure (Cont K F S M nG')) := by
  have h1 : MeasurePreserving r.weights (Measure.pi fun _ : Fin F => uniformSimplex (Finset.univ : Finset (Fin (M + 1))))
      (Measure.pi fun _ : Fin F => uniformSimplex (Finset.univ : Finset (Fin (M + 1)))) :=
    mp_pi (α := fun _ => Fin (M + 1) → ℝ) (β := fun _ => Fin (M + 1) → ℝ) (fun _ => uniformSimplex Finset.univ)
      (fun _ => uniformSimplex Finset.univ) r.feat (fun _ x i => x (r.comp i)) fun _ => mp_uniformSimplex r.comp (by simp)
  have h2 : MeasurePreserving r.clusterEffect (Measure.pi fun _ : Fin K => Measure.pi fun f => uniformSimplex (states app f))
      (Measure.pi fun _ : Fin K => Measure.pi fun f => uniformSimplex (states (r.table app) f)) :=
    mp_pi (fun _ => Measure.pi fun f => uniformSimplex (states app f)) (fun _ => Measure.pi fun f => uniformSimplex (states (r.table app) f))
      r.clus (fun _ => r.table) fun _ => mp_table r app
  have h3 : MeasurePreserving r.confEffect
      (Measure.pi fun c => Measure.pi fun _ : Fin (nG c) => Measure.pi fun f => uniformSimplex (states app f))
      (Measure.pi fun c => Measure.pi fun _ : Fin (nG' c) => Measure.pi fun f => uniformSimplex (states (r.table app) f)) :=
    mp_pi (fun c => Measure.pi fun _ : Fin (nG c) => Measure.pi fun f => uniformSimplex (states app f))
      (fun c => Measure.pi fun _ : Fin (nG' c) => Measure.pi fun f => uniformSimplex (states (r.table app) f)) r.conf
      (fun c x g => r.table (x (r.group c g))) fun c =>
      mp_pi (fun _ => Measure.pi fun f => uniformSimplex (states app f)) _ (r.group c) (fun _ => r.table) fun _ => mp_table r app
  exact h1.prod (h2.prod h3)

/-- The clusters in the new order, back and forth. -/
def clustersEquiv : Clus K N ≃ Clus K N where
  toFun := r.clusters
  invFun z := fun k n => z (r.clus.symm k) (r.obj.symm n)
  left_inv z := by funext k n; simp [Reordering.clusters]
  right_inv z := by funext k n; simp [Reordering.clusters]

/-- The discrete parameters in the new order, back and forth. -/
def discEquiv : Disc K N F M ≃ Disc K N F M where
  toFun := r.disc
  invFun x := ((clustersEquiv r).symm x.1, fun y => r.comp (x.2 (r.obj.symm y.1, r.feat.symm y.2)))
  left_inv x := by
    refine Prod.ext ((clustersEquiv r).left_inv x.1) ?_
    funext y; simp [Reordering.disc, Reordering.source]
  right_inv x := by
    refine Prod.ext ((clustersEquiv r).right_inv x.1) ?_
    funext y; simp [Reordering.disc, Reordering.source]

theorem valid_reorder {lo hi : ℕ} (z : Clus K N) : Valid lo hi (r.clusters z) ↔ Valid lo hi z := by
  have hs : ∀ k, size (r.clusters z k) = size (z (r.clus k)) := by
    intro k
    refine Finset.card_bij (fun n _ => r.obj n) ?_ (fun _ _ _ _ e => r.obj.injective e) fun n hn => ⟨r.obj.symm n, ?_, by simp⟩
    · intro n hn; exact Finset.mem_filter.2 ⟨Finset.mem_univ _, (Finset.mem_filter.1 hn).2⟩
    · exact Finset.mem_filter.2 ⟨Finset.mem_univ _, by simpa [Reordering.clusters] using (Finset.mem_filter.1 hn).2⟩
  constructor
  · intro h
    refine ⟨fun a b n hn hn' => ?_, fun k => ?_, fun k => ?_⟩
    · have := h.disjoint (r.clus.symm a) (r.clus.symm b) (r.obj.symm n) (by simpa [Reordering.clusters] using hn)
        (by simpa [Reordering.clusters] using hn')
      simpa using this
    · have := h.lower (r.clus.symm k)
      rw [hs] at this; simpa using this
    · have := h.upper (r.clus.symm k)
      rw [hs] at this; simpa using this
  · intro h
    refine ⟨fun a b n hn hn' => r.clus.injective (h.disjoint _ _ _ hn hn'), fun k => ?_, fun k => ?_⟩
    · rw [hs]; exact h.lower _
    · rw [hs]; exact h.upper _

variable {D : Type} [Fintype D] [MeasurableSpace D] [MeasurableSingletonClass D]

/-- The posterior distribution in the new order is the image of the posterior distribution. -/
theorem target_reorder {m : Setup K N F S M nG} {m' : Setup K N F S M nG'} (h : SameSetup r m m') {clusters clusters' : D → Clus K N}
    {p : D × Cont K F S M nG → ℝ} {p' : D × Cont K F S M nG' → ℝ} (e : D ≃ D) (hcl : ∀ d, clusters' (e d) = r.clusters (clusters d))
    (hp : ∀ d, Measurable fun c => p (d, c)) (hp' : ∀ d, Measurable fun c => p' (d, c))
    (heq : ∀ d c, Valid m.cl.minSize m.cl.maxSize (clusters d) → p' (e d, r.cont c) = p (d, c)) :
    MeasurePreserving (fun x : D × Cont K F S M nG => (e x.1, r.cont x.2)) (target m clusters p) (target m' clusters' p') := by
  have hc : Measurable r.cont := (mp_cont r m.cfg.app).measurable
  have hm : Measurable fun x : D × Cont K F S M nG => (e x.1, r.cont x.2) :=
    ((measurable_of_finite e).comp measurable_fst).prodMk (hc.comp measurable_snd)
  refine ⟨hm, Measure.ext_of_lintegral _ fun f hf => ?_⟩
  rw [lintegral_map hf hm, lintegral_target hp (f := fun x => f (e x.1, r.cont x.2)) (hf.comp hm), lintegral_target hp' hf]
  refine Eq.trans ?_ (Equiv.sum_comp e _)
  refine Finset.sum_congr rfl fun d _ => ?_
  rw [h.cfg.app, ← (mp_cont r m.cfg.app).map_eq,
    lintegral_map (f := fun c => dens m' clusters' p' (e d) c * f (e d, c))
      ((measurable_dens hp' _).mul (hf.comp (measurable_const.prodMk measurable_id))) hc]
  refine lintegral_congr fun c => ?_
  by_cases hv : Valid m.cl.minSize m.cl.maxSize (clusters d)
  · rw [dens_valid hv, dens_valid (by rw [h.minSize, h.maxSize, hcl, valid_reorder]; exact hv), heq d c hv]
  · rw [dens_invalid hv, dens_invalid (by rw [h.minSize, h.maxSize, hcl, valid_reorder]; exact hv), zero_mul]

end SBayes.Reorder
