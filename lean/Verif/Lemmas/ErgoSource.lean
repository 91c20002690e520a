import Verif.Lemmas.Ergo
import Verif.Lemmas.ErgoCont
import Verif.Props.Reach
/- Sets that the sampler cannot leave, with sources. -/
namespace SBayes.Meas
set_option linter.unusedSectionVars false
open SBayes.Lik SBayes.Clusters SBayes.MH SBayes.Source SBayes.Effects SBayes.Posterior SBayes.Draws SBayes.Kernel MeasureTheory
open scoped BigOperators ENNReal

variable {K N F S M C G : ℕ} {nG : Fin M → ℕ} {m : Setup K N F S M nG}

/-! ### States of positive posterior -/

/-- Clusters that satisfy the constraints, and sources that the objects have. -/
def Good (m : Setup K N F S M nG) (d : Disc K N F M) : Prop :=
  Valid m.cl.minSize m.cl.maxSize d.1 ∧ ∀ n f, hasComponents m.d d.1 n (d.2 (n, f)) = true

theorem post_zero (hm : WellPosed m) (hs : m.cfg.sampleSource = true) {d : Disc K N F M} (hv : Valid m.cl.minSize m.cl.maxSize d.1)
    (h : ¬ Good m d) (c : Cont K F S M nG) : Kernel.post m (d, c) = 0 := by
  have hhas : ¬ ∀ n f, hasComponents m.d d.1 n (d.2 (n, f)) = true := fun h' => h ⟨hv, h'⟩
  push Not at hhas
  obtain ⟨n, f, hnf⟩ := hhas
  have hnf' : hasComponents m.d d.1 n (d.2 (n, f)) = false := by simpa using hnf
  refine (post_eq hm hs hv d.2 c).trans ?_
  have : ∏ n, ∏ f, normalizeWeights c.1 (hasComponents m.d d.1) n f (d.2 (n, f)) = 0 := by
    refine Finset.prod_eq_zero (Finset.mem_univ n) (Finset.prod_eq_zero (Finset.mem_univ f) ?_)
    unfold normalizeWeights
    rw [hnf']
    simp [b2n]
  rw [this, mul_zero, mul_zero]

theorem Good.post_pos (hm : WellPosed m) (hs : m.cfg.sampleSource = true) {d : Disc K N F M} (h : Good m d) {c : Cont K F S M nG}
    (hc : Interior m.cfg.app c) : 0 < Kernel.post m (d, c) := by
  have hp := hc.positive hm
  have := post_eq hm hs h.1 d.2 c
  rw [show ((d.1, d.2), c) = (d, c) from rfl] at this
  rw [this]
  exact mul_pos (Finset.prod_pos fun n _ => Finset.prod_pos fun f _ => (componentLh_pos hp h.1.disjoint n f _).2 (h.2 n f))
    (mul_pos (mul_pos (clusterTerm_pos m d.1) (Finset.prod_pos fun i _ => Finset.prod_pos fun g _ => confPrior_pos hm hc i g))
      (Finset.prod_pos fun n _ => Finset.prod_pos fun f _ => (normalizeWeights_pos hp.weights _ n f _).2 (h.2 n f)))

/-- Almost everywhere with respect to the posterior. -/
theorem ae_target (hm : WellPosed m) (hs : m.cfg.sampleSource = true) {P : Disc K N F M × Cont K F S M nG → Prop} :
    (∀ᵐ x ∂target m Prod.fst (Kernel.post m), P x) ↔ ∀ d, Good m d → ∀ᵐ c ∂contRef m.cfg.app, P (d, c) := by
  classical
  have hms : ∀ s : Set (Disc K N F M × Cont K F S M nG), MeasurableSet s → ∀ d, MeasurableSet {c | (d, c) ∈ s} := fun s hs d =>
    (measurable_const.prodMk measurable_id) hs
  constructor
  · intro h d hd
    obtain ⟨s, hsub, hsm, h0⟩ := exists_measurable_superset_of_null (ae_iff.mp h)
    have hi : Measurable (s.indicator (1 : Disc K N F M × Cont K F S M nG → ℝ≥0∞)) := measurable_one.indicator hsm
    rw [← lintegral_indicator_one hsm, lintegral_target (meas_post m) hi, Finset.sum_eq_zero_iff] at h0
    have h1 := h0 d (Finset.mem_univ d)
    have hmm : Measurable fun c => dens m Prod.fst (Kernel.post m) d c * s.indicator (1 : Disc K N F M × Cont K F S M nG → ℝ≥0∞) (d, c) :=
      (measurable_dens (meas_post m) d).mul (hi.comp (measurable_const.prodMk measurable_id))
    rw [lintegral_eq_zero_iff hmm] at h1
    filter_upwards [h1, interior_ae hm.hasState] with c hc hint
    by_contra hP
    have hmem : (d, c) ∈ s := hsub hP
    have hc' : dens m Prod.fst (Kernel.post m) d c * s.indicator (1 : Disc K N F M × Cont K F S M nG → ℝ≥0∞) (d, c) = 0 := hc
    rw [Set.indicator_of_mem hmem, dens_valid hd.1, Pi.one_apply, mul_one, ENNReal.ofReal_eq_zero] at hc'
    exact absurd (hd.post_pos hm hs hint) (not_lt.mpr hc')
  · intro h
    have hex : ∀ d, ∃ s : Set (Cont K F S M nG), MeasurableSet s ∧ (∀ c, ¬ P (d, c) → c ∈ s) ∧ (Good m d → contRef m.cfg.app s = 0) := by
      intro d
      by_cases hd : Good m d
      · obtain ⟨s, hsub, hsm, h0⟩ := exists_measurable_superset_of_null (ae_iff.mp (h d hd))
        exact ⟨s, hsm, fun c hc => hsub hc, fun _ => h0⟩
      · exact ⟨Set.univ, MeasurableSet.univ, fun _ _ => Set.mem_univ _, fun h' => absurd h' hd⟩
    choose s hsm hsub h0 using hex
    let R : Set (Disc K N F M × Cont K F S M nG) := {x | x.2 ∈ s x.1}
    have hR : MeasurableSet R := by
      have : R = ⋃ d, ({d} : Set (Disc K N F M)) ×ˢ s d := by
        ext x
        simp only [R, Set.mem_ofPred_eq, Set.mem_iUnion, Set.mem_prod, Set.mem_singleton_iff]
        exact ⟨fun hx => ⟨x.1, rfl, hx⟩, fun ⟨d, hd, hx⟩ => hd ▸ hx⟩
      rw [this]
      exact MeasurableSet.iUnion fun d => (MeasurableSet.singleton d).prod (hsm d)
    have hPR : {x | ¬ P x} ⊆ R := fun x hx => hsub x.1 x.2 hx
    refine ae_iff.mpr (measure_mono_null hPR ?_)
    have hi : Measurable (R.indicator (1 : Disc K N F M × Cont K F S M nG → ℝ≥0∞)) := measurable_one.indicator hR
    rw [← lintegral_indicator_one hR, lintegral_target (meas_post m) hi]
    refine Finset.sum_eq_zero fun d _ => ?_
    by_cases hd : Good m d
    · have hmm : Measurable fun c => dens m Prod.fst (Kernel.post m) d c * R.indicator (1 : Disc K N F M × Cont K F S M nG → ℝ≥0∞) (d, c) :=
        (measurable_dens (meas_post m) d).mul (hi.comp (measurable_const.prodMk measurable_id))
      rw [lintegral_eq_zero_iff hmm]
      have : ∀ᵐ c ∂contRef m.cfg.app, c ∉ s d := measure_eq_zero_iff_ae_notMem.mp (h0 d hd)
      filter_upwards [this] with c hc
      have : (d, c) ∉ R := hc
      show dens m Prod.fst (Kernel.post m) d c * R.indicator (1 : Disc K N F M × Cont K F S M nG → ℝ≥0∞) (d, c) = 0
      rw [Set.indicator_of_notMem this, mul_zero]
    · have : ∀ c, dens m Prod.fst (Kernel.post m) d c = 0 := by
        intro c
        by_cases hv : Valid m.cl.minSize m.cl.maxSize d.1
        · rw [dens_valid hv, post_zero hm hs hv hd, ENNReal.ofReal_zero]
        · exact dens_invalid hv c
      simp only [this, zero_mul, lintegral_zero]

/-! ### Laws as measures -/

/-- Monotone, homogeneous, and never less than the sum of the parts. -/
structure Super {α : Type} (d : Law α) : Prop where
  mono : ∀ f g, (∀ a, f a ≤ g a) → d f ≤ d g
  add : ∀ f g, d f + d g ≤ d fun a => f a + g a
  smul : ∀ (c : ℝ≥0∞) f, c ≠ ⊤ → d (fun a => c * f a) = c * d f

theorem Super.ret {α : Type} (a : α) : Super (Law.ret a) := ⟨fun _ _ h => h a, fun _ _ => le_rfl, fun _ _ _ => rfl⟩

theorem Super.bind {α β : Type} {d : Law α} {f : α → Law β} (hd : Super d) (hf : ∀ a, Super (f a)) : Super (Law.bind d f) :=
  ⟨fun g h hgh => hd.mono _ _ fun a => (hf a).mono g h hgh,
    fun g h => (hd.add _ _).trans (hd.mono _ _ fun a => (hf a).add g h),
    fun c g hc => by
      show d (fun a => f a fun b => c * g b) = c * d fun a => f a g
      rw [← hd.smul c _ hc]
      congr 1
      funext a
      exact (hf a).smul c g hc⟩

theorem Super.ofRand {α : Type} (d : Rand α) : Super (Law.ofRand d) := by
  refine ⟨?_, ?_, ?_⟩
  · intro f g h
    unfold Law.ofRand
    exact List.sum_le_sum fun a _ => mul_le_mul_right (h a.1) _
  · intro f g
    unfold Law.ofRand
    induction d with
    | nil => simp
    | cons p d ih =>
      simp only [List.map_cons, List.sum_cons]
      rw [mul_add]
      calc _ = (ENNReal.ofReal p.2 * f p.1 + ENNReal.ofReal p.2 * g p.1) +
          ((d.map fun a => ENNReal.ofReal a.2 * f a.1).sum + (d.map fun a => ENNReal.ofReal a.2 * g a.1).sum) := by ring
        _ ≤ _ := by gcongr
  · intro c f _
    unfold Law.ofRand
    induction d with
    | nil => simp
    | cons p d ih =>
      simp only [List.map_cons, List.sum_cons]
      rw [ih]
      ring

theorem Super.draw {α : Type} [MeasurableSpace α] (μ : Measure α) : Super (Law.draw μ) :=
  ⟨fun _ _ h => lintegral_mono h, fun f g => le_lintegral_add f g, fun c f hc => lintegral_const_mul' c f hc⟩

theorem Super.mhStep {σ : Type} {post : σ → ℝ} {propose : σ → Law (Result σ)} {x : σ} (h : Super (propose x)) :
    Super (mhStep post propose x) := h.bind fun _ => Super.ofRand _

theorem super_propose (m : Setup K N F S M nG) (op : MCMC.OpKind M) (x : Disc K N F M × Cont K F S M nG) : Super (propose m op x) := by
  rcases op with v | _ | _ | _ | c
  · cases v
    · exact (Super.ofRand _).bind fun _ => Super.ret _
    · exact (Super.ofRand _).bind fun _ => Super.ret _
  · exact (Super.ofRand _).bind fun _ => (Super.draw _).bind fun _ => (Super.draw _).bind fun _ => Super.ret _
  · exact (Super.ofRand _).bind fun _ => (Super.draw _).bind fun _ => Super.ret _
  · exact (Super.ofRand _).bind fun _ => Super.ret _
  · exact (Super.ofRand _).bind fun _ => (Super.draw _).bind fun _ => Super.ret _

/-! ### Sets that no move can leave -/

section Sets
variable {A : Set (Disc K N F M × Cont K F S M nG)}

theorem measurableSet_fibre (hA : MeasurableSet A) (d : Disc K N F M) : MeasurableSet {c | (d, c) ∈ A} :=
  (measurable_const.prodMk measurable_id) hA

theorem indicator_zero {X : Type} {B : Set X} {x : X} (h : B.indicator (1 : X → ℝ≥0∞) x = 0) : x ∉ B := fun hx => by
  rw [Set.indicator_of_mem hx] at h
  exact one_ne_zero h

theorem effectMove_eq (L : Lens (Cont K F S M nG) (Fin F → Fin S → ℝ)) (alpha : Disc K N F M → Fin F → Fin S → ℝ)
    (d : Disc K N F M) (c : Cont K F S M nG) (g : Disc K N F M × Cont K F S M nG → ℝ≥0∞) :
    effectMove m L alpha (d, c) g = ∫⁻ e, g (d, L.set c (mergeRows m.cfg.app (L.get c) e))
      ∂Measure.pi fun f => dirichletLaw (states m.cfg.app f) (alpha d f) := by
  unfold effectMove mhStep Law.bind Law.draw
  dsimp only
  refine lintegral_congr fun e => ?_
  exact mhStep_gibbs g

/-- Effects that are redrawn do not matter. -/
theorem effect_triv (hm : WellPosed m) (hs : m.cfg.sampleSource = true) (L : Lens (Cont K F S M nG) (Fin F → Fin S → ℝ))
    (alpha : Disc K N F M → Fin F → Fin S → ℝ) (ha : ∀ d f s, m.cfg.app f s = true → 0 < alpha d f s)
    (hin : ∀ c, Interior m.cfg.app c → ∀ f, Row (states m.cfg.app f) (L.get c f)) (hA : MeasurableSet A)
    (h : Splits (target m Prod.fst (Kernel.post m)) (effectMove m L alpha) A) {d : Disc K N F M} (hd : Good m d) :
    ∀ᵐ c ∂contRef m.cfg.app, Triv (Measure.pi fun f => uniformSimplex (states m.cfg.app f)) {t | L.set c t ∈ {c | (d, c) ∈ A}} := by
  have key : ∀ B : Set (Disc K N F M × Cont K F S M nG), MeasurableSet B → ∀ c, Interior m.cfg.app c →
      effectMove m L alpha (d, c) (B.indicator 1) = 0 → ∀ᵐ t ∂Measure.pi fun f => uniformSimplex (states m.cfg.app f),
        (d, L.set c t) ∉ B := by
    intro B hB c hc h0
    have hgm : Measurable fun e => B.indicator (1 : Disc K N F M × Cont K F S M nG → ℝ≥0∞) (d, L.set c (mergeRows m.cfg.app (L.get c) e)) :=
      (measurable_one.indicator hB).comp (measurable_const.prodMk ((meas_set_merge L).comp (measurable_const.prodMk measurable_id)))
    rw [effectMove_eq, pi_dirichlet hm.hasState (ha d), lintegral_withDensity_eq_lintegral_mul _ meas_effDens hgm,
      lintegral_eq_zero_iff (meas_effDens.mul hgm)] at h0
    filter_upwards [h0, rows_ae hm.hasState] with t ht hrow
    have ht' : effDens m.cfg.app (alpha d) t * B.indicator (1 : Disc K N F M × Cont K F S M nG → ℝ≥0∞)
      (d, L.set c (mergeRows m.cfg.app (L.get c) t)) = 0 := ht
    rw [merge_rows (hin c hc) hrow] at ht'
    rcases mul_eq_zero.mp ht' with h1 | h1
    · exfalso
      rw [effDens_eq hm.hasState (ha d) hrow, ENNReal.ofReal_eq_zero] at h1
      refine absurd h1 (not_le.mpr (mul_pos (Finset.prod_pos fun f _ => ?_) (Finset.prod_pos fun f _ => ?_)))
      · obtain ⟨s, hs⟩ := hm.hasState f
        exact dirichletPdf_pos ⟨s, mem_states.mpr hs⟩ (fun s hs => ha d f s (mem_states.mp hs)) fun s hs => (hrow f).pos hs
      · obtain ⟨s, hs⟩ := hm.hasState f
        have : 0 < (states m.cfg.app f).card := Finset.card_pos.mpr ⟨s, mem_states.mpr hs⟩
        exact inv_pos.mpr (Real.Gamma_pos_of_pos (by exact_mod_cast this))
    · exact indicator_zero h1
  filter_upwards [(ae_target hm hs).mp h.out d hd, (ae_target hm hs).mp h.stay d hd, interior_ae hm.hasState] with c h1 h2 hc
  by_cases hcA : (d, c) ∈ A
  · left
    exact (key Aᶜ hA.compl c hc (h2 hcA)).mono fun t ht => not_not.mp ht
  · right
    exact key A hA c hc (h1 hcA)

/-! ### Steps on finitely many states -/

open Classical in
theorem ofRand_zero {σ : Type} [Fintype σ] {d : Rand σ} (hd : ∀ p ∈ d, 0 ≤ p.2) {g : σ → ℝ≥0∞} (h : Law.ofRand d g = 0) {y : σ}
    (hy : 0 < prob d (· = y)) : g y = 0 := by
  rw [ofRand_eq_sum hd, Finset.sum_eq_zero_iff] at h
  rcases mul_eq_zero.mp (h y (Finset.mem_univ y)) with h1 | h1
  · exact absurd (ENNReal.ofReal_eq_zero.mp h1) (not_le.mpr hy)
  · exact h1

/-- A Metropolis-Hastings step is a distribution. -/
theorem step_isDist {σ : Type} {P : σ → Prop} {op : σ → Rand (Result σ)} {b : ℝ} (hb : 0 < b) (hop : ∀ x, P x → IsDist (op x))
    (hrep : ReportsRealMasses P op b) (hrej : ∀ x, P x → ∀ r w, (r, w) ∈ op x → r.new = x → r.qBack = 0) {post : σ → ℝ}
    (hpost : ∀ x, P x → 0 < post x) {x : σ} (hx : P x) : IsDist (MH.step post op x) := by
  refine isDist_bind' (hop x hx) fun a ha hz => isDist_bind (isDist_bernoulli ?_ ?_) fun _ _ => isDist_ret _
  · by_cases hnew : a.1.new = x
    · unfold acceptProb
      rw [if_pos (hrej x hx a.1 a.2 ha hnew)]
    · obtain ⟨hS, hq, hqb⟩ := hrep x hx a.1 a.2 ha hz hnew
      have q0 : 0 ≤ a.1.q := by
        have : 0 ≤ b * a.1.q := hq ▸ prob_nonneg (hop x hx).1 _
        exact nonneg_of_mul_nonneg_right this hb
      have qb0 : 0 ≤ a.1.qBack := by
        have : 0 ≤ b * a.1.qBack := hqb ▸ prob_nonneg (hop _ hS).1 _
        exact nonneg_of_mul_nonneg_right this hb
      unfold acceptProb
      split
      · exact le_rfl
      split
      · exact zero_le_one
      · exact le_min zero_le_one (mul_nonneg (div_nonneg (hpost _ hS).le (hpost x hx).le) (div_nonneg qb0 q0))
  · unfold acceptProb
    split
    · exact zero_le_one
    split
    · exact le_rfl
    · exact min_le_left _ _

theorem ofRand_mass {α : Type} {d : Rand α} (hd : IsDist d) : Law.ofRand d 1 = 1 := by
  unfold Law.ofRand
  simp only [Pi.one_apply, mul_one]
  exact ofRand_one hd

theorem Good.possible (hm : WellPosed m) (hs : m.cfg.sampleSource = true) {c : Cont K F S M nG} (hc : Interior m.cfg.app c)
    {d : Disc K N F M} : Possible (Valid m.cl.minSize m.cl.maxSize) (sourcePosterior m.d c.1 c.2.1 c.2.2) d ↔ Good m d := by
  have h1 : Possible (Valid m.cl.minSize m.cl.maxSize) (sourcePosterior m.d c.1 c.2.1 c.2.2) d ↔
      Valid m.cl.minSize m.cl.maxSize d.1 ∧ 0 < Kernel.post m (d, c) := by
    unfold Possible
    exact and_congr_right fun hv => (post_pos_iff hm hs hv d.2 hc).symm
  rw [h1]
  constructor
  · rintro ⟨hv, hp⟩
    by_contra hg
    rw [post_zero hm hs hv hg] at hp
    exact lt_irrefl 0 hp
  · exact fun h => ⟨h.1, h.post_pos hm hs hc⟩

/-- What a cluster operator with sources needs. -/
structure ClusterOp (m : Setup K N F S M nG) (op : Cont K F S M nG → Clus K N → Rand (Result (Clus K N))) (b : ℝ) : Prop where
  pos : 0 < b
  reports : ∀ c, ReportsRealMasses (Valid m.cl.minSize m.cl.maxSize) (op c) b
  dist : ∀ c, Interior m.cfg.app c → ∀ z, Valid m.cl.minSize m.cl.maxSize z → IsDist (op c z)

theorem clusterOp_false (hm : WellPosed m) :
    ClusterOp m (fun c => gibbsish m.cl (clusterProb m c)) (1 / (2 * (K : ℝ))) where
  pos := by
    have hK : 0 < (K : ℝ) := by exact_mod_cast hm.hasCluster
    positivity
  reports c := gibbsish_reports_prob m c
  dist c hc z hz := gibbsish_isDist m.cl (clusterProb_good hm hc) hm.hasCluster z hz

theorem clusterOp_true (hm : WellPosed m) :
    ClusterOp m (fun c => gibbsish2 m.cl (clusterProb m c)) (1 / (K : ℝ)) where
  pos := by
    have hK : 0 < (K : ℝ) := by exact_mod_cast hm.hasCluster
    positivity
  reports c := gibbsish2_reports_prob m c
  dist c hc z _ := gibbsish2_isDist m.cl (fun x z n => ((clusterProb_good hm hc).pos x z n).le)
    (fun x z n => ((clusterProb_good hm hc).lt_one x z n).le) hm.hasCluster z

/-- The step of a cluster operator with sources, for given continuous parameters. -/
theorem cluster_step (hm : WellPosed m) (hs : m.cfg.sampleSource = true) {op : Cont K F S M nG → Clus K N → Rand (Result (Clus K N))} {b : ℝ}
    (ho : ClusterOp m op b) {c : Cont K F S M nG} (hc : Interior m.cfg.app c) :
    ReportsRealMasses (Good m) (withSource (sourcePosterior m.d c.1 c.2.1 c.2.2) (op c)) b ∧
    ∀ d, Good m d → IsDist (MH.step (fun d => Kernel.post m (d, c)) (withSource (sourcePosterior m.d c.1 c.2.1 c.2.2) (op c)) d) ∧
      ∀ g, mhStep (Kernel.post m) (fun x => Law.bind (Law.ofRand (withSource (sourcePosterior m.d x.2.1 x.2.2.1 x.2.2.2) (op x.2) x.1))
        fun r => Law.ret (withCont x.2 r)) (d, c) g =
        Law.ofRand (MH.step (fun d => Kernel.post m (d, c)) (withSource (sourcePosterior m.d c.1 c.2.1 c.2.2) (op c)) d) fun d => g (d, c) := by
  have hp := hc.positive hm
  have hlaw := sourcePosterior_law hp m.cl.minSize m.cl.maxSize
  have hrep : ReportsRealMasses (Good m) (withSource (sourcePosterior m.d c.1 c.2.1 c.2.2) (op c)) b := by
    have := withSource_reports hlaw (ho.reports c)
    have e : Possible (Valid m.cl.minSize m.cl.maxSize) (sourcePosterior m.d c.1 c.2.1 c.2.2) = Good m :=
      funext fun d => propext (Good.possible hm hs hc)
    rwa [e] at this
  have hdist : ∀ d, Good m d → IsDist (withSource (sourcePosterior m.d c.1 c.2.1 c.2.2) (op c) d) := fun d hd =>
    withSource_isDist hlaw (fun x hx r w hr hw hne => (ho.reports c x hx r w hr hw hne).1) (fun x hx => ho.dist c hc x hx) d hd.1
  refine ⟨hrep, fun d hd => ⟨step_isDist ho.pos hdist hrep ?_ (fun d hd => hd.post_pos hm hs hc) hd, fun g => ?_⟩⟩
  · intro d hd r w hr hnew
    obtain ⟨a, ha, b', hb', h1, h2⟩ := mem_bind hr
    split at hb'
    · have := mem_ret hb'
      have h1 : r = b'.1 := h1
      rw [h1, this]
      rfl
    · rename_i hne
      obtain ⟨e, he, e', he', h3, -⟩ := mem_bind hb'
      have := mem_ret he'
      have h1 : r = b'.1 := h1
      exfalso
      apply hne
      rw [h1, h3, this] at hnew
      exact congrArg Prod.fst hnew
  · have e := mhStep_disc (post := Kernel.post m) (fun c d => withSource (sourcePosterior m.d c.1 c.2.1 c.2.2) (op c) d) d c g
    exact e.trans (ofRand_step (hdist d hd).1 _).symm

/-- The step of `GibbsSampleSource`, for given continuous parameters. -/
theorem source_step' (hm : WellPosed m) (hs : m.cfg.sampleSource = true) {c : Cont K F S M nG} (hc : Interior m.cfg.app c)
    {z : Clus K N} (hz : Valid m.cl.minSize m.cl.maxSize z) (s : Fin N × Fin F → Fin (M + 1)) :
    ∃ d : Rand (Fin N × Fin F → Fin (M + 1)), IsDist d ∧ ((∀ t, Good m (z, t) → 0 < prob d (· = t)) ∧ ∀ p ∈ d, p.2 ≠ 0 → Good m (z, p.1)) ∧
      (∀ g, mhStep (Kernel.post m) (propose m .source) ((z, s), c) g = Law.ofRand d fun t => g ((z, t), c)) ∧
      ∀ g, Law.ofRand (gibbsSource (sourcePosterior m.d c.1 c.2.1 c.2.2 z) (List.finRange N) s) (fun r => g r.new) = Law.ofRand d g := by
  classical
  have hp := hc.positive hm
  have hlaw := sourcePosterior_law hp m.cl.minSize m.cl.maxSize
  have hd : IsDist (indep (fun i => choice (List.finRange (M + 1)) (sourcePosterior m.d c.1 c.2.1 c.2.2 z i.1 i.2))
        (positions F (List.finRange N)) s) := by
    refine isDist_indep _ _ (fun i _ => isDist_choice (fun c _ => hlaw.nonneg _ hz _ _ c) ?_) s
    rw [← List.ofFn_eq_map, List.sum_ofFn]
    exact hlaw.sum_one _ hz _ _
  refine ⟨_, hd, ⟨fun t ht => ?_, fun p hp0 hne => ?_⟩, fun g => ?_, fun g => ?_⟩
  · rw [prob_indep _ _ (nodup_positions (List.nodup_finRange N)), if_pos fun i hi => absurd (mem_positions.mpr (List.mem_finRange _)) hi]
    refine List.prod_pos fun a ha => ?_
    obtain ⟨i, -, rfl⟩ := List.mem_map.mp ha
    rw [prob_choice (List.nodup_finRange _), if_pos (List.mem_finRange _)]
    exact lt_of_le_of_ne (hlaw.nonneg _ hz _ _ _) (Ne.symm (((Good.possible hm hs hc).mpr ht).2 i.1 i.2))
  · have hge : p.2 ≤ prob (indep (fun i => choice (List.finRange (M + 1)) (sourcePosterior m.d c.1 c.2.1 c.2.2 z i.1 i.2))
        (positions F (List.finRange N)) s) (· = p.1) := by
      unfold prob E
      have hmem := List.mem_map_of_mem (f := fun a : (Fin N × Fin F → Fin (M + 1)) × ℝ => a.2 * if a.1 = p.1 then (1 : ℝ) else 0) hp0
      have := List.single_le_sum (fun x hx => ?_) _ hmem
      · simpa using this
      · obtain ⟨a, ha, rfl⟩ := List.mem_map.mp hx
        exact mul_nonneg (hd.1 a ha) (by split <;> norm_num)
    have hpos : 0 < p.2 := lt_of_le_of_ne (hd.1 p hp0) (Ne.symm hne)
    rw [prob_indep _ _ (nodup_positions (List.nodup_finRange N)), if_pos fun i hi => absurd (mem_positions.mpr (List.mem_finRange _)) hi] at hge
    refine (Good.possible hm hs hc).mp ⟨hz, fun n f h0 => ?_⟩
    have : (List.map (fun i => prob (choice (List.finRange (M + 1)) (sourcePosterior m.d c.1 c.2.1 c.2.2 z i.1 i.2)) (· = p.1 i))
        (positions F (List.finRange N))).prod = 0 := by
      refine List.prod_eq_zero (List.mem_map.mpr ⟨(n, f), mem_positions.mpr (List.mem_finRange _), ?_⟩)
      rw [prob_choice (List.nodup_finRange _), if_pos (List.mem_finRange _)]
      exact h0
    linarith
  · unfold mhStep propose Law.bind
    dsimp only
    unfold gibbsSource
    rw [ofRand_bind hd.1]
    congr 1
    funext t
    rw [ofRand_ret]
    exact mhStep_gibbs g
  · unfold gibbsSource
    rw [ofRand_bind hd.1]
    congr 1
    funext t
    rw [ofRand_ret]
    rfl

theorem source_step (hm : WellPosed m) (hs : m.cfg.sampleSource = true) {c : Cont K F S M nG} (hc : Interior m.cfg.app c)
    {z : Clus K N} (hz : Valid m.cl.minSize m.cl.maxSize z) (s : Fin N × Fin F → Fin (M + 1)) :
    ∃ d : Rand (Fin N × Fin F → Fin (M + 1)), IsDist d ∧ ((∀ t, Good m (z, t) → 0 < prob d (· = t)) ∧ ∀ p ∈ d, p.2 ≠ 0 → Good m (z, p.1)) ∧
      ∀ g, mhStep (Kernel.post m) (propose m .source) ((z, s), c) g = Law.ofRand d fun t => g ((z, t), c) := by
  obtain ⟨d, h1, h2, h3, -⟩ := source_step' hm hs hc hz s
  exact ⟨d, h1, h2, h3⟩

theorem hasComponents_congr {z z' : Clus K N} {n : Fin N} (h : n ∉ changed z z') : hasComponents m.d z' n = hasComponents m.d z n := by
  have hk : ∀ k, z k n = z' k n := fun k => by
    by_contra hk
    exact h (mem_changed.mpr ⟨k, hk⟩)
  have hany : anyGroup z' n = anyGroup z n := by
    unfold anyGroup
    congr 1
    funext k
    exact (hk k).symm
  unfold hasComponents
  rw [hany]

/-- For given continuous parameters, the discrete ones do not matter. -/
theorem disc_const (hm : WellPosed m) (hs : m.cfg.sampleSource = true) (hN : K * m.cl.minSize < N) {c : Cont K F S M nG}
    (hc : Interior m.cfg.app c)
    (h1 : ∀ d, Good m d → (d, c) ∈ A → mhStep (Kernel.post m) (propose m .source) (d, c) (Aᶜ.indicator 1) = 0)
    (h2 : ∀ d, Good m d → (d, c) ∈ A → mhStep (Kernel.post m) (propose m (.cluster true)) (d, c) (Aᶜ.indicator 1) = 0)
    {d d' : Disc K N F M} (hd : Good m d) (hd' : Good m d') (hmem : (d, c) ∈ A) : (d', c) ∈ A := by
  classical
  have hsrc : ∀ z s t, Good m (z, s) → Good m (z, t) → ((z, s), c) ∈ A → ((z, t), c) ∈ A := by
    intro z s t hs' ht hA
    obtain ⟨r, hr, ⟨hpos, -⟩, hg⟩ := source_step hm hs hc hs'.1 s
    have h0 := h1 (z, s) hs' hA
    rw [hg] at h0
    have := ofRand_zero hr.1 h0 (hpos t ht)
    exact not_not.mp (indicator_zero this)
  have hp := hc.positive hm
  have hlaw := sourcePosterior_law hp m.cl.minSize m.cl.maxSize
  have hsp : ∀ z s, Good m (z, s) → ∀ n f, 0 < sourcePosterior m.d c.1 c.2.1 c.2.2 z n f (s (n, f)) := fun z s hg n f =>
    lt_of_le_of_ne (hlaw.nonneg _ hg.1 _ _ _) (Ne.symm (((Good.possible hm hs hc).mpr hg).2 n f))
  obtain ⟨hrep, hst⟩ := cluster_step hm hs (clusterOp_true hm) hc
  have hcl : ∀ z z' s, Valid m.cl.minSize m.cl.maxSize z' → z ≠ z' →
      0 < propMass (gibbsish2 m.cl (clusterProb m c)) z z' →
      0 < propMass (gibbsish2 m.cl (clusterProb m c)) z' z →
      Good m (z, s) → ((z, s), c) ∈ A → ∃ t, Good m (z', t) ∧ ((z', t), c) ∈ A := by
    intro z z' s hz' hne p1 p2 hg hA
    choose i hi using has_some hm z'
    set t : Fin N × Fin F → Fin (M + 1) := fun p => if p.1 ∈ changed z z' then i p.1 else s p with ht
    have hgt : Good m (z', t) := by
      refine ⟨hz', fun n f => ?_⟩
      by_cases hn : n ∈ changed z z'
      · simp only [ht, hn, if_true]; exact hi n
      · simp only [ht, hn, if_false, hasComponents_congr hn]; exact hg.2 n f
    refine ⟨t, hgt, ?_⟩
    obtain ⟨hdist, heq⟩ := hst (z, s) hg
    have h0 : mhStep (Kernel.post m) (fun x => Law.bind (Law.ofRand (withSource (sourcePosterior m.d x.2.1 x.2.2.1 x.2.2.2)
        (gibbsish2 m.cl (clusterProb m x.2)) x.1)) fun r => Law.ret (withCont x.2 r)) ((z, s), c) (Aᶜ.indicator 1) = 0 :=
      h2 (z, s) hg hA
    rw [heq] at h0
    have hsame : ∀ p : Fin N × Fin F, p ∉ positions F (changed z z') → t p = s p := fun p hp' => by
      have : p.1 ∉ changed z z' := fun h => hp' (mem_positions.mpr h)
      simp only [ht, this, if_false]
    have hmass : 0 < stepMass (fun d => Kernel.post m (d, c)) (withSource (sourcePosterior m.d c.1 c.2.1 c.2.2)
        (gibbsish2 m.cl (clusterProb m c))) (z, s) (z', t) := by
      refine stepMass_pos (clusterOp_true hm).pos hrep (fun d hd => hd.post_pos hm hs hc) hg hgt (fun e => hne (congrArg Prod.fst e)) ?_ ?_
      · rw [withSource_propMass hne.symm hsame]
        refine mul_pos p1 (List.prod_pos fun a ha => ?_)
        obtain ⟨p, -, rfl⟩ := List.mem_map.mp ha
        exact hsp z' t hgt p.1 p.2
      · rw [withSource_propMass hne (fun p hp' => (hsame p (by rwa [changed_symm] at hp')).symm)]
        refine mul_pos p2 (List.prod_pos fun a ha => ?_)
        obtain ⟨p, -, rfl⟩ := List.mem_map.mp ha
        exact hsp z s hg p.1 p.2
    have := ofRand_zero hdist.1 h0 hmass
    exact not_not.mp (indicator_zero this)
  have hcon := connect (gibbsish2_moves_all (ι := Unit) (cfg := m.cl) (p := fun _ => clusterProb m c)
    (fun _ => clusterProb_good hm hc) hm.hasCluster) hN hd.1 hd'.1
  have hall : ∃ t, Good m (d'.1, t) ∧ ((d'.1, t), c) ∈ A := by
    generalize d'.1 = z' at hcon
    induction hcon with
    | refl => exact ⟨d.2, hd, hmem⟩
    | tail _ hstep ih =>
      obtain ⟨t, ht, htA⟩ := ih
      obtain ⟨-, hv, hne, hpm⟩ := hstep
      exact hcl _ _ t hv hne (hpm ()).1 (hpm ()).2 ht htA
  obtain ⟨t, ht, htA⟩ := hall
  exact hsrc d'.1 t d'.2 ht hd' htA

/-! ### Weights -/

theorem betaLaw_density (a b : ℝ) : betaLaw a b = (volume.restrict (Set.Ioo (0 : ℝ) 1)).withDensity
    fun t => ENNReal.ofReal (ProbabilityTheory.betaPDFReal a b t) := by
  ext B hB
  have h := lintegral_beta (a := a) (b := b) (h := B.indicator 1) (measurable_one.indicator hB)
  rw [lintegral_indicator_one hB] at h
  rw [h, withDensity_apply _ hB, ← lintegral_indicator hB]
  refine lintegral_congr fun t => ?_
  by_cases ht : t ∈ B
  · rw [Set.indicator_of_mem ht, Set.indicator_of_mem ht, Pi.one_apply, mul_one]
  · rw [Set.indicator_of_notMem ht, Set.indicator_of_notMem ht, mul_zero]

theorem rowAcc_pos {src : Fin N → Fin F → Fin C → Bool} {has : Fin N → Fin C → Bool} {i1 i2 : Fin C} (f : Fin F)
    (h1 : ∀ n f, ∃! c, src n f c = true) (hhas : ∀ n f c, src n f c = true → has n c = true) (hij : i1 ≠ i2)
    {v : Fin C → ℝ} (hv : Row Finset.univ v) {t : ℝ} (ht : t ∈ Set.Ioo (0 : ℝ) 1) : 0 < rowAcc src has i1 i2 f v t := by
  have hpos : ∀ v, Row Finset.univ v → 0 < rowLh src has f v := fun v hv =>
    sourceLh_pos src h1 has hhas (fun _ => v) f fun c => hv.pos (Finset.mem_univ c)
  have p1 := hv.pos (Finset.mem_univ i1)
  have p2 := hv.pos (Finset.mem_univ i2)
  unfold rowAcc
  rw [mixPair_eq_along hij hv.2]
  refine mul_pos (div_pos (hpos _ (hv.along (Finset.mem_univ _) (Finset.mem_univ _) hij.symm ht)) (hpos v hv))
    (div_pos (ProbabilityTheory.betaPDFReal_pos (div_pos p2 (add_pos p1 p2)) ?_ (counts_pos _ _ _ _ _ _) (counts_pos _ _ _ _ _ _))
      (ProbabilityTheory.betaPDFReal_pos ht.1 ht.2 (counts_pos _ _ _ _ _ _) (counts_pos _ _ _ _ _ _)))
  rw [div_lt_one (add_pos p1 p2)]
  linarith

theorem weightsMove_eq (ij : Fin (M + 1) × Fin (M + 1)) (d : Disc K N F M) (c : Cont K F S M nG)
    (g : Disc K N F M × Cont K F S M nG → ℝ≥0∞) :
    weightsMove m ij (d, c) g = ∫⁻ a2, ∫⁻ u, g (d, (fun f => rowStep (sourceArray d.2) (hasComponents m.d d.1)
      ij.1 ij.2 f (c.1 f) (a2 f) (u f)), c.2) ∂Measure.pi (fun _ : Fin F => uniform01)
      ∂Measure.pi fun f => betaLaw (1 + pairCounts (sourceArray d.2) (hasComponents m.d d.1) ij.1 ij.2 f ij.2)
        (1 + pairCounts (sourceArray d.2) (hasComponents m.d d.1) ij.1 ij.2 f ij.1) := by
  unfold weightsMove mhStep Law.bind Law.draw
  dsimp only
  refine lintegral_congr fun a2 => lintegral_congr fun u => ?_
  rw [← gibbsWeights_row]
  exact mhStep_gibbs g

/-- All features split the weights of two components anew. -/
noncomputable def resplit (c : Cont K F S M nG) (i j : Fin (M + 1)) (a : Fin F → ℝ) : Cont K F S M nG :=
  (fun f => Effects.along (c.1 f) i j (a f), c.2)

theorem weights_resplit (hm : WellPosed m) (hs : m.cfg.sampleSource = true) {ij : Fin (M + 1) × Fin (M + 1)} (hij : ij.1 ≠ ij.2)
    (hA : MeasurableSet A) (h : Splits (target m Prod.fst (Kernel.post m)) (weightsMove m ij) A) {d : Disc K N F M} (hd : Good m d) :
    ∀ᵐ c ∂contRef m.cfg.app, ∀ᵐ a ∂Measure.pi fun _ : Fin F => volume.restrict (Set.Ioo (0 : ℝ) 1),
      (resplit c ij.2 ij.1 a ∈ {c | (d, c) ∈ A} ↔ c ∈ {c | (d, c) ∈ A}) := by
  have hu : IsProbabilityMeasure uniform01 := ⟨by unfold uniform01; simp⟩
  have hbeta : ∀ f : Fin F, IsProbabilityMeasure (betaLaw
      (1 + pairCounts (sourceArray d.2) (hasComponents m.d d.1) ij.1 ij.2 f ij.2)
      (1 + pairCounts (sourceArray d.2) (hasComponents m.d d.1) ij.1 ij.2 f ij.1)) := fun f =>
    ProbabilityTheory.isProbabilityMeasureBeta (counts_pos _ _ _ _ _ _) (counts_pos _ _ _ _ _ _)
  have hIoo : ∀ᵐ a ∂Measure.pi fun _ : Fin F => volume.restrict (Set.Ioo (0 : ℝ) 1), ∀ f, a f ∈ Set.Ioo (0 : ℝ) 1 := by
    rw [ae_all_iff]
    intro f
    exact (Measure.quasiMeasurePreserving_eval (fun _ : Fin F => volume.restrict (Set.Ioo (0 : ℝ) 1)) f).ae
      (ae_restrict_mem measurableSet_Ioo)
  have key : ∀ B : Set (Disc K N F M × Cont K F S M nG), MeasurableSet B → ∀ c, Interior m.cfg.app c →
      weightsMove m ij (d, c) (B.indicator 1) = 0 → ∀ᵐ a ∂Measure.pi fun _ : Fin F => volume.restrict (Set.Ioo (0 : ℝ) 1),
        (d, resplit c ij.2 ij.1 a) ∉ B := by
    intro B hB c hc h0
    have hgm : Measurable fun z : (Fin F → ℝ) × (Fin F → ℝ) => B.indicator (1 : Disc K N F M × Cont K F S M nG → ℝ≥0∞)
        (d, (fun f => rowStep (sourceArray d.2) (hasComponents m.d d.1) ij.1 ij.2 f (c.1 f) (z.1 f) (z.2 f)), c.2) := by
      refine (measurable_one.indicator hB).comp (measurable_const.prodMk (Measurable.prodMk ?_ measurable_const))
      rw [measurable_pi_iff]
      intro f
      have : Measurable fun z : (Fin F → ℝ) × (Fin F → ℝ) => (c.1 f, z.1 f, z.2 f) := by fun_prop
      exact Measurable.comp (g := fun z : (Fin (M + 1) → ℝ) × ℝ × ℝ => rowStep (sourceArray d.2) (hasComponents m.d d.1) ij.1 ij.2 f
        z.1 z.2.1 z.2.2) (meas_rowStep _ _ _ _ f) this
    have hinner := Measurable.lintegral_prod_right' (ν := Measure.pi fun _ : Fin F => uniform01) hgm
    set H := fun a2 : Fin F → ℝ => ∫⁻ u, B.indicator (1 : Disc K N F M × Cont K F S M nG → ℝ≥0∞)
        (d, (fun f => rowStep (sourceArray d.2) (hasComponents m.d d.1) ij.1 ij.2 f (c.1 f) (a2 f) (u f)), c.2)
        ∂Measure.pi (fun _ : Fin F => uniform01) with hH
    have hHm : Measurable H := hinner
    rw [weightsMove_eq] at h0
    have h0' : ∫⁻ a2, H a2 ∂Measure.pi (fun f => betaLaw (1 + pairCounts (sourceArray d.2) (hasComponents m.d d.1) ij.1 ij.2 f ij.2)
        (1 + pairCounts (sourceArray d.2) (hasComponents m.d d.1) ij.1 ij.2 f ij.1)) = 0 := h0
    have hdm : ∀ f, Measurable fun t => ENNReal.ofReal (ProbabilityTheory.betaPDFReal
        (1 + pairCounts (sourceArray d.2) (hasComponents m.d d.1) ij.1 ij.2 f ij.2)
        (1 + pairCounts (sourceArray d.2) (hasComponents m.d d.1) ij.1 ij.2 f ij.1) t) := fun f =>
      (ProbabilityTheory.measurable_betaPDFReal _ _).ennreal_ofReal
    have hfin : ∀ f, SigmaFinite ((volume.restrict (Set.Ioo (0 : ℝ) 1)).withDensity fun t => ENNReal.ofReal (ProbabilityTheory.betaPDFReal
        (1 + pairCounts (sourceArray d.2) (hasComponents m.d d.1) ij.1 ij.2 f ij.2)
        (1 + pairCounts (sourceArray d.2) (hasComponents m.d d.1) ij.1 ij.2 f ij.1) t)) := fun f => by
      rw [← betaLaw_density]; infer_instance
    simp only [betaLaw_density] at h0'
    have hpm : Measurable fun x : Fin F → ℝ => ∏ f, ENNReal.ofReal (ProbabilityTheory.betaPDFReal
        (1 + pairCounts (sourceArray d.2) (hasComponents m.d d.1) ij.1 ij.2 f ij.2)
        (1 + pairCounts (sourceArray d.2) (hasComponents m.d d.1) ij.1 ij.2 f ij.1) (x f)) :=
      Finset.measurable_fun_prod _ fun f _ => (hdm f).comp (measurable_pi_apply f)
    rw [pi_withDensity (ν := fun _ : Fin F => volume.restrict (Set.Ioo (0 : ℝ) 1)) _ hdm,
      lintegral_withDensity_eq_lintegral_mul _ hpm hHm, lintegral_eq_zero_iff (hpm.mul hHm)] at h0'
    filter_upwards [h0', hIoo] with a ha ha01
    have ha' : (∏ f, ENNReal.ofReal (ProbabilityTheory.betaPDFReal
        (1 + pairCounts (sourceArray d.2) (hasComponents m.d d.1) ij.1 ij.2 f ij.2)
        (1 + pairCounts (sourceArray d.2) (hasComponents m.d d.1) ij.1 ij.2 f ij.1) (a f))) * H a = 0 := ha
    have hH0 : H a = 0 := by
      rcases mul_eq_zero.mp ha' with h1 | h1
      · obtain ⟨f, -, hf⟩ := Finset.prod_eq_zero_iff.mp h1
        rw [ENNReal.ofReal_eq_zero] at hf
        exact absurd (ProbabilityTheory.betaPDFReal_pos (ha01 f).1 (ha01 f).2 (counts_pos _ _ _ _ _ _) (counts_pos _ _ _ _ _ _)) (not_lt.mpr hf)
      · exact h1
    have hgu : Measurable fun u : Fin F → ℝ => B.indicator (1 : Disc K N F M × Cont K F S M nG → ℝ≥0∞)
        (d, (fun f => rowStep (sourceArray d.2) (hasComponents m.d d.1) ij.1 ij.2 f (c.1 f) (a f) (u f)), c.2) :=
      hgm.comp (measurable_const.prodMk measurable_id)
    rw [hH] at hH0
    dsimp only at hH0
    rw [lintegral_eq_zero_iff hgu] at hH0
    have hr : ∀ f, 0 < rowAcc (sourceArray d.2) (hasComponents m.d d.1) ij.1 ij.2 f (c.1 f) (a f) := fun f =>
      rowAcc_pos f (sourceArray_unique d.2) (fun n f c hc => by rw [sourceArray_iff.mp hc]; exact hd.2 n f) hij (hc.w f) (ha01 f)
    have hbox : (Measure.pi fun _ : Fin F => uniform01) (Set.univ.pi fun f =>
        Set.Iio (rowAcc (sourceArray d.2) (hasComponents m.d d.1) ij.1 ij.2 f (c.1 f) (a f))) ≠ 0 := by
      rw [Measure.pi_pi]
      refine Finset.prod_ne_zero_iff.mpr fun f _ => ?_
      unfold uniform01
      rw [Measure.restrict_apply measurableSet_Iio]
      have hsub : Set.Ioo (0 : ℝ) (min 1 (rowAcc (sourceArray d.2) (hasComponents m.d d.1) ij.1 ij.2 f (c.1 f) (a f))) ⊆
          Set.Iio (rowAcc (sourceArray d.2) (hasComponents m.d d.1) ij.1 ij.2 f (c.1 f) (a f)) ∩ Set.Ico 0 1 := fun u hu =>
        ⟨lt_of_lt_of_le hu.2 (min_le_right _ _), hu.1.le, lt_of_lt_of_le hu.2 (min_le_left _ _)⟩
      refine fun h => absurd (measure_mono_null hsub h) ?_
      rw [Real.volume_Ioo, sub_zero, ENNReal.ofReal_eq_zero, not_le]
      exact lt_min one_pos (hr f)
    obtain ⟨u, hu1, hu2⟩ := (Filter.Frequently.and_eventually (frequently_ae_mem_iff.mpr hbox) hH0).exists
    have e : (fun f => rowStep (sourceArray d.2) (hasComponents m.d d.1) ij.1 ij.2 f (c.1 f) (a f) (u f)) =
        fun f => Effects.along (c.1 f) ij.2 ij.1 (a f) := by
      funext f
      unfold rowStep
      have hlt : u f < rowAcc (sourceArray d.2) (hasComponents m.d d.1) ij.1 ij.2 f (c.1 f) (a f) := hu1 f (Set.mem_univ f)
      rw [if_pos hlt, mixPair_eq_along hij (hc.w f).2]
    have hu3 : B.indicator (1 : Disc K N F M × Cont K F S M nG → ℝ≥0∞)
        (d, (fun f => rowStep (sourceArray d.2) (hasComponents m.d d.1) ij.1 ij.2 f (c.1 f) (a f) (u f)), c.2) = 0 := hu2
    rw [e] at hu3
    exact indicator_zero hu3
  filter_upwards [(ae_target hm hs).mp h.out d hd, (ae_target hm hs).mp h.stay d hd, interior_ae hm.hasState] with c h1 h2 hc
  by_cases hcA : (d, c) ∈ A
  · refine (key Aᶜ hA.compl c hc (h2 hcA)).mono fun a ha => ?_
    exact ⟨fun _ => hcA, fun _ => not_not.mp ha⟩
  · refine (key A hA c hc (h1 hcA)).mono fun a ha => ?_
    exact ⟨fun h' => absurd h' ha, fun h' => absurd h' hcA⟩

/-- The weights of a feature do not matter. -/
theorem weights_triv (hm : WellPosed m) (hs : m.cfg.sampleSource = true) (hA : MeasurableSet A)
    (h : ∀ ij : Fin (M + 1) × Fin (M + 1), ij.1 ≠ ij.2 → Splits (target m Prod.fst (Kernel.post m)) (weightsMove m ij) A)
    {d : Disc K N F M} (hd : Good m d) (f : Fin F) :
    ∀ᵐ c ∂contRef m.cfg.app, Triv (uniformSimplex Finset.univ) {v | (wLens f).set c v ∈ {c | (d, c) ∈ A}} := by
  have p0 : IsProbabilityMeasure (uniformSimplex (Finset.univ : Finset (Fin (M + 1)))) := uniformSimplex_prob Finset.univ_nonempty
  refine triv_row Finset.univ_nonempty (wLens f) (measurableSet_fibre hA d) (refresh_w f refresh_const') fun i _ j _ hij => ?_
  have hQ := weights_resplit hm hs (ij := (j, i)) (Ne.symm hij) hA (h (j, i) (Ne.symm hij)) hd
  have hR := (refresh_w (app := m.cfg.app) (K := K) (nG := nG) f (refresh_along (Finset.mem_univ i) (Finset.mem_univ j) hij)).ae hQ
  have hne : Filter.NeBot (ae (Measure.pi fun _ : Fin F => volume.restrict (Set.Ioo (0 : ℝ) 1))) := by
    rw [ae_neBot, ← Measure.measure_univ_ne_zero, Measure.pi_univ]
    simp
  filter_upwards [hQ, hR] with c h1 h2
  refine h2.mono fun t ht => ?_
  obtain ⟨a, ha1, ha2⟩ := (h1.and ht).exists
  have e : resplit ((wLens f).set c (Effects.along ((wLens f).get c) i j t)) i j a = resplit c i j a := by
    unfold resplit
    refine Prod.ext (funext fun f' => ?_) rfl
    show Effects.along (Function.update c.1 f (Effects.along (c.1 f) i j t) f') i j (a f') = Effects.along (c.1 f') i j (a f')
    by_cases hf : f' = f
    · subst hf
      rw [Function.update_self, along_along _ hij]
    · rw [Function.update_of_ne hf]
  rw [e] at ha2
  exact ha2.symm.trans ha1

end Sets

end SBayes.Meas
