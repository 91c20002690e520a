import Verif.Lemmas.SamplerMeas
import Verif.Lemmas.ClusterSource
import Verif.Lemmas.Effects
/- The posterior as a function of the discrete and continuous parameters. -/
namespace SBayes.Meas
open SBayes.Lik SBayes.Clusters SBayes.MH SBayes.Source SBayes.Effects SBayes.Posterior SBayes.Draws SBayes.Kernel SBayes.Prior MeasureTheory
open scoped BigOperators ENNReal

variable {K N F S M C G : ℕ} {nG : Fin M → ℕ}

/-- A probability vector that is positive exactly on `A`. -/
def Row {n : ℕ} (A : Finset (Fin n)) (v : Fin n → ℝ) : Prop := (∀ i, if i ∈ A then 0 < v i else v i = 0) ∧ ∑ i, v i = 1

/-- Weights and effects in the interior of their simplices. -/
structure Interior (app : Fin F → Fin S → Bool) (c : Cont K F S M nG) : Prop where
  w : ∀ f, Row Finset.univ (c.1 f)
  e : ∀ k f, Row (states app f) (c.2.1 k f)
  ce : ∀ i g f, Row (states app f) (c.2.2 i g f)

theorem Row.pos {n : ℕ} {A : Finset (Fin n)} {v : Fin n → ℝ} (h : Row A v) {i : Fin n} (hi : i ∈ A) : 0 < v i := by
  have := h.1 i
  rwa [if_pos hi] at this

theorem Row.zero {n : ℕ} {A : Finset (Fin n)} {v : Fin n → ℝ} (h : Row A v) {i : Fin n} (hi : i ∉ A) : v i = 0 := by
  have := h.1 i
  rwa [if_neg hi] at this

theorem mem_states {app : Fin F → Fin S → Bool} {f : Fin F} {s : Fin S} : s ∈ states app f ↔ app f s = true := by
  simp [states]

theorem Row.along {n : ℕ} {A : Finset (Fin n)} {v : Fin n → ℝ} (h : Row A v) {i j : Fin n} (hi : i ∈ A) (hj : j ∈ A)
    (hij : i ≠ j) {t : ℝ} (ht : t ∈ Set.Ioo (0 : ℝ) 1) : Row A (Effects.along v i j t) := by
  have hm : 0 < v i + v j := add_pos (h.pos hi) (h.pos hj)
  refine ⟨fun k => ?_, by rw [Effects.sum_along v hij]; exact h.2⟩
  by_cases hkj : k = j
  · subst hkj
    rw [if_pos hj, along_right]
    exact mul_pos (by linarith [ht.2]) hm
  by_cases hki : k = i
  · subst hki
    rw [if_pos hi, along_left v hij]
    exact mul_pos ht.1 hm
  · rw [along_other v hki hkj]
    exact h.1 k

theorem interior_ae {app : Fin F → Fin S → Bool} (h : ∀ f, ∃ s, app f s = true) :
    ∀ᵐ c ∂(contRef app : Measure (Cont K F S M nG)), Interior app c := by
  have hne : ∀ f, (states app f).Nonempty := fun f => by
    obtain ⟨s, hs⟩ := h f
    exact ⟨s, mem_states.mpr hs⟩
  have hpi : ∀ᵐ x ∂Measure.pi fun f => uniformSimplex (states app f), ∀ f, Row (states app f) (x f) := by
    rw [ae_all_iff]
    intro f
    exact (Measure.quasiMeasurePreserving_eval (fun f => uniformSimplex (states app f)) f).ae (uniformSimplex_ae (hne f))
  have h1 : ∀ᵐ x ∂Measure.pi fun _ : Fin F => uniformSimplex (Finset.univ : Finset (Fin (M + 1))),
      ∀ f, Row Finset.univ (x f) := by
    rw [ae_all_iff]
    intro f
    exact (Measure.quasiMeasurePreserving_eval (fun _ : Fin F => uniformSimplex (Finset.univ : Finset (Fin (M + 1)))) f).ae
      (uniformSimplex_ae Finset.univ_nonempty)
  have h2 : ∀ᵐ x ∂Measure.pi fun _ : Fin K => Measure.pi fun f => uniformSimplex (states app f),
      ∀ k f, Row (states app f) (x k f) := by
    rw [ae_all_iff]
    intro k
    exact (Measure.quasiMeasurePreserving_eval (fun _ : Fin K => Measure.pi fun f => uniformSimplex (states app f)) k).ae hpi
  have h3 : ∀ᵐ x ∂Measure.pi fun c => Measure.pi fun _ : Fin (nG c) => Measure.pi fun f => uniformSimplex (states app f),
      ∀ c g f, Row (states app f) (x c g f) := by
    rw [ae_all_iff]
    intro c
    refine (Measure.quasiMeasurePreserving_eval
      (fun c => Measure.pi fun _ : Fin (nG c) => Measure.pi fun f => uniformSimplex (states app f)) c).ae
      (p := fun x => ∀ g f, Row (states app f) (x g f)) ?_
    rw [ae_all_iff]
    intro g
    exact (Measure.quasiMeasurePreserving_eval (fun _ : Fin (nG c) => Measure.pi fun f => uniformSimplex (states app f)) g).ae hpi
  unfold contRef
  have q1 := Measure.quasiMeasurePreserving_fst
    (μ := Measure.pi fun _ : Fin F => uniformSimplex (Finset.univ : Finset (Fin (M + 1))))
    (ν := (Measure.pi fun _ : Fin K => Measure.pi fun f => uniformSimplex (states app f)).prod
      (Measure.pi fun c => Measure.pi fun _ : Fin (nG c) => Measure.pi fun f => uniformSimplex (states app f)))
  have q2 := Measure.quasiMeasurePreserving_snd
    (μ := Measure.pi fun _ : Fin F => uniformSimplex (Finset.univ : Finset (Fin (M + 1))))
    (ν := (Measure.pi fun _ : Fin K => Measure.pi fun f => uniformSimplex (states app f)).prod
      (Measure.pi fun c => Measure.pi fun _ : Fin (nG c) => Measure.pi fun f => uniformSimplex (states app f)))
  have q3 := Measure.quasiMeasurePreserving_fst (μ := Measure.pi fun _ : Fin K => Measure.pi fun f => uniformSimplex (states app f))
    (ν := Measure.pi fun c => Measure.pi fun _ : Fin (nG c) => Measure.pi fun f => uniformSimplex (states app f))
  have q4 := Measure.quasiMeasurePreserving_snd (μ := Measure.pi fun _ : Fin K => Measure.pi fun f => uniformSimplex (states app f))
    (ν := Measure.pi fun c => Measure.pi fun _ : Fin (nG c) => Measure.pi fun f => uniformSimplex (states app f))
  filter_upwards [q1.ae h1, q2.ae (q3.ae h2), q2.ae (q4.ae h3)] with c a b d
  exact ⟨a, b, d⟩

/-- Everything a run relies on holds in the interior. -/
theorem Interior.positive {m : Setup K N F S M nG} (hm : WellPosed m) {c : Cont K F S M nG} (h : Interior m.cfg.app c) :
    PositiveModel m.d c.1 c.2.1 c.2.2 where
  weights f i := (h.w f).pos (Finset.mem_univ i)
  onehot n f := (hm.observed n f).imp_right fun ⟨s, hs, _⟩ => ⟨s, hs⟩
  cluster k n f s hs := by
    refine (h.e k f).pos (mem_states.mpr ?_)
    rcases hm.observed n f with hna | ⟨s', hs', happ⟩
    · exact absurd (hs s) (by simp [hna s])
    · rwa [(hs s').mp ((hs' s').mpr rfl)] at happ
  conf i g n f s _ hs := by
    refine (h.ce i g f).pos (mem_states.mpr ?_)
    rcases hm.observed n f with hna | ⟨s', hs', happ⟩
    · exact absurd (hs s) (by simp [hna s])
    · rwa [(hs s').mp ((hs' s').mpr rfl)] at happ
  disjoint := hm.disjoint
  covered := hm.covered

/-- The part of the posterior that depends on the clusters alone. -/
noncomputable def clusterTerm (m : Setup K N F S M nG) (z : Clus K N) : ℝ :=
  Real.exp (sizePrior m.cfg.size z) * Real.exp ((geoTerm m.cfg.geo z).getD 0)

theorem clusterTerm_pos (m : Setup K N F S M nG) (z : Clus K N) : 0 < clusterTerm m z :=
  mul_pos (Real.exp_pos _) (Real.exp_pos _)

theorem prod_eye (h : Fin (M + 1) → ℝ) (k : Fin (M + 1)) : (∏ c, if eye k c then h c else 1) = h k := by
  unfold eye
  have : ∀ c, (if (k == c) = true then h c else 1) = if k = c then h c else 1 := fun c => by simp
  simp only [this, Finset.prod_ite_eq, Finset.mem_univ, if_true]

theorem valid_disjoint {lo hi : ℕ} {z : Clus K N} (hz : Valid lo hi z) : DisjointGroups z := hz.disjoint

theorem updateComponents_eq {m : Setup K N F S M nG} (hm : WellPosed m) {z : Clus K N} (hz : DisjointGroups z)
    (w : Fin F → Fin (M + 1) → ℝ) (e : Fin K → Fin F → Fin S → ℝ) (ce : (c : Fin M) → Fin (nG c) → Fin F → Fin S → ℝ)
    (src : Option (Fin N → Fin F → Fin (M + 1) → Bool)) :
    updateComponents m.d { clusters := z, weights := w, clusterEffect := e, confEffect := ce, source := src }
      m.clOrder m.confOrder m.empty = componentLh m.d e ce z := by
  funext n f
  unfold updateComponents componentLh
  have hall : ∀ n, VisitsAll (List.finRange n) := fun n g => List.mem_finRange g
  congr 1
  · rw [compute_all_eq hz hm.clOrder, compute_all_eq hz (hall K)]
  · funext c
    unfold confLh
    rw [compute_all_eq (hm.disjoint c) (hm.confOrder c), compute_all_eq (hm.disjoint c) (hall _)]

theorem post_eq {m : Setup K N F S M nG} (hm : WellPosed m) (hs : m.cfg.sampleSource = true) {z : Clus K N}
    (hz : Valid m.cl.minSize m.cl.maxSize z) (s : Fin N × Fin F → Fin (M + 1)) (c : Cont K F S M nG) :
    post m ((z, s), c) = (∏ n, ∏ f, componentLh m.d c.2.1 c.2.2 z n f (s (n, f))) *
      (clusterTerm m z * (∏ i, ∏ g, confEffectPrior m.cfg.app (m.cfg.conf i g) (c.2.2 i g)) *
        ∏ n, ∏ f, normalizeWeights c.1 (hasComponents m.d z) n f (s (n, f))) := by
  obtain ⟨geo, hgeo⟩ := Option.isSome_iff_exists.mp (hm.geo z hz)
  have h1 : ∀ h : Fin N → Fin F → Fin (M + 1) → ℝ, (((ravelIdx N F (M + 1)).filter fun t =>
      sourceArray s t.1 t.2.1 t.2.2).map fun t => h t.1 t.2.1 t.2.2).prod = ∏ n, ∏ f, h n f (s (n, f)) := by
    intro h
    rw [prod_filter_ravel]
    exact Finset.prod_congr rfl fun n _ => Finset.prod_congr rfl fun f _ => prod_eye (h n f) _
  unfold post posterior prior params clusterTerm
  dsimp only
  rw [hgeo, hs]
  simp only [sourceTerm, Option.bind_eq_bind, Option.bind_some, Option.map_some, Option.getD_some]
  unfold freshObservationLhs
  dsimp only
  rw [updateComponents_eq hm (valid_disjoint hz)]
  unfold observationLhs likelihood sourceWeights
  dsimp only
  rw [h1, h1]

theorem post0_eq {m : Setup K N F S M nG} (hm : WellPosed m) (hs : m.cfg.sampleSource = false) {z : Clus K N}
    (hz : Valid m.cl.minSize m.cl.maxSize z) (c : Cont K F S M nG) :
    post0 m (z, c) = (∏ n, ∏ f, ∑ i, normalizeWeights c.1 (hasComponents m.d z) n f i * componentLh m.d c.2.1 c.2.2 z n f i) *
      (clusterTerm m z * (∏ i, ∏ g, confEffectPrior m.cfg.app (m.cfg.conf i g) (c.2.2 i g))) := by
  obtain ⟨geo, hgeo⟩ := Option.isSome_iff_exists.mp (hm.geo z hz)
  unfold post0 posterior prior params0 clusterTerm
  dsimp only
  rw [hgeo, hs]
  simp only [sourceTerm, Option.bind_eq_bind, Option.bind_some, Option.map_some, Option.getD_some]
  unfold freshObservationLhs
  dsimp only
  rw [updateComponents_eq hm (valid_disjoint hz), likelihood_none, mul_one]

theorem dirichletPdf_pos {ι : Type} {A : Finset ι} (hA : A.Nonempty) {alpha x : ι → ℝ} (ha : ∀ i ∈ A, 0 < alpha i)
    (hx : ∀ i ∈ A, 0 < x i) : 0 < dirichletPdf A alpha x := by
  unfold dirichletPdf
  refine mul_pos (div_pos (Real.Gamma_pos_of_pos (Finset.sum_pos ha hA)) ?_) ?_
  · exact Finset.prod_pos fun i hi => Real.Gamma_pos_of_pos (ha i hi)
  · exact Finset.prod_pos fun i hi => Real.rpow_pos_of_pos (hx i hi) _

theorem confPrior_pos {m : Setup K N F S M nG} (hm : WellPosed m) {c : Cont K F S M nG} (h : Interior m.cfg.app c)
    (i : Fin M) (g : Fin (nG i)) : 0 < confEffectPrior m.cfg.app (m.cfg.conf i g) (c.2.2 i g) := by
  unfold confEffectPrior
  rcases hc : m.cfg.conf i g with _ | a
  · exact one_pos
  · refine Finset.prod_pos fun f _ => dirichletPdf_pos ?_ ?_ ?_
    · obtain ⟨s, hs⟩ := hm.hasState f
      exact ⟨s, mem_states.mpr hs⟩
    · intro s hs
      exact hm.conc i g a hc f s (mem_states.mp hs)
    · intro s hs
      exact (h.ce i g f).pos hs

theorem has_some {m : Setup K N F S M nG} (hm : WellPosed m) (z : Clus K N) (n : Fin N) :
    ∃ c, hasComponents m.d z n c = true := by
  obtain ⟨c, g, h⟩ := hm.covered n
  refine ⟨c.succ, ?_⟩
  unfold hasComponents
  rw [Fin.cons_succ]
  exact anyGroup_iff.mpr ⟨g, h⟩

theorem post0_pos {m : Setup K N F S M nG} (hm : WellPosed m) (hs : m.cfg.sampleSource = false) {z : Clus K N}
    (hz : Valid m.cl.minSize m.cl.maxSize z) {c : Cont K F S M nG} (h : Interior m.cfg.app c) : 0 < post0 m (z, c) := by
  rw [post0_eq hm hs hz]
  have hp := h.positive hm
  refine mul_pos (Finset.prod_pos fun n _ => Finset.prod_pos fun f _ => ?_)
    (mul_pos (clusterTerm_pos m z) (Finset.prod_pos fun i _ => Finset.prod_pos fun g _ => confPrior_pos hm h i g))
  obtain ⟨i, hi⟩ := has_some hm z n
  refine Finset.sum_pos' (fun j _ => mul_nonneg (normalizeWeights_pos hp.weights _ n f j).1
    (componentLh_pos hp (valid_disjoint hz) n f j).1) ⟨i, Finset.mem_univ i, ?_⟩
  exact mul_pos ((normalizeWeights_pos hp.weights _ n f i).2 hi) ((componentLh_pos hp (valid_disjoint hz) n f i).2 hi)

theorem post_nonneg {m : Setup K N F S M nG} (hm : WellPosed m) (hs : m.cfg.sampleSource = true) {z : Clus K N}
    (hz : Valid m.cl.minSize m.cl.maxSize z) (s : Fin N × Fin F → Fin (M + 1)) {c : Cont K F S M nG}
    (h : Interior m.cfg.app c) : 0 ≤ post m ((z, s), c) := by
  rw [post_eq hm hs hz]
  have hp := h.positive hm
  refine mul_nonneg (Finset.prod_nonneg fun n _ => Finset.prod_nonneg fun f _ => (componentLh_pos hp (valid_disjoint hz) n f _).1)
    (mul_nonneg (mul_nonneg (clusterTerm_pos m z).le
      (Finset.prod_nonneg fun i _ => Finset.prod_nonneg fun g _ => (confPrior_pos hm h i g).le))
      (Finset.prod_nonneg fun n _ => Finset.prod_nonneg fun f _ => (normalizeWeights_pos hp.weights _ n f _).1))

/-- Positive posterior: exactly the sources that have positive probability given everything else. -/
theorem post_pos_iff {m : Setup K N F S M nG} (hm : WellPosed m) (hs : m.cfg.sampleSource = true) {z : Clus K N}
    (hz : Valid m.cl.minSize m.cl.maxSize z) (s : Fin N × Fin F → Fin (M + 1)) {c : Cont K F S M nG}
    (h : Interior m.cfg.app c) : 0 < post m ((z, s), c) ↔
      ∀ n f, sourcePosterior m.d c.1 c.2.1 c.2.2 z n f (s (n, f)) ≠ 0 := by
  have hp := h.positive hm
  have hlh := fun n f i => (componentLh_pos hp (valid_disjoint hz) n f i)
  have hw := fun n f i => normalizeWeights_pos hp.weights (hasComponents m.d z) n f i
  have hsum : ∀ n f, 0 < ∑ i, componentLh m.d c.2.1 c.2.2 z n f i * normalizeWeights c.1 (hasComponents m.d z) n f i := by
    intro n f
    obtain ⟨i, hi⟩ := has_some hm z n
    exact Finset.sum_pos' (fun j _ => mul_nonneg (hlh n f j).1 (hw n f j).1)
      ⟨i, Finset.mem_univ i, mul_pos ((hlh n f i).2 hi) ((hw n f i).2 hi)⟩
  have hiff : ∀ n f, sourcePosterior m.d c.1 c.2.1 c.2.2 z n f (s (n, f)) ≠ 0 ↔
      componentLh m.d c.2.1 c.2.2 z n f (s (n, f)) ≠ 0 ∧ normalizeWeights c.1 (hasComponents m.d z) n f (s (n, f)) ≠ 0 := by
    intro n f
    unfold sourcePosterior
    dsimp only
    rw [div_ne_zero_iff, mul_ne_zero_iff]
    exact ⟨fun h => h.1, fun h => ⟨h, (hsum n f).ne'⟩⟩
  have hC : 0 < clusterTerm m z * ∏ i, ∏ g, confEffectPrior m.cfg.app (m.cfg.conf i g) (c.2.2 i g) :=
    mul_pos (clusterTerm_pos m z) (Finset.prod_pos fun i _ => Finset.prod_pos fun g _ => confPrior_pos hm h i g)
  have hnn := post_nonneg hm hs hz s h
  constructor
  · intro hpos n f
    rw [hiff]
    have hne := hpos.ne'
    rw [post_eq hm hs hz] at hne
    have h1 := left_ne_zero_of_mul hne
    have h2 := right_ne_zero_of_mul (right_ne_zero_of_mul hne)
    exact ⟨Finset.prod_ne_zero_iff.mp (Finset.prod_ne_zero_iff.mp h1 n (Finset.mem_univ n)) f (Finset.mem_univ f),
      Finset.prod_ne_zero_iff.mp (Finset.prod_ne_zero_iff.mp h2 n (Finset.mem_univ n)) f (Finset.mem_univ f)⟩
  · intro hall
    refine lt_of_le_of_ne hnn (Ne.symm ?_)
    rw [post_eq hm hs hz]
    refine mul_ne_zero (Finset.prod_ne_zero_iff.mpr fun n _ => Finset.prod_ne_zero_iff.mpr fun f _ => ((hiff n f).mp (hall n f)).1)
      (mul_ne_zero hC.ne' (Finset.prod_ne_zero_iff.mpr fun n _ => Finset.prod_ne_zero_iff.mpr fun f _ => ((hiff n f).mp (hall n f)).2))

end SBayes.Meas
