import Verif.Lemmas.ErgoTotal
import Verif.Lemmas.SamplerAlter
import Verif.Lemmas.Thin
import Verif.Props.Reach
import Verif.Spec.NoSource
/- The sampler without sources: total mass, kernel, and sets that all operators respect. -/
namespace SBayes.Meas
set_option linter.unusedSectionVars false
open SBayes.Lik SBayes.Clusters SBayes.MH SBayes.Source SBayes.Effects SBayes.Posterior SBayes.Draws SBayes.Kernel SBayes.MCMC MeasureTheory
open scoped BigOperators ENNReal

variable {K N F S M C G : ℕ} {nG : Fin M → ℕ} {m : Setup K N F S M nG}

theorem measurableSet_fibre0 {A : Set (Clus K N × Cont K F S M nG)} (hA : MeasurableSet A) (z : Clus K N) :
    MeasurableSet {c | (z, c) ∈ A} := (measurable_const.prodMk measurable_id) hA

/-- Almost everywhere with respect to the posterior. -/
theorem ae_target0 (hm : WellPosed m) (hs : m.cfg.sampleSource = false) {P : Clus K N × Cont K F S M nG → Prop} :
    (∀ᵐ x ∂target m id (post0 m), P x) ↔ ∀ z, Valid m.cl.minSize m.cl.maxSize z → ∀ᵐ c ∂contRef m.cfg.app, P (z, c) := by
  classical
  constructor
  · intro h d hd
    obtain ⟨s, hsub, hsm, h0⟩ := exists_measurable_superset_of_null (ae_iff.mp h)
    have hi : Measurable (s.indicator (1 : Clus K N × Cont K F S M nG → ℝ≥0∞)) := measurable_one.indicator hsm
    rw [← lintegral_indicator_one hsm, lintegral_target (meas_post0 m) hi, Finset.sum_eq_zero_iff] at h0
    have h1 := h0 d (Finset.mem_univ d)
    have hmm : Measurable fun c => dens m id (post0 m) d c * s.indicator (1 : Clus K N × Cont K F S M nG → ℝ≥0∞) (d, c) :=
      (measurable_dens (meas_post0 m) d).mul (hi.comp (measurable_const.prodMk measurable_id))
    rw [lintegral_eq_zero_iff hmm] at h1
    filter_upwards [h1, interior_ae hm.hasState] with c hc hint
    by_contra hP
    have hmem : (d, c) ∈ s := hsub hP
    have hc' : dens m id (post0 m) d c * s.indicator (1 : Clus K N × Cont K F S M nG → ℝ≥0∞) (d, c) = 0 := hc
    rw [Set.indicator_of_mem hmem, dens_valid (clusters := id) hd, Pi.one_apply, mul_one, ENNReal.ofReal_eq_zero] at hc'
    exact absurd (post0_pos hm hs hd hint) (not_lt.mpr hc')
  · intro h
    have hex : ∀ d, ∃ s : Set (Cont K F S M nG), MeasurableSet s ∧ (∀ c, ¬ P (d, c) → c ∈ s) ∧
        (Valid m.cl.minSize m.cl.maxSize d → contRef m.cfg.app s = 0) := by
      intro d
      by_cases hd : Valid m.cl.minSize m.cl.maxSize d
      · obtain ⟨s, hsub, hsm, h0⟩ := exists_measurable_superset_of_null (ae_iff.mp (h d hd))
        exact ⟨s, hsm, fun c hc => hsub hc, fun _ => h0⟩
      · exact ⟨Set.univ, MeasurableSet.univ, fun _ _ => Set.mem_univ _, fun h' => absurd h' hd⟩
    choose s hsm hsub h0 using hex
    let R : Set (Clus K N × Cont K F S M nG) := {x | x.2 ∈ s x.1}
    have hR : MeasurableSet R := by
      have : R = ⋃ d, ({d} : Set (Clus K N)) ×ˢ s d := by
        ext x
        simp only [R, Set.mem_ofPred_eq, Set.mem_iUnion, Set.mem_prod, Set.mem_singleton_iff]
        exact ⟨fun hx => ⟨x.1, rfl, hx⟩, fun ⟨d, hd, hx⟩ => hd ▸ hx⟩
      rw [this]
      exact MeasurableSet.iUnion fun d => (MeasurableSet.singleton d).prod (hsm d)
    have hPR : {x | ¬ P x} ⊆ R := fun x hx => hsub x.1 x.2 hx
    refine ae_iff.mpr (measure_mono_null hPR ?_)
    have hi : Measurable (R.indicator (1 : Clus K N × Cont K F S M nG → ℝ≥0∞)) := measurable_one.indicator hR
    rw [← lintegral_indicator_one hR, lintegral_target (meas_post0 m) hi]
    refine Finset.sum_eq_zero fun d _ => ?_
    by_cases hd : Valid m.cl.minSize m.cl.maxSize d
    · have hmm : Measurable fun c => dens m id (post0 m) d c * R.indicator (1 : Clus K N × Cont K F S M nG → ℝ≥0∞) (d, c) :=
        (measurable_dens (meas_post0 m) d).mul (hi.comp (measurable_const.prodMk measurable_id))
      rw [lintegral_eq_zero_iff hmm]
      have : ∀ᵐ c ∂contRef m.cfg.app, c ∉ s d := measure_eq_zero_iff_ae_notMem.mp (h0 d hd)
      filter_upwards [this] with c hc
      have : (d, c) ∉ R := hc
      show dens m id (post0 m) d c * R.indicator (1 : Clus K N × Cont K F S M nG → ℝ≥0∞) (d, c) = 0
      rw [Set.indicator_of_notMem this, mul_zero]
    · have : ∀ c, dens m id (post0 m) d c = 0 := fun c => dens_invalid (clusters := id) hd c
      simp only [this, zero_mul, lintegral_zero]

/-! ### Clusters -/

/-- The step of `AlterCluster`, for given continuous parameters. -/
theorem alterCluster_step (hm : WellPosed m) (hs : m.cfg.sampleSource = false) {c : Cont K F S M nG} (hc : Interior m.cfg.app c) (v : Bool)
    {z : Clus K N} (hz : Valid m.cl.minSize m.cl.maxSize z) :
    IsDist (MH.step (fun z => post0 m (z, c)) (alterCluster m.cl) z) ∧
      ∀ g, mhStep (post0 m) (propose0 m (.cluster v)) (z, c) g =
        Law.ofRand (MH.step (fun z => post0 m (z, c)) (alterCluster m.cl) z) fun z => g (z, c) := by
  have hK : 0 < (K : ℝ) := by exact_mod_cast hm.hasCluster
  have hdist : ∀ z : Clus K N, Valid m.cl.minSize m.cl.maxSize z → IsDist (alterCluster m.cl z) := fun z _ =>
    alterCluster_isDist m.cl hm.hasCluster hm.pConn.1 hm.pConn.2 z
  refine ⟨step_isDist (P := Valid m.cl.minSize m.cl.maxSize) (b := 1 / (2 * (K : ℝ))) (by positivity) hdist
    (C17_alterCluster_reports_real_masses m.cl) ?_ (fun z hz => post0_pos hm hs hz hc) hz, fun g => ?_⟩
  · intro z hz r w hr hnew
    rcases C16_alterCluster_keeps_constraints m.cl z hz r w hr with h | ⟨-, k, o, ho, -⟩
    · exact h.2
    · rw [hnew] at ho
      simp at ho
  · have e := mhStep_disc (post := post0 m) (fun _ z => alterCluster m.cl z) z c g
    exact e.trans (ofRand_step (hdist z hz).1 _).symm

/-- If no cluster move leaves the set, it contains all valid configurations or none. -/
theorem alter_disc_const (hm : WellPosed m) (hs : m.cfg.sampleSource = false) (hN : K * m.cl.minSize < N)
    (hp1 : m.cl.pConn < 1) (hsz : m.cl.minSize < m.cl.maxSize) {A : Set (Clus K N × Cont K F S M nG)} {c : Cont K F S M nG}
    (hc : Interior m.cfg.app c) {v : Bool}
    (h2 : ∀ z, Valid m.cl.minSize m.cl.maxSize z → (z, c) ∈ A → mhStep (post0 m) (propose0 m (.cluster v)) (z, c) (Aᶜ.indicator 1) = 0)
    {z z' : Clus K N} (hz : Valid m.cl.minSize m.cl.maxSize z) (hz' : Valid m.cl.minSize m.cl.maxSize z') (hmem : (z, c) ∈ A) :
    (z', c) ∈ A := by
  classical
  have hmoves := alterCluster_moves (K := K) hm.hasCluster hm.pConn.1 hp1 hsz (post := fun z => post0 m (z, c))
    fun z hz => post0_pos hm hs hz hc
  have hall : Valid m.cl.minSize m.cl.maxSize z' ∧ (z', c) ∈ A := by
    have hcon := connect hmoves hN hz hz'
    clear hz'
    induction hcon with
    | refl => exact ⟨hz, hmem⟩
    | @tail y y' _ hstep ih =>
      obtain ⟨hy, hyA⟩ := ih
      obtain ⟨hd, heq⟩ := alterCluster_step hm hs hc v hy
      have h0 := h2 y hy hyA
      rw [heq] at h0
      have := ofRand_zero hd.1 h0 hstep
      refine ⟨?_, not_not.mp (indicator_zero this)⟩
      by_cases hne : y' = y
      · rw [hne]; exact hy
      obtain ⟨r, w, hr, -, he⟩ := exists_path hstep hne
      rcases C16_alterCluster_keeps_constraints m.cl y hy r w hr with h | h
      · exact absurd (he.symm.trans h.1) hne
      · rw [← he]; exact h.1
  exact hall.2

/-! ### Pairs of entries -/

/-- A row whose entries `i`, `j` can be redistributed. -/
structure PairOk (m : Setup K N F S M nG) (L : Lens (Cont K F S M nG) (Fin C → ℝ)) (i j : Fin C) : Prop where
  ne : i ≠ j
  refresh : Refresh (contRef m.cfg.app : Measure (Cont K F S M nG)) (volume.restrict (Set.Ioo (0 : ℝ) 1))
    fun x t => L.set x (along (L.get x) i j t)
  pos : ∀ c, Interior m.cfg.app c → 0 < L.get c i ∧ 0 < L.get c j ∧
    ∀ t ∈ Set.Ioo (0 : ℝ) 1, Interior m.cfg.app (L.set c (along (L.get c) i j t))

theorem pairOk_w (f : Fin F) {i j : Fin (M + 1)} (hne : i ≠ j) : PairOk m (wLens f) i j :=
  ⟨hne, refresh_w f (refresh_along (Finset.mem_univ _) (Finset.mem_univ _) hne), fun _ hc =>
    ⟨(hc.w f).pos (Finset.mem_univ _), (hc.w f).pos (Finset.mem_univ _),
      fun _ ht => hc.set_w f ((hc.w f).along (Finset.mem_univ _) (Finset.mem_univ _) hne ht)⟩⟩

theorem pairOk_e (k : Fin K) (f : Fin F) {i j : Fin S} (hne : i ≠ j) (hi : m.cfg.app f i = true) (hj : m.cfg.app f j = true) :
    PairOk m ((eLens k).comp (Lens.pi _ f)) i j :=
  ⟨hne, refresh_e k (refresh_feature hi hj hne), fun _ hc =>
    ⟨(hc.e k f).pos (mem_states.mpr hi), (hc.e k f).pos (mem_states.mpr hj),
      fun _ ht => hc.set_e k (rows_along (hc.e k) hi hj hne ht)⟩⟩

theorem pairOk_ce (a : Fin M) (g : Fin (nG a)) (f : Fin F) {i j : Fin S} (hne : i ≠ j) (hi : m.cfg.app f i = true)
    (hj : m.cfg.app f j = true) : PairOk m ((ceLens a g).comp (Lens.pi _ f)) i j :=
  ⟨hne, refresh_ce a g (refresh_feature hi hj hne), fun _ hc =>
    ⟨(hc.ce a g f).pos (mem_states.mpr hi), (hc.ce a g f).pos (mem_states.mpr hj),
      fun _ ht => hc.set_ce a g (rows_along (hc.ce a g) hi hj hne ht)⟩⟩

section Pair
variable {L : Lens (Cont K F S M nG) (Fin C → ℝ)} {prec : ℝ} {i j : Fin C}

/-- The probability to accept a new share. -/
noncomputable def pairAcc (m : Setup K N F S M nG) (L : Lens (Cont K F S M nG) (Fin C → ℝ)) (prec : ℝ) (i j : Fin C) (z : Clus K N)
    (c : Cont K F S M nG) (t : ℝ) : ℝ :=
  acceptProb (post0 m (z, c)) (post0 m (z, L.set c (along (L.get c) i j t))) (alterPair prec (L.get c) i j ![t, 1 - t]).q
    (alterPair prec (L.get c) i j ![t, 1 - t]).qBack

/-- The density of a new share. -/
noncomputable def pairQ (L : Lens (Cont K F S M nG) (Fin C → ℝ)) (prec : ℝ) (i j : Fin C) (c : Cont K F S M nG) (t : ℝ) : ℝ :=
  (alterPair prec (L.get c) i j ![t, 1 - t]).q

theorem pairMove_eq (hprec : 0 ≤ prec) (ho : PairOk m L i j) {c : Cont K F S M nG} (hc : Interior m.cfg.app c) (z : Clus K N)
    {g : Clus K N × Cont K F S M nG → ℝ≥0∞} (hg : Measurable g) :
    pairMove m L prec (i, j) (z, c) g = ∫⁻ t in Set.Ioo (0 : ℝ) 1, ENNReal.ofReal (pairQ L prec i j c t) *
      (ENNReal.ofReal (pairAcc m L prec i j z c t) * g (z, L.set c (along (L.get c) i j t)) +
        ENNReal.ofReal (1 - pairAcc m L prec i j z c t) * g (z, c)) := by
  have hT : pairMove m L prec (i, j) (z, c) g =
      drawShare prec (L.get c) i j (pairH L prec i j (fun c => post0 m (z, c)) (fun c => g (z, c)) c) := by
    unfold pairMove mhStep Law.bind Law.ret pairH
    dsimp only
    congr 1
    funext t
    simp only [Law.ofRand, List.map_cons, List.map_nil, List.sum_cons, List.sum_nil, add_zero]
  obtain ⟨h1, h2, -⟩ := ho.pos c hc
  have hgz : Measurable fun c => g (z, c) := hg.comp (measurable_const.prodMk measurable_id)
  rw [hT, pair_law_eq L (meas_post0 m z) hgz, if_pos fun k => shareAlpha_pos hprec h1 h2 k]
  refine lintegral_congr fun t => ?_
  unfold pairH pairQ pairAcc
  dsimp only
  rw [along_alterPair]

attribute [local irreducible] alterPair

theorem meas_pairQ : Measurable fun x : Cont K F S M nG × ℝ => pairQ L prec i j x.1 x.2 := by
  have hp : Measurable fun _ : Cont K F S M nG => (0 : ℝ) := measurable_const
  have hpair : Measurable fun z : Cont K F S M nG × ℝ => (z.1, (![z.2, 1 - z.2] : Fin 2 → ℝ)) :=
    measurable_fst.prodMk ((measurable_share2 hp).comp measurable_snd)
  exact Measurable.comp (g := fun z : Cont K F S M nG × (Fin 2 → ℝ) => (alterPair prec (L.get z.1) i j z.2).q) (meas_alter_q L hp) hpair

theorem meas_pairAcc (z : Clus K N) : Measurable fun x : Cont K F S M nG × ℝ => pairAcc m L prec i j z x.1 x.2 := by
  have hp := meas_post0 m z
  have hpair : Measurable fun z : Cont K F S M nG × ℝ => (z.1, (![z.2, 1 - z.2] : Fin 2 → ℝ)) :=
    measurable_fst.prodMk ((measurable_share2 hp).comp measurable_snd)
  have := Measurable.comp (g := fun y : Cont K F S M nG × (Fin 2 → ℝ) => acceptProb (post0 m (z, y.1))
    (post0 m (z, L.set y.1 (alterPair prec (L.get y.1) i j y.2).new)) (alterPair prec (L.get y.1) i j y.2).q
      (alterPair prec (L.get y.1) i j y.2).qBack) (meas_alter_acc L hp (prec := prec) (i := i) (j := j)) hpair
  have e : (fun x : Cont K F S M nG × ℝ => pairAcc m L prec i j z x.1 x.2) = fun x => acceptProb (post0 m (z, x.1))
    (post0 m (z, L.set x.1 (alterPair prec (L.get x.1) i j ![x.2, 1 - x.2]).new)) (alterPair prec (L.get x.1) i j ![x.2, 1 - x.2]).q
      (alterPair prec (L.get x.1) i j ![x.2, 1 - x.2]).qBack := by
    funext x
    unfold pairAcc
    rw [along_alterPair]
  rw [e]
  exact this

attribute [local irreducible] pairQ pairAcc

/-- Densities and acceptance probabilities are positive, and the densities sum to one. -/
theorem pair_facts (hm : WellPosed m) (hs : m.cfg.sampleSource = false) (hprec : 0 ≤ prec) (ho : PairOk m L i j) {c : Cont K F S M nG}
    (hc : Interior m.cfg.app c) {z : Clus K N} (hz : Valid m.cl.minSize m.cl.maxSize z) :
    (∀ t ∈ Set.Ioo (0 : ℝ) 1, 0 < pairQ L prec i j c t ∧ 0 < pairAcc m L prec i j z c t ∧ pairAcc m L prec i j z c t ≤ 1) ∧
      ∫⁻ t in Set.Ioo (0 : ℝ) 1, ENNReal.ofReal (pairQ L prec i j c t) = 1 := by
  obtain ⟨hq0, hq1⟩ := pair_density_facts prec hprec
  obtain ⟨h1, h2, h3⟩ := ho.pos c hc
  obtain ⟨a, ha, hav⟩ := two_row h1 h2
  have hsum : 0 < L.get c i + L.get c j := add_pos h1 h2
  have hfac := fun t => alterPair_q (prec := prec) ho.ne hsum a t
  rw [hav] at hfac
  refine ⟨fun t ht => ?_, ?_⟩
  · have p1 := hq0 a ha t ht
    have p2 := hq0 t ht a ha
    have p3 := post0_pos hm hs hz hc
    have p4 := post0_pos hm hs hz (h3 t ht)
    refine ⟨by unfold pairQ; rw [(hfac t).1]; exact p1, ?_⟩
    unfold pairAcc
    rw [(hfac t).1, (hfac t).2.1]
    refine ⟨?_, (accept_mem p3.le p4.le p1.le p2.le).2⟩
    unfold acceptProb
    rw [if_neg p2.ne', if_neg p1.ne']
    exact lt_min one_pos (mul_pos (div_pos p4 p3) (div_pos p2 p1))
  · rw [← hq1 a ha]
    refine lintegral_congr fun t => ?_
    unfold pairQ
    rw [(hfac t).1]

theorem pairMove_mass (hm : WellPosed m) (hs : m.cfg.sampleSource = false) (hprec : 0 ≤ prec) (ho : PairOk m L i j) {c : Cont K F S M nG}
    (hc : Interior m.cfg.app c) {z : Clus K N} (hz : Valid m.cl.minSize m.cl.maxSize z) : pairMove m L prec (i, j) (z, c) 1 = 1 := by
  obtain ⟨h1, h2⟩ := pair_facts hm hs hprec ho hc hz
  rw [pairMove_eq hprec ho hc z measurable_one, ← h2]
  refine setLIntegral_congr_fun measurableSet_Ioo fun t ht => ?_
  obtain ⟨-, h3, h4⟩ := h1 t ht
  simp only [Pi.one_apply, mul_one]
  rw [← ENNReal.ofReal_add h3.le (sub_nonneg.mpr h4), add_sub_cancel, ENNReal.ofReal_one, mul_one]

theorem pairMove_isMeas (hprec : 0 ≤ prec) (ho : PairOk m L i j) {c : Cont K F S M nG} (hc : Interior m.cfg.app c) (z : Clus K N) :
    IsMeas (pairMove m L prec (i, j) (z, c)) := by
  have hQ : Measurable fun t => pairQ L prec i j c t :=
    Measurable.comp (g := fun x : Cont K F S M nG × ℝ => pairQ L prec i j x.1 x.2) meas_pairQ (measurable_const.prodMk measurable_id)
  have hA : Measurable fun t => pairAcc m L prec i j z c t :=
    Measurable.comp (g := fun x : Cont K F S M nG × ℝ => pairAcc m L prec i j z x.1 x.2) (meas_pairAcc z) (measurable_const.prodMk measurable_id)
  have hφ : Measurable fun t => (z, L.set c (along (L.get c) i j t)) :=
    measurable_const.prodMk (ho.refresh.1.comp (measurable_const.prodMk measurable_id))
  have m1 : Measurable fun t => ENNReal.ofReal (pairQ L prec i j c t) * ENNReal.ofReal (pairAcc m L prec i j z c t) :=
    hQ.ennreal_ofReal.mul hA.ennreal_ofReal
  have m2 : Measurable fun t => ENNReal.ofReal (pairQ L prec i j c t) * ENNReal.ofReal (1 - pairAcc m L prec i j z c t) :=
    hQ.ennreal_ofReal.mul (hA.const_sub 1).ennreal_ofReal
  set ν := volume.restrict (Set.Ioo (0 : ℝ) 1) with hν
  refine ⟨(ν.withDensity fun t => ENNReal.ofReal (pairQ L prec i j c t) * ENNReal.ofReal (pairAcc m L prec i j z c t)).map
      (fun t => (z, L.set c (along (L.get c) i j t))) +
    (∫⁻ t, ENNReal.ofReal (pairQ L prec i j c t) * ENNReal.ofReal (1 - pairAcc m L prec i j z c t) ∂ν) • Measure.dirac (z, c), fun g hg => ?_⟩
  have hgφ : Measurable fun t => g (z, L.set c (along (L.get c) i j t)) := hg.comp hφ
  rw [pairMove_eq hprec ho hc z hg, lintegral_add_measure, lintegral_smul_measure, lintegral_dirac' _ hg, lintegral_map hg hφ,
    lintegral_withDensity_eq_lintegral_mul _ m1 hgφ, smul_eq_mul, ← lintegral_mul_const _ m2,
    ← lintegral_add_left (m1.mul hgφ)]
  refine lintegral_congr fun t => ?_
  simp only [Pi.mul_apply]
  ring

/-- A set that the move avoids is avoided along the whole direction. -/
theorem pairMove_zero (hm : WellPosed m) (hs : m.cfg.sampleSource = false) (hprec : 0 ≤ prec) (ho : PairOk m L i j) {c : Cont K F S M nG}
    (hc : Interior m.cfg.app c) {z : Clus K N} (hz : Valid m.cl.minSize m.cl.maxSize z) {B : Set (Clus K N × Cont K F S M nG)}
    (hB : MeasurableSet B) (h0 : pairMove m L prec (i, j) (z, c) (B.indicator 1) = 0) :
    ∀ᵐ t ∂volume.restrict (Set.Ioo (0 : ℝ) 1), (z, L.set c (along (L.get c) i j t)) ∉ B := by
  obtain ⟨h1, -⟩ := pair_facts hm hs hprec ho hc hz
  have hQ : Measurable fun t => pairQ L prec i j c t :=
    Measurable.comp (g := fun x : Cont K F S M nG × ℝ => pairQ L prec i j x.1 x.2) meas_pairQ (measurable_const.prodMk measurable_id)
  have hA : Measurable fun t => pairAcc m L prec i j z c t :=
    Measurable.comp (g := fun x : Cont K F S M nG × ℝ => pairAcc m L prec i j z x.1 x.2) (meas_pairAcc z) (measurable_const.prodMk measurable_id)
  have hφ : Measurable fun t => (z, L.set c (along (L.get c) i j t)) :=
    measurable_const.prodMk (ho.refresh.1.comp (measurable_const.prodMk measurable_id))
  have hi : Measurable (B.indicator (1 : Clus K N × Cont K F S M nG → ℝ≥0∞)) := measurable_one.indicator hB
  have hg : Measurable fun t => ENNReal.ofReal (pairQ L prec i j c t) *
      (ENNReal.ofReal (pairAcc m L prec i j z c t) * B.indicator (1 : Clus K N × Cont K F S M nG → ℝ≥0∞) (z, L.set c (along (L.get c) i j t)) +
        ENNReal.ofReal (1 - pairAcc m L prec i j z c t) * B.indicator (1 : Clus K N × Cont K F S M nG → ℝ≥0∞) (z, c)) :=
    hQ.ennreal_ofReal.mul ((hA.ennreal_ofReal.mul (hi.comp hφ)).add ((hA.const_sub 1).ennreal_ofReal.mul measurable_const))
  rw [pairMove_eq hprec ho hc z hi, lintegral_eq_zero_iff hg] at h0
  filter_upwards [h0, ae_restrict_mem measurableSet_Ioo] with t ht ht1
  obtain ⟨p1, p2, -⟩ := h1 t ht1
  have ht' : ENNReal.ofReal (pairQ L prec i j c t) *
      (ENNReal.ofReal (pairAcc m L prec i j z c t) * B.indicator (1 : Clus K N × Cont K F S M nG → ℝ≥0∞) (z, L.set c (along (L.get c) i j t)) +
        ENNReal.ofReal (1 - pairAcc m L prec i j z c t) * B.indicator (1 : Clus K N × Cont K F S M nG → ℝ≥0∞) (z, c)) = 0 := ht
  rcases mul_eq_zero.mp ht' with h | h
  · exact absurd (ENNReal.ofReal_eq_zero.mp h) (not_le.mpr p1)
  rcases mul_eq_zero.mp (add_eq_zero.mp h).1 with h | h
  · exact absurd (ENNReal.ofReal_eq_zero.mp h) (not_le.mpr p2)
  · exact indicator_zero h

/-- A set that the move respects does not depend on the share. -/
theorem pairMove_const (hm : WellPosed m) (hs : m.cfg.sampleSource = false) (hprec : 0 ≤ prec) (ho : PairOk m L i j)
    {A : Set (Clus K N × Cont K F S M nG)} (hA : MeasurableSet A) (h : Splits (target m id (post0 m)) (pairMove m L prec (i, j)) A)
    {z : Clus K N} (hz : Valid m.cl.minSize m.cl.maxSize z) :
    ∀ᵐ c ∂contRef m.cfg.app, ∀ᵐ t ∂volume.restrict (Set.Ioo (0 : ℝ) 1),
      (L.set c (along (L.get c) i j t) ∈ {c | (z, c) ∈ A} ↔ c ∈ {c | (z, c) ∈ A}) := by
  filter_upwards [(ae_target0 hm hs).mp h.out z hz, (ae_target0 hm hs).mp h.stay z hz, interior_ae hm.hasState] with c h1 h2 hc
  by_cases hcA : (z, c) ∈ A
  · refine (pairMove_zero hm hs hprec ho hc hz hA.compl (h2 hcA)).mono fun a ha => ?_
    exact ⟨fun _ => hcA, fun _ => not_not.mp ha⟩
  · refine (pairMove_zero hm hs hprec ho hc hz hA (h1 hcA)).mono fun a ha => ?_
    exact ⟨fun h' => absurd h' ha, fun h' => absurd h' hcA⟩

/-- A move that surely ends in a set started in it, almost everywhere. -/
theorem pairMove_recalls (hm : WellPosed m) (hs : m.cfg.sampleSource = false) (hprec : 0 ≤ prec) (ho : PairOk m L i j)
    {Z : Set (Clus K N × Cont K F S M nG)} (hZ : MeasurableSet Z) :
    ∀ᵐ x ∂target m id (post0 m), pairMove m L prec (i, j) x (Zᶜ.indicator 1) = 0 → x ∈ Z := by
  rw [ae_target0 hm hs]
  intro z hz
  -- the points from which the whole direction lies in `Z`
  have hR := ho.refresh
  have hW : MeasurableSet {c : Cont K F S M nG | ∀ᵐ t ∂volume.restrict (Set.Ioo (0 : ℝ) 1), (z, L.set c (along (L.get c) i j t)) ∈ Z} := by
    have hφ : Measurable fun p : Cont K F S M nG × ℝ => (z, L.set p.1 (along (L.get p.1) i j p.2)) := measurable_const.prodMk hR.1
    exact measurableSet_ae (R := {p | (z, L.set p.1 (along (L.get p.1) i j p.2)) ∈ Z}) (hφ hZ)
  have hbad : ∀ᵐ c ∂contRef m.cfg.app, ¬ ((∀ᵐ t ∂volume.restrict (Set.Ioo (0 : ℝ) 1), (z, L.set c (along (L.get c) i j t)) ∈ Z) ∧ (z, c) ∉ Z) := by
    set Bad : Set (Cont K F S M nG) := {c | (∀ᵐ t ∂volume.restrict (Set.Ioo (0 : ℝ) 1), (z, L.set c (along (L.get c) i j t)) ∈ Z) ∧ (z, c) ∉ Z} with hBad
    have hBm : MeasurableSet Bad := hW.inter (measurableSet_fibre0 hZ z).compl
    have e := hR.2 (Bad.indicator 1) (measurable_one.indicator hBm)
    rw [lintegral_indicator_one hBm] at e
    have hz0 : ∀ c, ∫⁻ t in Set.Ioo (0 : ℝ) 1, Bad.indicator (1 : Cont K F S M nG → ℝ≥0∞) (L.set c (along (L.get c) i j t)) = 0 := by
      intro c
      have hmm : Measurable fun t => Bad.indicator (1 : Cont K F S M nG → ℝ≥0∞) (L.set c (along (L.get c) i j t)) :=
        (measurable_one.indicator hBm).comp (hR.1.comp (measurable_const.prodMk measurable_id))
      by_cases hcW : ∀ᵐ t ∂volume.restrict (Set.Ioo (0 : ℝ) 1), (z, L.set c (along (L.get c) i j t)) ∈ Z
      · rw [lintegral_eq_zero_iff hmm]
        refine hcW.mono fun t ht => ?_
        exact Set.indicator_of_notMem (fun h => h.2 ht) _
      · have : ∀ t, L.set c (along (L.get c) i j t) ∉ Bad := by
          intro t ht
          apply hcW
          refine ht.1.mono fun s hs => ?_
          rwa [L.get_set, L.set_set, along_along _ ho.ne] at hs
        simp only [Set.indicator_of_notMem (this _), lintegral_zero]
    simp only [hz0, lintegral_zero] at e
    exact measure_eq_zero_iff_ae_notMem.mp e.symm
  filter_upwards [hbad, interior_ae hm.hasState] with c hb hc h0
  by_contra hcZ
  exact hb ⟨(pairMove_zero hm hs hprec ho hc hz hZ.compl h0).mono fun t ht => not_not.mp ht, hcZ⟩

end Pair

/-! ### The operators -/

theorem mhStep_alterWeights (x : Clus K N × Cont K F S M nG) : mhStep (post0 m) (propose0 m .weights) x =
    Law.bind (Law.ofRand (uniform (List.finRange F))) fun f =>
      Law.bind (Law.ofRand (samplePair (List.finRange (M + 1)))) fun ij => pairMove m (wLens f) 30 ij x := rfl

theorem mhStep_alterClusterEffect (x : Clus K N × Cont K F S M nG) : mhStep (post0 m) (propose0 m .clusterEffect) x =
    Law.bind (Law.ofRand (uniform (List.finRange K))) fun k => Law.bind (Law.ofRand (uniform (List.finRange F))) fun f =>
      Law.bind (Law.ofRand (samplePair ((List.finRange S).filter fun s => m.cfg.app f s))) fun ij =>
        pairMove m ((eLens k).comp (Lens.pi _ f)) 20 ij x := rfl

theorem mhStep_alterConfounding (c : Fin M) (x : Clus K N × Cont K F S M nG) : mhStep (post0 m) (propose0 m (.confounding c)) x =
    Law.bind (Law.ofRand (uniform (List.finRange (nG c)))) fun g => Law.bind (Law.ofRand (uniform (List.finRange F))) fun f =>
      Law.bind (Law.ofRand (samplePair ((List.finRange S).filter fun s => m.cfg.app f s))) fun ij =>
        pairMove m ((ceLens c g).comp (Lens.pi _ f)) 10 ij x := rfl

/-- The operators used without sources. -/
def NoSource : MCMC.OpKind M → Prop
  | .source => False
  | _ => True

theorem keeps_op0 (hm : WellPosed m) (hs : m.cfg.sampleSource = false) (hF : 0 < F)
    (h2 : ∀ f, ∃ s s', s ≠ s' ∧ m.cfg.app f s = true ∧ m.cfg.app f s' = true) {op : MCMC.OpKind M} (hop : NoSource op) :
    Keeps (target m id (post0 m)) (mhStep (post0 m) (propose0 m op)) := by
  cases op with
  | cluster v => exact keeps_alterCluster hm hs v
  | weights => exact keeps_alterWeights hm hs hF
  | clusterEffect => exact keeps_alterClusterEffect hm hs hF h2
  | source => exact hop.elim
  | confounding c => exact keeps_alterConfounding hm hs hF h2 c

/-- The result of an operator is a distribution. -/
theorem op0_facts (hm : WellPosed m) (hs : m.cfg.sampleSource = false) (hF : 0 < F)
    (h2 : ∀ f, ∃ s s', s ≠ s' ∧ m.cfg.app f s = true ∧ m.cfg.app f s' = true) {op : MCMC.OpKind M} (hop : NoSource op)
    {z : Clus K N} (hz : Valid m.cl.minSize m.cl.maxSize z) {c : Cont K F S M nG} (hc : Interior m.cfg.app c) :
    mhStep (post0 m) (propose0 m op) (z, c) 1 = 1 ∧ IsMeas (mhStep (post0 m) (propose0 m op) (z, c)) := by
  cases op with
  | cluster v =>
    obtain ⟨h1, h3⟩ := alterCluster_step hm hs hc v hz
    exact ⟨(h3 1).trans (ofRand_mass h1), (isMeas_ofRand _ fun d => (d, c)).congr fun g _ => h3 g⟩
  | source => exact hop.elim
  | weights =>
    rw [mhStep_alterWeights]
    have h : ∀ f, ∀ ij ∈ samplePair (List.finRange (M + 1)), pairMove m (wLens f) 30 ij.1 (z, c) 1 = 1 ∧
        IsMeas (pairMove m (wLens f) 30 ij.1 (z, c)) := fun f ij hij =>
      ⟨pairMove_mass hm hs (by norm_num) (pairOk_w f (samplePair_mem hij).2.2) hc hz,
        pairMove_isMeas (by norm_num) (pairOk_w f (samplePair_mem hij).2.2) hc z⟩
    exact ⟨mix_mass (uniform_fin_dist hF) fun f _ => mix_mass (pair_weights hm.hasConfounder) fun ij hij => (h f.1 ij hij).1,
      isMeas_mix _ _ fun f _ => isMeas_mix _ _ fun ij hij => (h f.1 ij hij).2⟩
  | clusterEffect =>
    rw [mhStep_alterClusterEffect]
    have h : ∀ k f, ∀ ij ∈ samplePair ((List.finRange S).filter fun s => m.cfg.app f s),
        pairMove m ((eLens k).comp (Lens.pi _ f)) 20 ij.1 (z, c) 1 = 1 ∧
        IsMeas (pairMove m ((eLens k).comp (Lens.pi _ f)) 20 ij.1 (z, c)) := fun k f ij hij => by
      obtain ⟨hi, hj, hne⟩ := samplePair_mem hij
      have ho := pairOk_e (m := m) k f hne (List.mem_filter.mp hi).2 (List.mem_filter.mp hj).2
      exact ⟨pairMove_mass hm hs (by norm_num) ho hc hz, pairMove_isMeas (by norm_num) ho hc z⟩
    exact ⟨mix_mass (uniform_fin_dist hm.hasCluster) fun k _ => mix_mass (uniform_fin_dist hF) fun f _ =>
        mix_mass (pair_states h2 f.1) fun ij hij => (h k.1 f.1 ij hij).1,
      isMeas_mix _ _ fun k _ => isMeas_mix _ _ fun f _ => isMeas_mix _ _ fun ij hij => (h k.1 f.1 ij hij).2⟩
  | confounding a =>
    rw [mhStep_alterConfounding]
    have h : ∀ g f, ∀ ij ∈ samplePair ((List.finRange S).filter fun s => m.cfg.app f s),
        pairMove m ((ceLens a g).comp (Lens.pi _ f)) 10 ij.1 (z, c) 1 = 1 ∧
        IsMeas (pairMove m ((ceLens a g).comp (Lens.pi _ f)) 10 ij.1 (z, c)) := fun g f ij hij => by
      obtain ⟨hi, hj, hne⟩ := samplePair_mem hij
      have ho := pairOk_ce (m := m) a g f hne (List.mem_filter.mp hi).2 (List.mem_filter.mp hj).2
      exact ⟨pairMove_mass hm hs (by norm_num) ho hc hz, pairMove_isMeas (by norm_num) ho hc z⟩
    exact ⟨mix_mass (uniform_fin_dist (hm.hasGroup a)) fun k _ => mix_mass (uniform_fin_dist hF) fun f _ =>
        mix_mass (pair_states h2 f.1) fun ij hij => (h k.1 f.1 ij hij).1,
      isMeas_mix _ _ fun k _ => isMeas_mix _ _ fun f _ => isMeas_mix _ _ fun ij hij => (h k.1 f.1 ij hij).2⟩

theorem super_propose0 (m : Setup K N F S M nG) (op : MCMC.OpKind M) (x : Clus K N × Cont K F S M nG) : Super (propose0 m op x) := by
  cases op with
  | cluster v => exact (Super.ofRand _).bind fun _ => Super.ret _
  | source => exact ⟨fun _ _ _ => le_rfl, fun _ _ => by show (0 : ℝ≥0∞) + 0 ≤ 0; simp, fun c _ _ => by show (0 : ℝ≥0∞) = c * 0; simp⟩
  | weights => exact (Super.ofRand _).bind fun _ => (Super.ofRand _).bind fun _ => (Super.draw _).bind fun _ => Super.ret _
  | clusterEffect => exact (Super.ofRand _).bind fun _ => (Super.ofRand _).bind fun _ => (Super.ofRand _).bind fun _ =>
      (Super.draw _).bind fun _ => Super.ret _
  | confounding a => exact (Super.ofRand _).bind fun _ => (Super.ofRand _).bind fun _ => (Super.ofRand _).bind fun _ =>
      (Super.draw _).bind fun _ => Super.ret _

theorem mem_samplePair {n : ℕ} {l : List (Fin n)} {i j : Fin n} (hi : i ∈ l) (hj : j ∈ l) (hij : i ≠ j) :
    ∃ p, 0 < p ∧ ((i, j), p) ∈ samplePair l := by
  have hmem : (i, j) ∈ (l.product l).filter fun p => decide (p.1 ≠ p.2) := by
    rw [List.mem_filter]
    exact ⟨List.pair_mem_product.mpr ⟨hi, hj⟩, by simpa using hij⟩
  refine ⟨_, ?_, List.mem_map.mpr ⟨(i, j), hmem, rfl⟩⟩
  have := List.length_pos_of_mem hmem
  positivity

theorem mem_uniform_fin {n : ℕ} (k : Fin n) : ∃ p, 0 < p ∧ (k, p) ∈ uniform (List.finRange n) := by
  refine ⟨_, ?_, List.mem_map.mpr ⟨k, List.mem_finRange k, rfl⟩⟩
  have := List.length_pos_of_mem (List.mem_finRange k)
  positivity

theorem splits_w {A : Set (Clus K N × Cont K F S M nG)} {π : Measure (Clus K N × Cont K F S M nG)}
    (h : Splits π (mhStep (post0 m) (propose0 m .weights)) A) (f : Fin F) {i j : Fin (M + 1)} (hij : i ≠ j) :
    Splits π (pairMove m (wLens f) 30 (i, j)) A := by
  obtain ⟨p, hp, h1⟩ := mem_uniform_fin f
  obtain ⟨q, hq, h2⟩ := mem_samplePair (List.mem_finRange i) (List.mem_finRange j) hij
  exact Splits.of_mix (T := fun ij x => pairMove m (wLens f) 30 ij x) (Splits.of_mix (T := fun f x =>
    Law.bind (Law.ofRand (samplePair (List.finRange (M + 1)))) fun ij => pairMove m (wLens f) 30 ij x) h h1 hp) h2 hq

theorem splits_e {A : Set (Clus K N × Cont K F S M nG)} {π : Measure (Clus K N × Cont K F S M nG)}
    (h : Splits π (mhStep (post0 m) (propose0 m .clusterEffect)) A) (k : Fin K) (f : Fin F) {i j : Fin S} (hij : i ≠ j)
    (hi : m.cfg.app f i = true) (hj : m.cfg.app f j = true) : Splits π (pairMove m ((eLens k).comp (Lens.pi _ f)) 20 (i, j)) A := by
  obtain ⟨p, hp, h1⟩ := mem_uniform_fin k
  obtain ⟨q, hq, h2⟩ := mem_uniform_fin f
  obtain ⟨r, hr, h3⟩ := mem_samplePair (l := (List.finRange S).filter fun s => m.cfg.app f s)
    (List.mem_filter.mpr ⟨List.mem_finRange i, hi⟩) (List.mem_filter.mpr ⟨List.mem_finRange j, hj⟩) hij
  exact Splits.of_mix (T := fun ij x => pairMove m ((eLens k).comp (Lens.pi _ f)) 20 ij x) (Splits.of_mix (T := fun f x =>
    Law.bind (Law.ofRand (samplePair ((List.finRange S).filter fun s => m.cfg.app f s))) fun ij =>
      pairMove m ((eLens k).comp (Lens.pi _ f)) 20 ij x) (Splits.of_mix (T := fun k x => Law.bind (Law.ofRand (uniform (List.finRange F))) fun f =>
    Law.bind (Law.ofRand (samplePair ((List.finRange S).filter fun s => m.cfg.app f s))) fun ij =>
      pairMove m ((eLens k).comp (Lens.pi _ f)) 20 ij x) h h1 hp) h2 hq) h3 hr

theorem splits_ce {A : Set (Clus K N × Cont K F S M nG)} {π : Measure (Clus K N × Cont K F S M nG)} {a : Fin M}
    (h : Splits π (mhStep (post0 m) (propose0 m (.confounding a))) A) (g : Fin (nG a)) (f : Fin F) {i j : Fin S} (hij : i ≠ j)
    (hi : m.cfg.app f i = true) (hj : m.cfg.app f j = true) : Splits π (pairMove m ((ceLens a g).comp (Lens.pi _ f)) 10 (i, j)) A := by
  obtain ⟨p, hp, h1⟩ := mem_uniform_fin g
  obtain ⟨q, hq, h2⟩ := mem_uniform_fin f
  obtain ⟨r, hr, h3⟩ := mem_samplePair (l := (List.finRange S).filter fun s => m.cfg.app f s)
    (List.mem_filter.mpr ⟨List.mem_finRange i, hi⟩) (List.mem_filter.mpr ⟨List.mem_finRange j, hj⟩) hij
  exact Splits.of_mix (T := fun ij x => pairMove m ((ceLens a g).comp (Lens.pi _ f)) 10 ij x) (Splits.of_mix (T := fun f x =>
    Law.bind (Law.ofRand (samplePair ((List.finRange S).filter fun s => m.cfg.app f s))) fun ij =>
      pairMove m ((ceLens a g).comp (Lens.pi _ f)) 10 ij x) (Splits.of_mix (T := fun g x => Law.bind (Law.ofRand (uniform (List.finRange F))) fun f =>
    Law.bind (Law.ofRand (samplePair ((List.finRange S).filter fun s => m.cfg.app f s))) fun ij =>
      pairMove m ((ceLens a g).comp (Lens.pi _ f)) 10 ij x) h h1 hp) h2 hq) h3 hr

/-- A set that every operator respects is trivial. -/
theorem ops0_triv (hm : WellPosed m) (hs : m.cfg.sampleSource = false) (hf : CanMove m) {A : Set (Clus K N × Cont K F S M nG)}
    (hA : MeasurableSet A) {v : Bool}
    (hcl : Splits (target m id (post0 m)) (mhStep (post0 m) (propose0 m (.cluster v))) A)
    (hw : Splits (target m id (post0 m)) (mhStep (post0 m) (propose0 m .weights)) A)
    (he : Splits (target m id (post0 m)) (mhStep (post0 m) (propose0 m .clusterEffect)) A)
    (hce : ∀ a, Splits (target m id (post0 m)) (mhStep (post0 m) (propose0 m (.confounding a))) A) :
    (∀ᵐ x ∂target m id (post0 m), x ∈ A) ∨ ∀ᵐ x ∂target m id (post0 m), x ∉ A := by
  classical
  have p1 : ∀ f, IsProbabilityMeasure (uniformSimplex (states m.cfg.app f)) := fun f => by
    obtain ⟨s, hs⟩ := hm.hasState f
    exact uniformSimplex_prob ⟨s, mem_states.mpr hs⟩
  have p0 : IsProbabilityMeasure (uniformSimplex (Finset.univ : Finset (Fin (M + 1)))) := uniformSimplex_prob Finset.univ_nonempty
  have hne : ∀ f, (states m.cfg.app f).Nonempty := fun f => by
    obtain ⟨s, hs⟩ := hm.hasState f
    exact ⟨s, mem_states.mpr hs⟩
  have htriv : ∀ z, Valid m.cl.minSize m.cl.maxSize z → Triv (contRef m.cfg.app) {c | (z, c) ∈ A} := by
    intro z hz
    have hB := measurableSet_fibre0 hA z
    refine triv_contRef hm.hasState hB (fun f => ?_) (fun k => ?_) fun a g => ?_
    · exact triv_row Finset.univ_nonempty (wLens f) hB (refresh_w f refresh_const') fun i _ j _ hij =>
        pairMove_const hm hs (by norm_num) (pairOk_w f hij) hA (splits_w hw f hij) hz
    · refine Lens.slice_pi (eLens k) hB (refresh_e k refresh_const') fun f => ?_
      refine triv_row (hne f) ((eLens k).comp (Lens.pi _ f)) hB
        (refresh_e k (Refresh.pi (ν := fun f => uniformSimplex (states m.cfg.app f)) f refresh_const')) fun i hi j hj hij => ?_
      exact pairMove_const hm hs (by norm_num) (pairOk_e k f hij (mem_states.mp hi) (mem_states.mp hj)) hA
        (splits_e he k f hij (mem_states.mp hi) (mem_states.mp hj)) hz
    · refine Lens.slice_pi (ceLens a g) hB (refresh_ce a g refresh_const') fun f => ?_
      refine triv_row (hne f) ((ceLens a g).comp (Lens.pi _ f)) hB
        (refresh_ce a g (Refresh.pi (ν := fun f => uniformSimplex (states m.cfg.app f)) f refresh_const')) fun i hi j hj hij => ?_
      exact pairMove_const hm hs (by norm_num) (pairOk_ce a g f hij (mem_states.mp hi) (mem_states.mp hj)) hA
        (splits_ce (hce a) g f hij (mem_states.mp hi) (mem_states.mp hj)) hz
  have hagree : ∀ᵐ c ∂contRef m.cfg.app, ∀ z z', Valid m.cl.minSize m.cl.maxSize z → Valid m.cl.minSize m.cl.maxSize z' →
      (z, c) ∈ A → (z', c) ∈ A := by
    have h2 : ∀ᵐ c ∂contRef m.cfg.app, ∀ z, Valid m.cl.minSize m.cl.maxSize z → (z, c) ∈ A →
        mhStep (post0 m) (propose0 m (.cluster v)) (z, c) (Aᶜ.indicator 1) = 0 := by
      rw [ae_all_iff]
      intro z
      by_cases hz : Valid m.cl.minSize m.cl.maxSize z
      · exact ((ae_target0 hm hs).mp hcl.stay z hz).mono fun c h _ => h
      · exact ae_of_all _ fun c h => absurd h hz
    filter_upwards [h2, interior_ae hm.hasState] with c h2 hc z z' hz hz' hmem
    exact alter_disc_const hm hs hf.room hf.anywhere hf.sizes hc h2 hz hz' hmem
  simp only [ae_target0 hm hs]
  by_cases hex : ∃ z, Valid m.cl.minSize m.cl.maxSize z ∧ ∀ᵐ c ∂contRef m.cfg.app, c ∈ {c | (z, c) ∈ A}
  · obtain ⟨z, hz, hc⟩ := hex
    left
    intro z' hz'
    filter_upwards [hc, hagree] with c h1 h2 using h2 z z' hz hz' h1
  · right
    intro z hz
    rcases htriv z hz with h | h
    · exact absurd ⟨z, hz, h⟩ hex
    · exact h

/-! ### Thinning -/

section Thin
variable {X : Type} [MeasurableSpace X] {π : Measure X} {T : X → Law X}

/-- Sets that several iterations respect are respected by one, if a step that surely ends in a set started in it. -/
theorem splits_of_run_recalls [IsFiniteMeasure π] {κ : ProbabilityTheory.Kernel X X} (hR : Represents π T κ) (hT : Keeps π T)
    (hrec : ∀ Z, MeasurableSet Z → ∀ᵐ x ∂π, T x (Zᶜ.indicator 1) = 0 → x ∈ Z) {s : ℕ} (hs0 : 0 < s) {A : Set X} (hA : MeasurableSet A)
    (hsp : Splits π (Kernel.run T s) A) : Splits π T A := by
  have key : ∀ B, MeasurableSet B → ∀ n, (∀ᵐ x ∂π, x ∉ B → Kernel.run T (n + 1) x (B.indicator 1) = 0) →
      ∀ᵐ x ∂π, x ∉ B → T x (B.indicator 1) = 0 := by
    intro B hB n
    induction n with
    | zero => exact fun h => h
    | succ n ih =>
      intro hout
      apply ih
      have hm : Measurable fun y => Kernel.run T (n + 1) y (B.indicator 1) := (hT.run (n + 1) _ (measurable_one.indicator hB)).1
      have hZ : MeasurableSet {y | Kernel.run T (n + 1) y (B.indicator 1) = 0} := hm (measurableSet_singleton 0)
      filter_upwards [hout, hR, hrec _ hZ] with x hx hRx hrx hxB
      have h0 : T x (fun y => Kernel.run T (n + 1) y (B.indicator 1)) = 0 := hx hxB
      rw [hRx _ hm, lintegral_eq_zero_iff hm] at h0
      refine hrx ?_
      rw [hRx _ (measurable_one.indicator hZ.compl), lintegral_indicator_one hZ.compl]
      exact measure_eq_zero_iff_ae_notMem.mpr (h0.mono fun y hy h => h hy)
  obtain ⟨n, rfl⟩ : ∃ n, s = n + 1 := ⟨s - 1, by omega⟩
  exact ⟨key A hA n hsp.out, (key Aᶜ hA.compl n hsp.compl.out).mono fun x hx hxA => hx fun h => h hxA⟩

end Thin

end SBayes.Meas
