import Verif.Lemmas.Keeps
import Verif.Lemmas.SamplerFam
import Verif.Lemmas.SamplerPost
import Verif.Props.Clusters
import Verif.Props.Source
import Verif.Props.MCMC
/- Invariance of the moves of the discrete parameters. -/
namespace SBayes.Meas
set_option linter.unusedSectionVars false
open SBayes.Lik SBayes.Clusters SBayes.MH SBayes.Source SBayes.Effects SBayes.Posterior SBayes.Draws SBayes.Kernel MeasureTheory
open scoped BigOperators ENNReal

variable {K N F S M C G : ℕ} {nG : Fin M → ℕ}

/-! ### From finite chains to expected values in `[0, ∞]` -/

section Finite
variable {σ α β : Type}

theorem ofRand_bind {d : Rand α} (hd : ∀ p ∈ d, 0 ≤ p.2) (f : α → Rand β) (g : β → ℝ≥0∞) :
    Law.ofRand (MH.bind d f) g = Law.ofRand d fun a => Law.ofRand (f a) g := by
  unfold Law.ofRand MH.bind
  induction d with
  | nil => rfl
  | cons p d ih =>
    rw [List.flatMap_cons, List.map_append, List.sum_append, ih fun q hq => hd q (List.mem_cons_of_mem _ hq),
      List.map_cons, List.sum_cons]
    congr 1
    rw [List.map_map]
    have h0 := hd p List.mem_cons_self
    show _ = ENNReal.ofReal p.2 * ((f p.1).map fun a => ENNReal.ofReal a.2 * g a.1).sum
    induction f p.1 with
    | nil => simp
    | cons b l ih =>
      simp only [List.map_cons, List.sum_cons, Function.comp_apply, mul_add]
      rw [ih, ENNReal.ofReal_mul h0, mul_assoc]

theorem ofRand_ret (a : α) (g : α → ℝ≥0∞) : Law.ofRand (MH.ret a) g = g a := by
  simp [Law.ofRand, MH.ret]

/-- A step on a finite state space, as a law. -/
theorem ofRand_step {post : σ → ℝ} {op : σ → Rand (Result σ)} {x : σ} (hd : ∀ p ∈ op x, 0 ≤ p.2) (g : σ → ℝ≥0∞) :
    Law.ofRand (MH.step post op x) g = mhStep post (fun x => Law.ofRand (op x)) x g := by
  unfold MH.step mhStep
  rw [ofRand_bind hd]
  unfold Law.bind
  dsimp only
  congr 1
  funext r
  unfold Law.ofRand MH.bind MH.bernoulli MH.ret
  simp

open Classical in
theorem ofRand_eq_sum [Fintype σ] {d : Rand σ} (hd : ∀ p ∈ d, 0 ≤ p.2) (g : σ → ℝ≥0∞) :
    Law.ofRand d g = ∑ y, ENNReal.ofReal (prob d (· = y)) * g y := by
  unfold Law.ofRand
  induction d with
  | nil => simp [prob, E]
  | cons p d ih =>
    have hd' := fun q hq => hd q (List.mem_cons_of_mem _ hq)
    rw [List.map_cons, List.sum_cons, ih hd']
    have : ∀ y, prob (p :: d) (· = y) = (if p.1 = y then p.2 else 0) + prob d (· = y) := by
      intro y
      unfold prob
      rw [E_cons]
      by_cases h : p.1 = y <;> simp [h]
    simp only [this]
    have h2 : ∀ y, ENNReal.ofReal ((if p.1 = y then p.2 else 0) + prob d (· = y)) =
        (if p.1 = y then ENNReal.ofReal p.2 else 0) + ENNReal.ofReal (prob d (· = y)) := by
      intro y
      rw [ENNReal.ofReal_add _ (prob_nonneg hd' _)]
      · congr 1
        split <;> simp
      · split
        · exact hd p List.mem_cons_self
        · exact le_rfl
    simp only [h2, add_mul, Finset.sum_add_distrib, ite_mul, zero_mul, Finset.sum_ite_eq, Finset.mem_univ, if_true]

open Classical in
theorem ofRand_invariant [Fintype σ] {T : Finset σ} {post : σ → ℝ} {k : σ → Rand σ} (hinv : MCMC.Invariant T post k)
    (hk : ∀ x ∈ T, ∀ p ∈ k x, 0 ≤ p.2) (hpost : ∀ x ∈ T, 0 ≤ post x) (g : σ → ℝ≥0∞) :
    ∑ x ∈ T, ENNReal.ofReal (post x) * Law.ofRand (k x) g = ∑ x ∈ T, ENNReal.ofReal (post x) * g x := by
  have h1 : ∀ y, ∑ x ∈ T, ENNReal.ofReal (post x) * ENNReal.ofReal (prob (k x) (· = y)) =
      if y ∈ T then ENNReal.ofReal (post y) else 0 := by
    intro y
    have := hinv fun a => if a = y then 1 else 0
    have h2 : ∀ x ∈ T, ENNReal.ofReal (post x) * ENNReal.ofReal (prob (k x) (· = y)) =
        ENNReal.ofReal (post x * E (k x) fun a => if a = y then 1 else 0) := by
      intro x hx
      rw [ENNReal.ofReal_mul (hpost x hx)]
      congr 2
    rw [Finset.sum_congr rfl h2, ← ENNReal.ofReal_sum_of_nonneg, this]
    · simp only [mul_ite, mul_one, mul_zero]
      rw [Finset.sum_ite_eq']
      split <;> simp
    · intro x hx
      refine mul_nonneg (hpost x hx) (E_nonneg (hk x hx) fun a => ?_)
      split
      · exact zero_le_one
      · exact le_rfl
  calc ∑ x ∈ T, ENNReal.ofReal (post x) * Law.ofRand (k x) g
      = ∑ x ∈ T, ∑ y, ENNReal.ofReal (post x) * ENNReal.ofReal (prob (k x) (· = y)) * g y := by
        refine Finset.sum_congr rfl fun x hx => ?_
        rw [ofRand_eq_sum (hk x hx), Finset.mul_sum]
        exact Finset.sum_congr rfl fun y _ => by rw [mul_assoc]
    _ = ∑ y, (if y ∈ T then ENNReal.ofReal (post y) else 0) * g y := by
        rw [Finset.sum_comm]
        refine Finset.sum_congr rfl fun y _ => ?_
        rw [← Finset.sum_mul, h1]
    _ = ∑ x ∈ T, ENNReal.ofReal (post x) * g x := by
        simp [ite_mul, Finset.sum_ite_mem]

/-- A proposal that reports its real probabilities, inside a Metropolis-Hastings step. -/
theorem mh_invariant [Fintype σ] [DecidableEq σ] {T : Finset σ} {op : σ → Rand (Result σ)} {c : ℝ} (hc : 0 < c)
    (hop : ∀ x ∈ T, IsDist (op x)) (hrep : ReportsRealMasses (· ∈ T) op c)
    (hrej : ∀ x ∈ T, ∀ r w, (r, w) ∈ op x → r.new = x → r.qBack = 0) {post : σ → ℝ} (hpost : ∀ x ∈ T, 0 < post x)
    (g : σ → ℝ≥0∞) :
    ∑ x ∈ T, ENNReal.ofReal (post x) * mhStep post (fun x => Law.ofRand (op x)) x g =
      ∑ x ∈ T, ENNReal.ofReal (post x) * g x := by
  classical
  have hmass : ∀ x ∈ T, ∀ p ∈ MH.step post op x, 0 ≤ p.2 := by
    intro x hx p hp
    obtain ⟨a, ha, b, hb, -, h2⟩ := mem_bind hp
    rw [h2]
    have ha0 := (hop x hx).1 a ha
    by_cases hz : a.2 = 0
    · rw [hz, zero_mul]
    refine mul_nonneg ha0 ?_
    have hacc : 0 ≤ acceptProb (post x) (post a.1.new) a.1.q a.1.qBack := by
      by_cases hnew : a.1.new = x
      · unfold acceptProb
        rw [if_pos (hrej x hx a.1 a.2 ha hnew)]
      · obtain ⟨hS, hq, hqb⟩ := hrep x hx a.1 a.2 ha hz hnew
        have q0 : 0 ≤ a.1.q := by
          have : 0 ≤ c * a.1.q := hq ▸ prob_nonneg (hop x hx).1 _
          exact nonneg_of_mul_nonneg_right this hc
        have qb0 : 0 ≤ a.1.qBack := by
          have : 0 ≤ c * a.1.qBack := hqb ▸ prob_nonneg (hop _ hS).1 _
          exact nonneg_of_mul_nonneg_right this hc
        unfold acceptProb
        split
        · exact le_rfl
        split
        · exact zero_le_one
        · exact le_min zero_le_one (mul_nonneg (div_nonneg (hpost _ hS).le (hpost x hx).le) (div_nonneg qb0 q0))
    have hacc1 : acceptProb (post x) (post a.1.new) a.1.q a.1.qBack ≤ 1 := by
      unfold acceptProb
      split
      · exact zero_le_one
      split
      · exact le_rfl
      · exact min_le_left _ _
    obtain ⟨e, he, e', he', -, h4⟩ := mem_bind hb
    rw [h4]
    have : e'.2 = 1 := by
      simp only [MH.ret, List.mem_cons, List.not_mem_nil, or_false] at he'
      rw [he']
    rw [this, mul_one]
    simp only [MH.bernoulli, List.mem_cons, List.not_mem_nil, or_false] at he
    rcases he with rfl | rfl
    · exact hacc
    · exact sub_nonneg.mpr hacc1
  have := ofRand_invariant (MCMC.C53_real_masses_give_invariance T op c hc hop hrep post hpost) hmass
    (fun x hx => (hpost x hx).le) g
  rw [← this]
  refine Finset.sum_congr rfl fun x hx => ?_
  rw [ofRand_step (hop x hx).1]

end Finite

/-! ### The target -/

section Target
variable {D : Type} [Fintype D] [MeasurableSpace D] [MeasurableSingletonClass D] {m : Setup K N F S M nG}
  {clusters : D → Clus K N} {post : D × Cont K F S M nG → ℝ}

instance (app : Fin F → Fin S → Bool) : IsFiniteMeasure (contRef app : Measure (Cont K F S M nG)) := by
  unfold contRef
  infer_instance

open Classical in
/-- Density of the target for fixed discrete parameters. -/
noncomputable def dens (m : Setup K N F S M nG) (clusters : D → Clus K N) (post : D × Cont K F S M nG → ℝ) (d : D)
    (c : Cont K F S M nG) : ℝ≥0∞ :=
  if Valid m.cl.minSize m.cl.maxSize (clusters d) then ENNReal.ofReal (post (d, c)) else 0

theorem dens_valid {d : D} (h : Valid m.cl.minSize m.cl.maxSize (clusters d)) (c : Cont K F S M nG) :
    dens m clusters post d c = ENNReal.ofReal (post (d, c)) := if_pos h

theorem dens_invalid {d : D} (h : ¬ Valid m.cl.minSize m.cl.maxSize (clusters d)) (c : Cont K F S M nG) :
    dens m clusters post d c = 0 := if_neg h

theorem measurable_dens (hpost : ∀ d, Measurable fun c => post (d, c)) (d : D) :
    Measurable (dens m clusters post d) := by
  unfold dens
  split
  · exact (hpost d).ennreal_ofReal
  · exact measurable_const

theorem lintegral_target (hpost : ∀ d, Measurable fun c => post (d, c)) {f : D × Cont K F S M nG → ℝ≥0∞}
    (hf : Measurable f) :
    ∫⁻ x, f x ∂target m clusters post = ∑ d, ∫⁻ c, dens m clusters post d c * f (d, c) ∂contRef m.cfg.app := by
  have hd : Measurable fun x : D × Cont K F S M nG => dens m clusters post x.1 x.2 :=
    measurable_from_prod_countable_right fun d => measurable_dens hpost d
  have e : target m clusters post = (Measure.count.prod (contRef m.cfg.app)).withDensity
      fun x => dens m clusters post x.1 x.2 := rfl
  rw [e, lintegral_withDensity_eq_lintegral_mul _ hd hf, lintegral_prod _ (hd.mul hf).aemeasurable, lintegral_count, tsum_fintype]
  rfl

/-- Steps that leave the discrete parameters as they are. -/
theorem keeps_of_cont (hpost : ∀ d, Measurable fun c => post (d, c)) {T : D × Cont K F S M nG → Law (D × Cont K F S M nG)}
    (hmeas : ∀ d g, Measurable g → Measurable fun c => T (d, c) g)
    (h : ∀ d, Valid m.cl.minSize m.cl.maxSize (clusters d) → ∀ g, Measurable g →
      ∫⁻ c, ENNReal.ofReal (post (d, c)) * T (d, c) g ∂contRef m.cfg.app =
        ∫⁻ c, ENNReal.ofReal (post (d, c)) * g (d, c) ∂contRef m.cfg.app) : Keeps (target m clusters post) T := by
  intro g hg
  have hT : Measurable fun x => T x g := measurable_from_prod_countable_right fun d => hmeas d g hg
  refine ⟨hT, ?_⟩
  rw [lintegral_target hpost hT, lintegral_target hpost hg]
  refine Finset.sum_congr rfl fun d _ => ?_
  by_cases hv : Valid m.cl.minSize m.cl.maxSize (clusters d)
  · simp only [dens_valid hv]
    exact h d hv g hg
  · simp only [dens_invalid hv, zero_mul]

/-- Steps that leave the continuous parameters as they are. -/
theorem keeps_of_disc (hpost : ∀ d, Measurable fun c => post (d, c)) {T : D × Cont K F S M nG → Law (D × Cont K F S M nG)}
    (hmeas : ∀ d g, Measurable g → Measurable fun c => T (d, c) g)
    (h : ∀ᵐ c ∂contRef m.cfg.app, ∀ g, ∑ d, dens m clusters post d c * T (d, c) g = ∑ d, dens m clusters post d c * g (d, c)) :
    Keeps (target m clusters post) T := by
  intro g hg
  have hT : Measurable fun x => T x g := measurable_from_prod_countable_right fun d => hmeas d g hg
  refine ⟨hT, ?_⟩
  rw [lintegral_target hpost hT, lintegral_target hpost hg, ← lintegral_finsetSum, ← lintegral_finsetSum]
  · refine lintegral_congr_ae ?_
    filter_upwards [h] with c hc
    exact hc g
  · exact fun d _ => (measurable_dens hpost d).mul (hg.comp (measurable_const.prodMk measurable_id))
  · exact fun d _ => (measurable_dens hpost d).mul (hmeas d g hg)

/-- A Metropolis-Hastings step with a proposal that only moves the discrete parameters. -/
theorem mhStep_disc (op : Cont K F S M nG → D → Rand (Result D)) (d : D) (c : Cont K F S M nG) (g : D × Cont K F S M nG → ℝ≥0∞) :
    mhStep post (fun x => Law.bind (Law.ofRand (op x.2 x.1)) fun r => Law.ret (withCont x.2 r)) (d, c) g =
      mhStep (fun d => post (d, c)) (fun d => Law.ofRand (op c d)) d fun d => g (d, c) := by
  rfl

theorem meas_mhStep_disc (hpost : ∀ d, Measurable fun c => post (d, c)) {op : Cont K F S M nG → D → Rand (Result D)}
    (hop : ∀ d, Fam MRes fun c => op c d) (d : D) {g : D × Cont K F S M nG → ℝ≥0∞} (hg : Measurable g) :
    Measurable fun c => mhStep post (fun x => Law.bind (Law.ofRand (op x.2 x.1)) fun r => Law.ret (withCont x.2 r)) (d, c) g := by
  have hgd : ∀ d, Measurable fun c => g (d, c) := fun d => hg.comp (measurable_const.prodMk measurable_id)
  simp only [mhStep_disc]
  unfold mhStep Law.bind
  dsimp only
  refine (hop d).meas ?_
  rintro a ⟨v, q, r, hq, hr, rfl⟩
  unfold Law.ofRand
  simp only [List.map_cons, List.map_nil, List.sum_cons, List.sum_nil, add_zero]
  have ha := meas_acceptProb (hpost d) (hpost v) hq hr
  exact (ha.ennreal_ofReal.mul (hgd v)).add ((ha.const_sub 1).ennreal_ofReal.mul (hgd d))

open Classical in
/-- Cluster operators. -/
theorem keeps_cluster [DecidableEq D] (hpost : ∀ d, Measurable fun c => post (d, c))
    {op : Cont K F S M nG → D → Rand (Result D)}
    (hfam : ∀ d, Fam MRes fun c => op c d) {b : ℝ} (hb : 0 < b)
    (h : ∀ᵐ c ∂contRef m.cfg.app, ∃ P : D → Prop,
      (∀ d, Valid m.cl.minSize m.cl.maxSize (clusters d) → 0 ≤ post (d, c)) ∧
      (∀ d, P d ↔ Valid m.cl.minSize m.cl.maxSize (clusters d) ∧ 0 < post (d, c)) ∧
      (∀ d, P d → IsDist (op c d)) ∧ ReportsRealMasses P (op c) b ∧
      ∀ d, P d → ∀ r w, (r, w) ∈ op c d → r.new = d → r.qBack = 0) :
    Keeps (target m clusters post)
      (mhStep post fun x => Law.bind (Law.ofRand (op x.2 x.1)) fun r => Law.ret (withCont x.2 r)) := by
  refine keeps_of_disc hpost (fun d g hg => meas_mhStep_disc hpost hfam d hg) ?_
  filter_upwards [h] with c hc g
  obtain ⟨P, h0, h1, h2, h3, h4⟩ := hc
  simp only [mhStep_disc]
  let T : Finset D := Finset.univ.filter P
  have hT : ∀ d, d ∈ T ↔ P d := fun d => by simp [T]
  have hsum : ∀ f : D → ℝ≥0∞, ∑ d, dens m clusters post d c * f d = ∑ d ∈ T, ENNReal.ofReal (post (d, c)) * f d := by
    intro f
    rw [Finset.sum_filter]
    refine Finset.sum_congr rfl fun d _ => ?_
    by_cases hv : Valid m.cl.minSize m.cl.maxSize (clusters d)
    · rw [dens_valid hv]
      split
      · rfl
      · rename_i hP
        have : post (d, c) = 0 := le_antisymm (not_lt.mp fun hlt => hP ((h1 d).mpr ⟨hv, hlt⟩)) (h0 d hv)
        rw [this, ENNReal.ofReal_zero, zero_mul]
    · rw [dens_invalid hv, zero_mul, if_neg fun hP => hv ((h1 d).mp hP).1]
  rw [hsum, hsum fun d => g (d, c)]
  refine mh_invariant (post := fun d => post (d, c)) hb (fun d hd => h2 d ((hT d).mp hd)) ?_ (fun d hd => h4 d ((hT d).mp hd))
    (fun d hd => ((h1 d).mp ((hT d).mp hd)).2) fun d => g (d, c)
  intro d hd r w hr hw hne
  obtain ⟨a1, a2, a3⟩ := h3 d ((hT d).mp hd) r w hr hw hne
  exact ⟨(hT _).mpr a1, a2, a3⟩

end Target

/-! ### The operators -/

section Ops
variable {m : Setup K N F S M nG}

theorem meas_post (m : Setup K N F S M nG) (d : Disc K N F M) : Measurable fun c => Kernel.post m (d, c) :=
  meas_posterior m.d (fun f i => by fun_prop) (fun k f s => by fun_prop) (fun c g f s => by fun_prop) m.cfg m.clOrder m.confOrder
    m.empty d.1 (some (sourceArray d.2))

theorem meas_post0 (m : Setup K N F S M nG) (z : Clus K N) : Measurable fun c => post0 m (z, c) :=
  meas_posterior m.d (fun f i => by fun_prop) (fun k f s => by fun_prop) (fun c g f s => by fun_prop) m.cfg m.clOrder m.confOrder
    m.empty z none

theorem meas_sourcePost (m : Setup K N F S M nG) (cl : Clus K N) (n : Fin N) (f : Fin F) (i : Fin (M + 1)) :
    Measurable fun c : Cont K F S M nG => sourcePosterior m.d c.1 c.2.1 c.2.2 cl n f i :=
  meas_sourcePosterior m.d (fun f i => by fun_prop) (fun k f s => by fun_prop) (fun c g f s => by fun_prop) cl n f i

theorem meas_clusterPost (m : Setup K N F S M nG) (cl : Clus K N) (z : Fin K) (n : Fin N) :
    Measurable fun c : Cont K F S M nG => clusterProb m c cl z n := by
  unfold clusterProb
  by_cases h : m.flat = true
  · simp only [h, if_true]
    exact measurable_const
  · simp only [h]
    exact meas_clusterPosterior m.d (fun f i => by fun_prop) (fun k f s => by fun_prop) (fun c g f s => by fun_prop) cl z n

theorem clusterProb_good (hm : WellPosed m) {c : Cont K F S M nG} (hc : Interior m.cfg.app c) : GoodPost (clusterProb m c) := by
  unfold clusterProb
  split
  · exact ⟨fun _ _ _ _ => rfl, fun _ _ _ => by norm_num, fun _ _ _ => by norm_num⟩
  · exact clusterPosterior_good (hc.positive hm)

theorem gibbsish_reports_prob (m : Setup K N F S M nG) (c : Cont K F S M nG) :
    ReportsRealMasses (Valid m.cl.minSize m.cl.maxSize) (gibbsish m.cl (clusterProb m c)) (1 / (2 * (K : ℝ))) := by
  unfold clusterProb
  split
  · exact (C20_gibbsish_reports_real_masses_from_prior m.cl).1
  · exact C20_gibbsish_reports_real_masses m.cl m.d c.1 c.2.1 c.2.2

theorem gibbsish2_reports_prob (m : Setup K N F S M nG) (c : Cont K F S M nG) :
    ReportsRealMasses (Valid m.cl.minSize m.cl.maxSize) (gibbsish2 m.cl (clusterProb m c)) (1 / (K : ℝ)) := by
  unfold clusterProb
  split
  · exact (C20_gibbsish_reports_real_masses_from_prior m.cl).2
  · exact C20_gibbsish2_reports_real_masses m.cl m.d c.1 c.2.1 c.2.2

/-- The state space of the discrete parameters is finite. -/
theorem keeps_withSource (hm : WellPosed m) (hs : m.cfg.sampleSource = true)
    {op : Cont K F S M nG → Clus K N → Rand (Result (Clus K N))} (hfam : ∀ z, Fam MRes fun c => op c z) {b : ℝ} (hb : 0 < b)
    (hrep : ∀ c, ReportsRealMasses (Valid m.cl.minSize m.cl.maxSize) (op c) b)
    (hdist : ∀ c, Interior m.cfg.app c → ∀ z, Valid m.cl.minSize m.cl.maxSize z → IsDist (op c z)) :
    Keeps (target m Prod.fst (Kernel.post m)) (mhStep (Kernel.post m) fun x =>
      Law.bind (Law.ofRand (withSource (sourcePosterior m.d x.2.1 x.2.2.1 x.2.2.2) (op x.2) x.1)) fun r =>
        Law.ret (withCont x.2 r)) := by
  refine keeps_cluster (op := fun c d => withSource (sourcePosterior m.d c.1 c.2.1 c.2.2) (op c) d) (meas_post m)
    (fun d => fam_withSource (fun cl n f i => meas_sourcePost m cl n f i) d (hfam d.1)) hb ?_
  filter_upwards [interior_ae hm.hasState] with c hc
  have hp := hc.positive hm
  have hlaw := sourcePosterior_law hp m.cl.minSize m.cl.maxSize
  refine ⟨Possible (Valid m.cl.minSize m.cl.maxSize) (sourcePosterior m.d c.1 c.2.1 c.2.2),
    fun d hv => post_nonneg hm hs hv d.2 hc, fun d => ?_, fun d hd => ?_, withSource_reports hlaw (hrep c), ?_⟩
  · unfold Possible
    exact and_congr_right fun hv => (post_pos_iff hm hs hv d.2 hc).symm
  · refine withSource_isDist hlaw (fun x hx r w hr hw hne => ?_) (fun x hx => hdist c hc x hx) d hd.1
    exact (hrep c x hx r w hr hw hne).1
  · intro d hd r w hr hnew
    obtain ⟨a, ha, b', hb', h1, h2⟩ := mem_bind hr
    split at hb'
    · have := mem_ret hb'
      have h1 : r = b'.1 := h1
      rw [h1, this]
      rfl
    · rename_i hne
      obtain ⟨e, he, e', he', h3, -⟩ := mem_bind hb'
      have := mem_ret he'
      have h1 : r = b'.1 := h1
      exfalso
      apply hne
      rw [h1, h3, this] at hnew
      exact congrArg Prod.fst hnew

theorem keeps_gibbsish (hm : WellPosed m) (hs : m.cfg.sampleSource = true) (v : Bool) :
    Keeps (target m Prod.fst (Kernel.post m)) (mhStep (Kernel.post m) (propose m (.cluster v))) := by
  have hK : 0 < (K : ℝ) := by exact_mod_cast hm.hasCluster
  cases v
  · exact keeps_withSource hm hs (op := fun c => gibbsish m.cl (clusterProb m c))
      (fun z => fam_gibbsish (fun cl z n => meas_clusterPost m cl z n) m.cl z) (b := 1 / (2 * (K : ℝ))) (by positivity)
      (gibbsish_reports_prob m)
      (fun c hc z hz => gibbsish_isDist m.cl (clusterProb_good hm hc) hm.hasCluster z hz)
  · exact keeps_withSource hm hs (op := fun c => gibbsish2 m.cl (clusterProb m c))
      (fun z => fam_gibbsish2 (fun cl z n => meas_clusterPost m cl z n) m.cl z) (b := 1 / (K : ℝ)) (by positivity)
      (gibbsish2_reports_prob m)
      (fun c hc z _ => gibbsish2_isDist m.cl (fun x z n => ((clusterProb_good hm hc).pos x z n).le)
        (fun x z n => ((clusterProb_good hm hc).lt_one x z n).le) hm.hasCluster z)

theorem keeps_alterCluster (hm : WellPosed m) (hs : m.cfg.sampleSource = false) (v : Bool) :
    Keeps (target m id (post0 m)) (mhStep (post0 m) (propose0 m (.cluster v))) := by
  have hK : 0 < (K : ℝ) := by exact_mod_cast hm.hasCluster
  refine keeps_cluster (clusters := id) (op := fun _ z => alterCluster m.cl z) (meas_post0 m)
    (fun z => fam_alterCluster m.cl z) (b := 1 / (2 * (K : ℝ))) (by positivity) ?_
  filter_upwards [interior_ae hm.hasState] with c hc
  refine ⟨Valid m.cl.minSize m.cl.maxSize, fun z hz => (post0_pos hm hs hz hc).le,
    fun z => ⟨fun h => ⟨h, post0_pos hm hs h hc⟩, fun h => h.1⟩,
    fun z _ => alterCluster_isDist m.cl hm.hasCluster hm.pConn.1 hm.pConn.2 z, C17_alterCluster_reports_real_masses m.cl, ?_⟩
  intro z hz r w hr hnew
  rcases C16_alterCluster_keeps_constraints m.cl z hz r w hr with h | ⟨-, k, o, ho, -⟩
  · exact h.2
  · rw [hnew] at ho
    simp at ho

theorem ofRand_one {α : Type} {d : Rand α} (hd : IsDist d) : (d.map fun a => ENNReal.ofReal a.2).sum = 1 := by
  have : ∀ d : Rand α, (∀ p ∈ d, 0 ≤ p.2) → (d.map fun a => ENNReal.ofReal a.2).sum = ENNReal.ofReal (d.map fun p => p.2).sum := by
    intro d hd
    induction d with
    | nil => simp
    | cons p d ih =>
      have h0 := fun q hq => hd q (List.mem_cons_of_mem _ hq)
      rw [List.map_cons, List.sum_cons, List.map_cons, List.sum_cons, ih h0, ENNReal.ofReal_add (hd p List.mem_cons_self)]
      refine List.sum_nonneg fun x hx => ?_
      obtain ⟨q, hq, rfl⟩ := List.mem_map.mp hx
      exact h0 q hq
  rw [this d hd.1]
  have h := hd.2
  rw [h, ENNReal.ofReal_one]

theorem mhStep_gibbs {σ : Type} {post : σ → ℝ} {x y : σ} (g : σ → ℝ≥0∞) :
    Law.ofRand [(y, acceptProb (post x) (post y) 0 1), (x, 1 - acceptProb (post x) (post y) 0 1)] g = g y := by
  have : acceptProb (post x) (post y) 0 1 = 1 := by simp [acceptProb]
  rw [this]
  simp [Law.ofRand]

/-- `GibbsSampleSource`. -/
theorem keeps_source (hm : WellPosed m) (hs : m.cfg.sampleSource = true) :
    Keeps (target m Prod.fst (Kernel.post m)) (mhStep (Kernel.post m) (propose m .source)) := by
  classical
  have hT : ∀ d c g, IsDist (indep (fun i => choice (List.finRange (M + 1)) (sourcePosterior m.d c.1 c.2.1 c.2.2 d.1 i.1 i.2))
        (positions F (List.finRange N)) d.2) → mhStep (Kernel.post m) (propose m .source) (d, c) g =
      Law.ofRand (indep (fun i => choice (List.finRange (M + 1)) (sourcePosterior m.d c.1 c.2.1 c.2.2 d.1 i.1 i.2))
        (positions F (List.finRange N)) d.2) fun t => g ((d.1, t), c) := by
    intro d c g hd
    unfold mhStep propose Law.bind
    dsimp only
    unfold gibbsSource
    rw [ofRand_bind hd.1]
    congr 1
    funext t
    rw [ofRand_ret]
    exact mhStep_gibbs g
  refine keeps_of_disc (meas_post m) (fun d g hg => ?_) ?_
  · have hgd : ∀ d, Measurable fun c => g (d, c) := fun d => hg.comp (measurable_const.prodMk measurable_id)
    unfold mhStep propose Law.bind
    dsimp only
    refine (fam_gibbsSource (p := fun c : Cont K F S M nG => sourcePosterior m.d c.1 c.2.1 c.2.2 d.1)
      (fun n f i => meas_sourcePost m d.1 n f i) (List.finRange N) d.2).meas ?_
    rintro a ⟨v, q, r, hq, hr, rfl⟩
    unfold Law.ofRand Law.ret withCont
    simp only [List.map_cons, List.map_nil, List.sum_cons, List.sum_nil, add_zero]
    have ha := meas_acceptProb (meas_post m d) (meas_post m (d.1, v)) hq hr
    exact (ha.ennreal_ofReal.mul (hgd (d.1, v))).add ((ha.const_sub 1).ennreal_ofReal.mul (hgd d))
  · filter_upwards [interior_ae hm.hasState] with c hc g
    have hp := hc.positive hm
    rw [Fintype.sum_prod_type, Fintype.sum_prod_type]
    refine Finset.sum_congr rfl fun z _ => ?_
    by_cases hv : Valid m.cl.minSize m.cl.maxSize z
    swap
    · refine Finset.sum_congr rfl fun s _ => ?_
      rw [dens_invalid hv, zero_mul, zero_mul]
    set lh := componentLh m.d c.2.1 c.2.2 z with hlh
    set w := normalizeWeights c.1 (hasComponents m.d z) with hw
    have hlh0 : ∀ n f i, 0 ≤ lh n f i := fun n f i => (componentLh_pos hp (valid_disjoint hv) n f i).1
    have hw0 : ∀ n f i, 0 ≤ w n f i := fun n f i => (normalizeWeights_pos hp.weights _ n f i).1
    have hpos : ∀ n f, ∃ i, 0 < lh n f i * w n f i := by
      intro n f
      obtain ⟨i, hi⟩ := has_some hm z n
      exact ⟨i, mul_pos ((componentLh_pos hp (valid_disjoint hv) n f i).2 hi) ((normalizeWeights_pos hp.weights _ n f i).2 hi)⟩
    let op : (Fin N × Fin F → Fin (M + 1)) → Rand (Fin N × Fin F → Fin (M + 1)) := fun s =>
      indep (fun i => choice (List.finRange (M + 1)) (sourceLaw lh w i.1 i.2)) (positions F (List.finRange N)) s
    have hd : ∀ s, IsDist (op s) := by
      intro t
      refine isDist_indep _ _ (fun i _ => isDist_choice (fun c _ => ?_) ?_) t
      · exact div_nonneg (mul_nonneg (hlh0 _ _ _) (hw0 _ _ _))
          (Finset.sum_nonneg fun c _ => mul_nonneg (hlh0 _ _ _) (hw0 _ _ _))
      · rw [← List.ofFn_eq_map, List.sum_ofFn]
        unfold sourceLaw
        rw [← Finset.sum_div]
        obtain ⟨c, hc⟩ := hpos i.1 i.2
        exact div_self (ne_of_gt (Finset.sum_pos' (fun c _ => mul_nonneg (hlh0 _ _ _) (hw0 _ _ _)) ⟨c, Finset.mem_univ c, hc⟩))
    set A := clusterTerm m z * ∏ i, ∏ g, confEffectPrior m.cfg.app (m.cfg.conf i g) (c.2.2 i g) with hA
    have hpost : ∀ s, Kernel.post m ((z, s), c) = A * sourcePost lh w s := by
      intro s
      rw [post_eq hm hs hv, sourcePost_eq, Finset.prod_mul_distrib, Fintype.prod_prod_type, Fintype.prod_prod_type]
      ring
    have hrev : ∀ s t, Kernel.post m ((z, s), c) * prob (op s) (· = t) = Kernel.post m ((z, t), c) * prob (op t) (· = s) := by
      intro s t
      have := gibbsSource_reversible lh w (List.nodup_finRange N) s t
      rw [gibbsSource_propMass, gibbsSource_propMass] at this
      rw [hpost, hpost]
      clear_value A
      rw [mul_assoc, mul_assoc]
      exact congrArg (A * ·) this
    have hpn : ∀ s, 0 ≤ Kernel.post m ((z, s), c) := fun s => post_nonneg hm hs hv s hc
    have hrev' : ∀ s t, ENNReal.ofReal (Kernel.post m ((z, s), c)) * ENNReal.ofReal (prob (op s) (· = t)) =
        ENNReal.ofReal (Kernel.post m ((z, t), c)) * ENNReal.ofReal (prob (op t) (· = s)) := by
      intro s t
      rw [← ENNReal.ofReal_mul (hpn s), hrev, ENNReal.ofReal_mul (hpn t)]
    have hone : ∀ s, ∑ t, ENNReal.ofReal (prob (op s) (· = t)) = 1 := by
      intro s
      have h1 := ofRand_eq_sum (hd s).1 fun _ => 1
      simp only [mul_one] at h1
      rw [← h1]
      unfold Law.ofRand
      simp only [mul_one]
      exact ofRand_one (hd s)
    calc ∑ s, dens m Prod.fst (Kernel.post m) (z, s) c * mhStep (Kernel.post m) (propose m .source) ((z, s), c) g
        = ∑ s, ∑ t, ENNReal.ofReal (Kernel.post m ((z, s), c)) * ENNReal.ofReal (prob (op s) (· = t)) * g ((z, t), c) := by
          refine Finset.sum_congr rfl fun s _ => ?_
          rw [dens_valid hv, hT (z, s) c g (hd s)]
          have := ofRand_eq_sum (hd s).1 fun t => g ((z, t), c)
          refine (congrArg (ENNReal.ofReal (Kernel.post m ((z, s), c)) * ·) this).trans ?_
          rw [Finset.mul_sum]
          exact Finset.sum_congr rfl fun t _ => (mul_assoc _ _ _).symm
      _ = ∑ t, ∑ s, ENNReal.ofReal (Kernel.post m ((z, t), c)) * ENNReal.ofReal (prob (op t) (· = s)) * g ((z, t), c) := by
          rw [Finset.sum_comm]
          exact Finset.sum_congr rfl fun t _ => Finset.sum_congr rfl fun s _ => by rw [hrev']
      _ = ∑ s, dens m Prod.fst (Kernel.post m) (z, s) c * g ((z, s), c) := by
          refine Finset.sum_congr rfl fun t _ => ?_
          rw [← Finset.sum_mul, ← Finset.mul_sum, hone, mul_one, dens_valid hv]

end Ops

end SBayes.Meas
