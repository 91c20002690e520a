import Verif.Props.StartAlter
/- C92: with and without source sampling, the sampler answers the same question. -/
namespace SBayes.Kernel
open SBayes.Lik SBayes.Clusters SBayes.MH SBayes.Effects SBayes.Posterior SBayes.Draws SBayes.Meas SBayes.MCMC SBayes.Prior MeasureTheory
open SBayes.Init
open Filter Topology
open scoped BigOperators ENNReal

variable {K N F S M : ℕ} {nG : Fin M → ℕ} {m : Setup K N F S M nG}

/-- The same run with `sample_source: b`. -/
def withSampling (m : Setup K N F S M nG) (b : Bool) : Setup K N F S M nG := { m with cfg := { m.cfg with sampleSource := b } }

theorem withSampling_wellPosed (hm : WellPosed m) (b : Bool) : WellPosed (withSampling m b) := { hm with }

/-- The posterior of clusters, weights and effects, for given sources, summed over all sources. -/
theorem sum_sources (hm : WellPosed m) {z : Clus K N} (hz : Valid m.cl.minSize m.cl.maxSize z) (c : Cont K F S M nG) :
    ∑ s, post (withSampling m true) ((z, s), c) = post0 (withSampling m false) (z, c) := by
  have h1 : ∀ s, post (withSampling m true) ((z, s), c) = (∏ i : Fin N × Fin F, normalizeWeights c.1 (hasComponents m.d z) i.1 i.2 (s i) *
      componentLh m.d c.2.1 c.2.2 z i.1 i.2 (s i)) *
      (clusterTerm m z * ∏ i, ∏ g, confEffectPrior m.cfg.app (m.cfg.conf i g) (c.2.2 i g)) := by
    intro s
    refine (post_eq (m := withSampling m true) (withSampling_wellPosed hm true) rfl hz s c).trans ?_
    rw [Finset.prod_mul_distrib, Fintype.prod_prod_type, Fintype.prod_prod_type]
    show (∏ n, ∏ f, componentLh m.d c.2.1 c.2.2 z n f (s (n, f))) *
      (clusterTerm m z * (∏ i, ∏ g, confEffectPrior m.cfg.app (m.cfg.conf i g) (c.2.2 i g)) *
        ∏ n, ∏ f, normalizeWeights c.1 (hasComponents m.d z) n f (s (n, f))) = _
    ring
  refine Eq.trans ?_ (post0_eq (m := withSampling m false) (withSampling_wellPosed hm false) rfl hz c).symm
  rw [Finset.sum_congr rfl fun s _ => h1 s, ← Finset.sum_mul]
  congr 1
  have := Finset.prod_univ_sum (fun _ : Fin N × Fin F => (Finset.univ : Finset (Fin (M + 1))))
    fun i j => normalizeWeights c.1 (hasComponents m.d z) i.1 i.2 j * componentLh m.d c.2.1 c.2.2 z i.1 i.2 j
  rw [Fintype.piFinset_univ] at this
  rw [← this, Fintype.prod_prod_type]
  rfl

/-- **C92.** Source sampling only adds parameters: the joint posterior of clusters, weights and effects is the same with and without it,
normalising constant included. -/
theorem C92_same_posterior (hm : WellPosed m) (B : Set (Clus K N × Cont K F S M nG)) (hB : MeasurableSet B) :
    target (withSampling m true) Prod.fst (post (withSampling m true)) {x | (x.1.1, x.2) ∈ B} =
      target (withSampling m false) id (post0 (withSampling m false)) B := by
  classical
  have hφ : Measurable fun x : Disc K N F M × Cont K F S M nG => (x.1.1, x.2) := (measurable_fst.comp measurable_fst).prodMk measurable_snd
  have hpre : MeasurableSet {x : Disc K N F M × Cont K F S M nG | (x.1.1, x.2) ∈ B} := hφ hB
  rw [← lintegral_indicator_one hpre, ← lintegral_indicator_one hB,
    lintegral_target (meas_post _) (measurable_one.indicator hpre), lintegral_target (meas_post0 _) (measurable_one.indicator hB),
    Fintype.sum_prod_type]
  refine Finset.sum_congr rfl fun z _ => ?_
  by_cases hv : Valid m.cl.minSize m.cl.maxSize z
  · have hi : ∀ s, Measurable fun c => dens (withSampling m true) Prod.fst (post (withSampling m true)) (z, s) c *
        ({x : Disc K N F M × Cont K F S M nG | (x.1.1, x.2) ∈ B}.indicator 1 ((z, s), c) : ℝ≥0∞) := fun s =>
      (measurable_dens (meas_post _) _).mul ((measurable_one.indicator hpre).comp (measurable_const.prodMk measurable_id))
    rw [← lintegral_finsetSum _ fun s _ => hi s]
    refine lintegral_congr_ae ((interior_ae hm.hasState).mono fun c hc => ?_)
    have e : ∀ s : Fin N × Fin F → Fin (M + 1), ({x : Disc K N F M × Cont K F S M nG | (x.1.1, x.2) ∈ B}.indicator 1 ((z, s), c) : ℝ≥0∞) = B.indicator 1 (z, c) := by
      intro s
      by_cases h : (z, c) ∈ B
      · rw [Set.indicator_of_mem h, Set.indicator_of_mem (show ((z, s), c) ∈ {x : Disc K N F M × Cont K F S M nG | (x.1.1, x.2) ∈ B} from h)]
        rfl
      · rw [Set.indicator_of_notMem h, Set.indicator_of_notMem (show ((z, s), c) ∉ {x : Disc K N F M × Cont K F S M nG | (x.1.1, x.2) ∈ B} from h)]
    simp only [e]
    rw [← Finset.sum_mul]
    congr 1
    rw [dens_valid (m := withSampling m false) (clusters := id) (d := z) hv, ← sum_sources hm hv c,
      ENNReal.ofReal_sum_of_nonneg fun s _ => post_nonneg (m := withSampling m true) (withSampling_wellPosed hm true) rfl hv s hc]
    exact Finset.sum_congr rfl fun s _ => dens_valid (m := withSampling m true) (clusters := Prod.fst) (d := (z, s)) hv c
  · have h1 : ∀ s c, dens (withSampling m true) Prod.fst (post (withSampling m true)) (z, s) c = 0 := fun s c =>
      dens_invalid (m := withSampling m true) (clusters := Prod.fst) (d := (z, s)) hv c
    have h2 : ∀ c, dens (withSampling m false) id (post0 (withSampling m false)) z c = 0 := fun c =>
      dens_invalid (m := withSampling m false) (clusters := id) (d := z) hv c
    simp only [h1, h2, zero_mul, lintegral_zero, Finset.sum_const_zero]

/-- **C92.** Whole runs with and without source sampling, with the operators that the same configuration gives in the two modes: the
fraction of the logged samples with any property of clusters, weights and effects converges to the same number. -/
theorem C92_same_answer (hm : WellPosed m) (hf : CanMove m) (hadj : ∀ i j, m.cl.adj i j = m.cl.adj j i)
    (cfg : OpConfig) (ops ops0 : List (OpKind M × ℝ)) (hops : getOperators true M cfg = .ok ops) (hops0 : getOperators false M cfg = .ok ops0)
    (hpos : ∀ o ∈ ops, 0 < o.2) (hpos0 : ∀ o ∈ ops0, 0 < o.2)
    (sz nChains warmSteps : ℕ) (hsz : 1 ≤ sz) (hlo : m.cl.minSize ≤ sz) (hhi : sz ≤ m.cl.maxSize) (hchains : 0 < nChains)
    (garbage : Fin N × Fin F → Fin (M + 1)) (rnd : Fin nChains → ℕ → ℕ) (rnd' : ℕ → ℕ) (blank : Fin nChains → State K N F S M nG)
    (blank0 : Fin nChains → State0 K N F S M nG)
    (hrnd : ∀ c, (initialClusters (m := 0) m.cl.adj (rnd c) sz (fun k => k.elim0) : Option (Clus K N)).isSome)
    (s : ℕ) (hs0 : 0 < s) (Q : Clus K N × Cont K F S M nG → Bool) (hQ : MeasurableSet {x | Q x = true}) :
    ∃ p : ℝ, ∀ ε > 0,
      Tendsto (fun n : ℕ => (wholeRun (withSampling m true) (normalizeOperatorWeights ops) sz nChains warmSteps garbage rnd rnd' blank s n).prob
        {l | |(l.countP (fun x => Q (x.1.1, x.2)) : ℝ) / (l.length : ℝ) - p| < ε}) atTop (𝓝 1) ∧
      Tendsto (fun n : ℕ => (wholeRun0 (withSampling m false) (normalizeOperatorWeights ops0) sz nChains warmSteps rnd rnd' blank0 s n).prob
        {l | |(l.countP Q : ℝ) / (l.length : ℝ) - p| < ε}) atTop (𝓝 1) := by
  have hφ : Measurable fun x : Disc K N F M × Cont K F S M nG => (x.1.1, x.2) := (measurable_fst.comp measurable_fst).prodMk measurable_snd
  refine ⟨_, fun ε hε => ⟨?_, C90_whole_run_frequencies (m := withSampling m false) (withSampling_wellPosed hm false) rfl { hf with } hadj cfg ops0 hops0 hpos0
    sz nChains warmSteps hsz hlo hhi hchains rnd rnd' blank0 hrnd s hs0 Q hQ ε hε⟩⟩
  have h := C88_whole_run_frequencies (m := withSampling m true) (withSampling_wellPosed hm true) rfl hf.room hadj cfg ops hops hpos
    sz nChains warmSteps hsz hlo hhi hchains garbage rnd rnd' blank hrnd s hs0 (fun x => Q (x.1.1, x.2)) (hφ hQ) ε hε
  have e1 := C92_same_posterior hm _ hQ
  have e2 := C92_same_posterior hm Set.univ MeasurableSet.univ
  have e3 : {x : Disc K N F M × Cont K F S M nG | (x.1.1, x.2) ∈ (Set.univ : Set (Clus K N × Cont K F S M nG))} = Set.univ :=
    Set.eq_univ_of_forall fun _ => trivial
  rw [e3] at e2
  rw [← e1, ← e2]
  exact h

/-- The requirements are met by a run with two clusters and five objects, where all operators are in use in both modes. -/
example : ∃ ops ops0 : List (OpKind 1 × ℝ), WellPosed widerSetup ∧ CanMove widerSetup ∧
    (∀ i j, widerSetup.cl.adj i j = widerSetup.cl.adj j i) ∧
    getOperators true 1 { clusters := 45, weights := 15, clusterEffect := 10, confoundingEffects := 10, source := 10 } = .ok ops ∧
    getOperators false 1 { clusters := 45, weights := 15, clusterEffect := 10, confoundingEffects := 10, source := 10 } = .ok ops0 ∧
    (∀ o ∈ ops, 0 < o.2) ∧ (∀ o ∈ ops0, 0 < o.2) ∧ widerSetup.cl.minSize ≤ 1 ∧ 1 ≤ widerSetup.cl.maxSize ∧
    ∀ rnd, (initialClusters (m := 0) widerSetup.cl.adj rnd 1 (fun k => k.elim0) : Option (Clus 2 5)).isSome := by
  refine ⟨_, _, widerSetup_wellPosed, widerSetup_canMove, fun _ _ => rfl, rfl, rfl, ?_, ?_, le_rfl, by norm_num [widerSetup],
    widerSetup_initial⟩
  · intro o ho
    simp [List.finRange] at ho
    rcases ho with rfl | rfl | rfl | rfl | rfl | rfl <;> norm_num
  · intro o ho
    simp [List.finRange] at ho
    rcases ho with rfl | rfl | rfl | rfl <;> norm_num

end SBayes.Kernel
