import Verif.Props.Sizes
/- C117: under the prior `uniform_area`, a run that samples from the prior visits all admissible sets of clusters equally often. -/
namespace SBayes.Kernel
open SBayes.Lik SBayes.Clusters SBayes.MH SBayes.Effects SBayes.Posterior SBayes.Draws SBayes.Meas SBayes.MCMC SBayes.Prior MeasureTheory
open SBayes.Init
open Filter Topology
open scoped BigOperators ENNReal

variable {K N F S M : ℕ} {nG : Fin M → ℕ} {m : Setup K N F S M nG}

open Classical in
/-- The prior probability of one assignment. -/
theorem area_prior (hsize : m.cfg.size = .uniformArea) (hgeo : m.cfg.geo = .uniform) (z : Clus K N) :
    clusterPrior m z = (if Valid m.cl.minSize m.cl.maxSize z then 1 else 0) /
      ((Finset.univ.filter fun z : Clus K N => Valid m.cl.minSize m.cl.maxSize z).card : ℝ) := by
  unfold clusterPrior
  simp [hsize, hgeo, sizePrior, geoTerm]

open Classical in
theorem area_event (hsize : m.cfg.size = .uniformArea) (hgeo : m.cfg.geo = .uniform) (p : Clus K N → Bool) :
    ∑ z ∈ Finset.univ.filter (fun z : Clus K N => p z = true), clusterPrior m z =
      ((Finset.univ.filter fun z : Clus K N => Valid m.cl.minSize m.cl.maxSize z ∧ p z = true).card : ℝ) /
      ((Finset.univ.filter fun z : Clus K N => Valid m.cl.minSize m.cl.maxSize z).card : ℝ) := by
  simp only [area_prior hsize hgeo]
  rw [← Finset.sum_div]
  congr 1
  rw [← Finset.sum_filter, Finset.filter_filter]
  simp [and_comm]

open Classical in
/-- **C117.** With `sample_from_prior`, the size prior `uniform_area` and no geo-prior, a whole run without sources visits every admissible
assignment of the objects to clusters equally often: whatever is asked about the clusters, the fraction of the samples that satisfy it converges
to the fraction of the admissible assignments (disjoint clusters with sizes within the bounds) that satisfy it. -/
theorem C117_assignments_are_uniform_without_sources (hm : WellPosed m) (hs : m.cfg.sampleSource = false) (hf : CanMove m)
    (hsize : m.cfg.size = .uniformArea) (hgeo : m.cfg.geo = .uniform)
    (hadj : ∀ i j, m.cl.adj i j = m.cl.adj j i)
    (cfg : OpConfig) (ops : List (OpKind M × ℝ)) (hops : getOperators false M cfg = .ok ops) (hpos : ∀ o ∈ ops, 0 < o.2)
    (sz nChains warmSteps : ℕ) (hsz : 1 ≤ sz) (hlo : m.cl.minSize ≤ sz) (hhi : sz ≤ m.cl.maxSize) (hchains : 0 < nChains)
    (rnd : Fin nChains → ℕ → ℕ) (rnd' : ℕ → ℕ) (blank : Fin nChains → State0 K N F S M nG)
    (hrnd : ∀ c, (initialClusters (m := 0) m.cl.adj (rnd c) sz (fun k => k.elim0) : Option (Clus K N)).isSome)
    (s : ℕ) (hs0 : 0 < s) (p : Clus K N → Bool) (ε : ℝ) (hε : 0 < ε) :
    Tendsto (fun n : ℕ => (wholeRunPrior0 m (normalizeOperatorWeights ops) sz nChains warmSteps rnd rnd' blank s n).prob
      {l | |(l.countP (fun x => p x.1) : ℝ) / (l.length : ℝ) -
        ((Finset.univ.filter fun z : Clus K N => Valid m.cl.minSize m.cl.maxSize z ∧ p z = true).card : ℝ) /
        ((Finset.univ.filter fun z : Clus K N => Valid m.cl.minSize m.cl.maxSize z).card : ℝ)| < ε}) atTop (𝓝 1) := by
  have hset : {x : Clus K N × Cont K F S M nG | p x.1 = true} =
      {x | x.1 ∈ Finset.univ.filter fun z : Clus K N => p z = true} := by
    ext x
    simp
  have hQ : MeasurableSet {x : Clus K N × Cont K F S M nG | p x.1 = true} :=
    measurable_fst (MeasurableSet.of_discrete (s := {z : Clus K N | p z = true}))
  have hmeas : Measurable fun x : Clus K N × Cont K F S M nG => if p x.1 = true then (1 : ℝ) else 0 :=
    Measurable.ite hQ measurable_const measurable_const
  have h := C91_whole_run_converges_without_sources hm hs hf hadj cfg ops hops hpos sz nChains warmSteps hsz hlo hhi hchains rnd rnd' blank hrnd
    s hs0 _ hmeas 1 (fun x => by split <;> simp) ε hε
  have hv' := (priorRun0 hm hs hf.feature hf.twoStates hadj cfg ops hops hpos sz nChains warmSteps hsz hlo hhi hchains rnd rnd' blank hrnd).1
  rw [mean_count _ _ hQ, hset, mass_of_event hm hs hv' _, area_event hsize hgeo p] at h
  simp only [count_mean] at h
  exact h

open Classical in
/-- **C117.** The same with sources. -/
theorem C117_assignments_are_uniform (hm : WellPosed m) (hs : m.cfg.sampleSource = true) (hN : K * m.cl.minSize < N)
    (hsize : m.cfg.size = .uniformArea) (hgeo : m.cfg.geo = .uniform)
    (hadj : ∀ i j, m.cl.adj i j = m.cl.adj j i)
    (cfg : OpConfig) (ops : List (OpKind M × ℝ)) (hops : getOperators true M cfg = .ok ops) (hpos : ∀ o ∈ ops, 0 < o.2)
    (sz nChains warmSteps : ℕ) (hsz : 1 ≤ sz) (hlo : m.cl.minSize ≤ sz) (hhi : sz ≤ m.cl.maxSize) (hchains : 0 < nChains)
    (garbage : Fin N × Fin F → Fin (M + 1)) (rnd : Fin nChains → ℕ → ℕ) (rnd' : ℕ → ℕ) (blank : Fin nChains → State K N F S M nG)
    (hrnd : ∀ c, (initialClusters (m := 0) m.cl.adj (rnd c) sz (fun k => k.elim0) : Option (Clus K N)).isSome)
    (s : ℕ) (hs0 : 0 < s) (p : Clus K N → Bool) (ε : ℝ) (hε : 0 < ε) :
    Tendsto (fun n : ℕ => (wholeRunPrior m (normalizeOperatorWeights ops) sz nChains warmSteps garbage rnd rnd' blank s n).prob
      {l | |(l.countP (fun x => p x.1.1) : ℝ) / (l.length : ℝ) -
        ((Finset.univ.filter fun z : Clus K N => Valid m.cl.minSize m.cl.maxSize z ∧ p z = true).card : ℝ) /
        ((Finset.univ.filter fun z : Clus K N => Valid m.cl.minSize m.cl.maxSize z).card : ℝ)| < ε}) atTop (𝓝 1) := by
  have hset : {x : Disc K N F M × Cont K F S M nG | p x.1.1 = true} =
      {x | x.1.1 ∈ Finset.univ.filter fun z : Clus K N => p z = true} := by
    ext x
    simp
  have hQ : MeasurableSet {x : Disc K N F M × Cont K F S M nG | p x.1.1 = true} :=
    measurable_fst (MeasurableSet.of_discrete (s := {d : Disc K N F M | p d.1 = true}))
  have hmeas : Measurable fun x : Disc K N F M × Cont K F S M nG => if p x.1.1 = true then (1 : ℝ) else 0 :=
    Measurable.ite hQ measurable_const measurable_const
  have h := C91_whole_run_converges hm hs hN hadj cfg ops hops hpos sz nChains warmSteps hsz hlo hhi hchains garbage rnd rnd' blank hrnd
    s hs0 _ hmeas 1 (fun x => by split <;> simp) ε hε
  have hv' := (priorRun hm hs hadj cfg ops hops hpos sz nChains warmSteps hsz hlo hhi hchains garbage rnd rnd' blank hrnd).1
  have e1 := marginal_prior hm hs {x | x.1 ∈ Finset.univ.filter fun z : Clus K N => p z = true}
    (measurable_fst (MeasurableSet.of_discrete (s := {z : Clus K N | z ∈ Finset.univ.filter fun z : Clus K N => p z = true})))
  have e2 := marginal_prior hm hs Set.univ MeasurableSet.univ
  have e3 : {x : Disc K N F M × Cont K F S M nG | (x.1.1, x.2) ∈ (Set.univ : Set (Clus K N × Cont K F S M nG))} = Set.univ :=
    Set.eq_univ_of_forall fun _ => trivial
  rw [e3] at e2
  have e4 : {x : Disc K N F M × Cont K F S M nG | (x.1.1, x.2) ∈
      ({x | x.1 ∈ Finset.univ.filter fun z : Clus K N => p z = true} : Set (Clus K N × Cont K F S M nG))} =
      {x | x.1.1 ∈ Finset.univ.filter fun z : Clus K N => p z = true} := rfl
  rw [e4] at e1
  rw [mean_count _ _ hQ, hset, e1, e2, mass_of_event (m := withSampling m false) (withSampling_wellPosed hm false) rfl hv' _,
    area_event (m := withSampling m false) hsize hgeo p] at h
  simp only [count_mean] at h
  exact h

/-- The assignments of five objects to two disjoint clusters of one or two objects. -/
theorem count_110 : ((Finset.univ : Finset (Fin 2 → Fin 5 → Bool)).filter fun z => (∀ n, ¬ (z 0 n = true ∧ z 1 n = true)) ∧
    ∀ k, 1 ≤ size (z k) ∧ size (z k) ≤ 2).card = 110 := by decide +kernel

theorem count_20 : ((Finset.univ : Finset (Fin 2 → Fin 5 → Bool)).filter fun z => ((∀ n, ¬ (z 0 n = true ∧ z 1 n = true)) ∧
    ∀ k, 1 ≤ size (z k) ∧ size (z k) ≤ 2) ∧ decide (size (z 0) = 1 ∧ size (z 1) = 1) = true).card = 20 := by decide +kernel

theorem valid_iff (z : Clus 2 5) : Valid 1 2 z ↔ (∀ n, ¬ (z 0 n = true ∧ z 1 n = true)) ∧ ∀ k, 1 ≤ size (z k) ∧ size (z k) ≤ 2 := by
  constructor
  · intro h
    exact ⟨fun n hn => absurd (h.disjoint 0 1 n hn.1 hn.2) (by decide), fun k => ⟨h.lower k, h.upper k⟩⟩
  · rintro ⟨h1, h2⟩
    refine ⟨fun i j n hi hj => ?_, fun k => (h2 k).1, fun k => (h2 k).2⟩
    match i, j, hi, hj with
    | 0, 0, _, _ => rfl
    | 1, 1, _, _ => rfl
    | 0, 1, a, b => exact absurd ⟨a, b⟩ (h1 n)
    | 1, 0, a, b => exact absurd ⟨b, a⟩ (h1 n)

/-- The requirements are met by a run without sources: in 20 of the 110 admissible assignments both clusters have a single object, and this is
found in two elevenths of the samples, not in a quarter as under `uniform_size`. -/
example : ∃ ops : List (OpKind 1 × ℝ),
    getOperators false 1 { clusters := 45, weights := 15, clusterEffect := 10, confoundingEffects := 10, source := 0 } = .ok ops ∧
    ∀ ε > 0, Tendsto (fun n : ℕ => (wholeRunPrior0 widerSetup (normalizeOperatorWeights ops) 1 3 10 (fun _ _ => 0) (fun _ => 0)
      (fun _ => widerState) 5 n).prob
        {l | |(l.countP (fun x => decide (size (x.1 0) = 1 ∧ size (x.1 1) = 1)) : ℝ) / (l.length : ℝ) - 2 / 11| < ε}) atTop (𝓝 1) := by
  classical
  refine ⟨_, rfl, fun ε hε => ?_⟩
  have h := C117_assignments_are_uniform_without_sources widerSetup_wellPosed rfl widerSetup_canMove rfl rfl (fun _ _ => rfl)
    { clusters := 45, weights := 15, clusterEffect := 10, confoundingEffects := 10, source := 0 } _ rfl (by
      intro o ho
      simp [List.finRange] at ho
      rcases ho with rfl | rfl | rfl | rfl <;> norm_num) 1 3 10 le_rfl le_rfl
    (by norm_num [widerSetup]) (by norm_num) (fun _ _ => 0) (fun _ => 0) (fun _ => widerState) (fun _ => widerSetup_initial _) 5 (by norm_num)
    (fun z => decide (size (z 0) = 1 ∧ size (z 1) = 1)) ε hε
  have e1 : (Finset.univ.filter fun z : Clus 2 5 => Valid widerSetup.cl.minSize widerSetup.cl.maxSize z).card = 110 := by
    rw [← count_110]
    exact congrArg _ (Finset.filter_congr fun z _ => valid_iff z)
  have e2 : (Finset.univ.filter fun z : Clus 2 5 => Valid widerSetup.cl.minSize widerSetup.cl.maxSize z ∧
      decide (size (z 0) = 1 ∧ size (z 1) = 1) = true).card = 20 := by
    rw [← count_20]
    exact congrArg _ (Finset.filter_congr fun z _ => and_congr_left' (valid_iff z))
  rw [e1, e2, show ((20 : ℕ) : ℝ) / ((110 : ℕ) : ℝ) = 2 / 11 by norm_num] at h
  exact h

/-- The same with sources. -/
example : ∃ ops : List (OpKind 1 × ℝ),
    getOperators true 1 { clusters := 45, weights := 15, clusterEffect := 10, confoundingEffects := 10, source := 10 } = .ok ops ∧
    ∀ ε > 0, Tendsto (fun n : ℕ => (wholeRunPrior (withSampling widerSetup true) (normalizeOperatorWeights ops) 1 3 10 (fun _ => 0) (fun _ _ => 0)
      (fun _ => 0) (fun _ => ((widerState.1, fun _ => 0), widerState.2)) 5 n).prob
        {l | |(l.countP (fun x => decide (size (x.1.1 0) = 1 ∧ size (x.1.1 1) = 1)) : ℝ) / (l.length : ℝ) - 2 / 11| < ε}) atTop (𝓝 1) := by
  classical
  refine ⟨_, rfl, fun ε hε => ?_⟩
  have h := C117_assignments_are_uniform (withSampling_wellPosed widerSetup_wellPosed true) rfl
    (by norm_num [withSampling, widerSetup]) rfl rfl (fun _ _ => rfl)
    { clusters := 45, weights := 15, clusterEffect := 10, confoundingEffects := 10, source := 10 } _ rfl (by
      intro o ho
      simp [List.finRange] at ho
      rcases ho with rfl | rfl | rfl | rfl | rfl | rfl <;> norm_num) 1 3 10 le_rfl le_rfl
    (by norm_num [withSampling, widerSetup]) (by norm_num) (fun _ => 0) (fun _ _ => 0) (fun _ => 0) (fun _ => ((widerState.1, fun _ => 0), widerState.2))
    (fun _ => widerSetup_initial _) 5 (by norm_num)
    (fun z => decide (size (z 0) = 1 ∧ size (z 1) = 1)) ε hε
  have e1 : (Finset.univ.filter fun z : Clus 2 5 => Valid (withSampling widerSetup true).cl.minSize (withSampling widerSetup true).cl.maxSize z).card
      = 110 := by
    rw [← count_110]
    exact congrArg _ (Finset.filter_congr fun z _ => valid_iff z)
  have e2 : (Finset.univ.filter fun z : Clus 2 5 => Valid (withSampling widerSetup true).cl.minSize (withSampling widerSetup true).cl.maxSize z ∧
      decide (size (z 0) = 1 ∧ size (z 1) = 1) = true).card = 20 := by
    rw [← count_20]
    exact congrArg _ (Finset.filter_congr fun z _ => and_congr_left' (valid_iff z))
  rw [e1, e2, show ((20 : ℕ) : ℝ) / ((110 : ℕ) : ℝ) = 2 / 11 by norm_num] at h
  exact h

end SBayes.Kernel
