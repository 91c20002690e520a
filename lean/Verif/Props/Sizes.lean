import Verif.Spec.Sizes
import Verif.Props.FromPrior
import Verif.Props.Prior
/- C116: under the prior `uniform_size`, a run that samples from the prior visits all cluster sizes equally often. -/
namespace SBayes.Kernel
open SBayes.Lik SBayes.Clusters SBayes.MH SBayes.Effects SBayes.Posterior SBayes.Draws SBayes.Meas SBayes.MCMC SBayes.Prior MeasureTheory
open SBayes.Init
open Filter Topology
open scoped BigOperators ENNReal

variable {K N F S M : ℕ} {nG : Fin M → ℕ} {m : Setup K N F S M nG}

theorem sizes_le {lo hi : ℕ} {z : Clus K N} (h : Valid lo hi z) : ∑ k, size (z k) ≤ N := by
  have h1 : (Finset.univ.biUnion fun k => Finset.univ.filter fun n => z k n = true).card = ∑ k, size (z k) := by
    refine Finset.card_biUnion fun i _ j _ hij => Finset.disjoint_left.mpr fun n hi hj => hij ?_
    simp only [Finset.mem_filter, Finset.mem_univ, true_and] at hi hj
    exact h.disjoint i j n hi hj
  rw [← h1]
  exact (Finset.card_le_univ _).trans (by simp)

theorem sizes_admissible {lo hi : ℕ} {z : Clus K N} (h : Valid lo hi z) : (fun k => size (z k)) ∈ admissibleSizes K N lo hi := by
  simp only [admissibleSizes, Finset.mem_filter, Fintype.mem_piFinset, Finset.mem_Icc]
  exact ⟨fun k => ⟨h.lower k, h.upper k⟩, sizes_le h⟩

open Classical in
/-- Sum of the weights of all assignments with given sizes. -/
theorem weight_of_sizes (hsize : m.cfg.size = .uniformSize) (hgeo : m.cfg.geo = .uniform) (v : Fin K → ℕ)
    (hv : v ∈ admissibleSizes K N m.cl.minSize m.cl.maxSize) :
    (∑ z ∈ Finset.univ.filter (fun z : Clus K N => (fun k => size (z k)) = v), if Valid m.cl.minSize m.cl.maxSize z then
      Real.exp (sizePrior m.cfg.size z + (geoTerm m.cfg.geo z).getD 0) else 0) = 1 := by
  simp only [admissibleSizes, Finset.mem_filter, Fintype.mem_piFinset, Finset.mem_Icc] at hv
  rw [← C14_uniform_size_prior (N := N) v hv.2]
  rw [← Finset.sum_filter]
  refine Finset.sum_congr ?_ fun z _ => ?_
  · ext z
    simp only [Finset.mem_filter, Finset.mem_univ, true_and, placements, IsPlacement]
    constructor
    · rintro ⟨h1, h2⟩
      exact ⟨h2.disjoint, fun k => congrFun h1 k⟩
    · rintro ⟨h1, h2⟩
      have h3 : ∀ k, size (z k) = v k := h2
      exact ⟨funext h3, ⟨h1, fun k => by rw [h3]; exact (hv.1 k).1, fun k => by rw [h3]; exact (hv.1 k).2⟩⟩
  · rw [hsize, hgeo]
    simp [geoTerm]

open Classical in
/-- The prior probability of a vector of cluster sizes. -/
theorem sizes_prior (hsize : m.cfg.size = .uniformSize) (hgeo : m.cfg.geo = .uniform) (v : Fin K → ℕ)
    (hv : v ∈ admissibleSizes K N m.cl.minSize m.cl.maxSize) :
    ∑ z ∈ Finset.univ.filter (fun z : Clus K N => (fun k => size (z k)) = v), clusterPrior m z =
      1 / ((admissibleSizes K N m.cl.minSize m.cl.maxSize).card : ℝ) := by
  unfold clusterPrior
  rw [← Finset.sum_div, weight_of_sizes hsize hgeo v hv]
  congr 1
  rw [← Finset.sum_filter]
  rw [← Finset.sum_fiberwise_of_maps_to (s := Finset.univ.filter fun z : Clus K N => Valid m.cl.minSize m.cl.maxSize z)
    (t := admissibleSizes K N m.cl.minSize m.cl.maxSize) (g := fun z k => size (z k))
    (fun z hz => sizes_admissible (Finset.mem_filter.mp hz).2)]
  rw [Finset.sum_congr rfl fun w hw => ?_, Finset.sum_const, nsmul_eq_mul, mul_one]
  rw [← weight_of_sizes hsize hgeo w hw, Finset.filter_filter, ← Finset.sum_filter, Finset.filter_filter]
  refine Finset.sum_congr ?_ fun _ _ => rfl
  ext z
  simp [and_comm]

open Classical in
theorem mass_of_event (hm : WellPosed m) (hs : m.cfg.sampleSource = false) (hv : ∃ z : Clus K N, Valid m.cl.minSize m.cl.maxSize z)
    (A : Finset (Clus K N)) :
    (target m id (priorOnly0 m) {x | x.1 ∈ A}).toReal / (target m id (priorOnly0 m) Set.univ).toReal = ∑ z ∈ A, clusterPrior m z := by
  obtain ⟨h0, h1⟩ := (C81_posterior_is_proper (m := emptied m) (emptied_wellPosed hm) hv).2 hs
  rw [target0_emptied hm] at h0 h1
  have e : target m id (priorOnly0 m) {x | x.1 ∈ A} = ∑ z ∈ A, target m id (priorOnly0 m) {x | x.1 = z} := by
    rw [← measure_biUnion_finset]
    · congr 1
      ext x
      simp
    · intro z _ z' _ hne
      exact Set.disjoint_left.mpr fun x h1 h2 => hne (h1.symm.trans h2)
    · exact fun z _ => measurable_fst (measurableSet_singleton z)
  rw [e, ENNReal.toReal_sum fun z _ => ne_top_of_le_ne_top h1 (measure_mono (Set.subset_univ _)), Finset.sum_div]
  exact Finset.sum_congr rfl fun z _ => mass_of_clusters hm hs hv z

/-- **C116.** With `sample_from_prior`, the size prior `uniform_size` and no geo-prior, a whole run without sources logs all admissible
vectors of cluster sizes equally often: the fraction of the samples with sizes `v` converges to one over the number of admissible vectors. -/
theorem C116_sizes_are_uniform_without_sources (hm : WellPosed m) (hs : m.cfg.sampleSource = false) (hf : CanMove m)
    (hsize : m.cfg.size = .uniformSize) (hgeo : m.cfg.geo = .uniform)
    (hadj : ∀ i j, m.cl.adj i j = m.cl.adj j i)
    (cfg : OpConfig) (ops : List (OpKind M × ℝ)) (hops : getOperators false M cfg = .ok ops) (hpos : ∀ o ∈ ops, 0 < o.2)
    (sz nChains warmSteps : ℕ) (hsz : 1 ≤ sz) (hlo : m.cl.minSize ≤ sz) (hhi : sz ≤ m.cl.maxSize) (hchains : 0 < nChains)
    (rnd : Fin nChains → ℕ → ℕ) (rnd' : ℕ → ℕ) (blank : Fin nChains → State0 K N F S M nG)
    (hrnd : ∀ c, (initialClusters (m := 0) m.cl.adj (rnd c) sz (fun k => k.elim0) : Option (Clus K N)).isSome)
    (s : ℕ) (hs0 : 0 < s) (v : Fin K → ℕ) (hv : v ∈ admissibleSizes K N m.cl.minSize m.cl.maxSize) (ε : ℝ) (hε : 0 < ε) :
    Tendsto (fun n : ℕ => (wholeRunPrior0 m (normalizeOperatorWeights ops) sz nChains warmSteps rnd rnd' blank s n).prob
      {l | |(l.countP (fun x => decide (∀ k, size (x.1 k) = v k)) : ℝ) / (l.length : ℝ) -
        1 / ((admissibleSizes K N m.cl.minSize m.cl.maxSize).card : ℝ)| < ε}) atTop (𝓝 1) := by
  classical
  have hset : {x : Clus K N × Cont K F S M nG | decide (∀ k, size (x.1 k) = v k) = true} =
      {x | x.1 ∈ Finset.univ.filter fun z : Clus K N => (fun k => size (z k)) = v} := by
    ext x
    simp [funext_iff]
  have hQ : MeasurableSet {x : Clus K N × Cont K F S M nG | decide (∀ k, size (x.1 k) = v k) = true} :=
    measurable_fst (MeasurableSet.of_discrete (s := {z : Clus K N | decide (∀ k, size (z k) = v k) = true}))
  have hmeas : Measurable fun x : Clus K N × Cont K F S M nG => if decide (∀ k, size (x.1 k) = v k) = true then (1 : ℝ) else 0 :=
    Measurable.ite hQ measurable_const measurable_const
  have h := C91_whole_run_converges_without_sources hm hs hf hadj cfg ops hops hpos sz nChains warmSteps hsz hlo hhi hchains rnd rnd' blank hrnd
    s hs0 _ hmeas 1 (fun x => by split <;> simp) ε hε
  have hv' := (priorRun0 hm hs hf.feature hf.twoStates hadj cfg ops hops hpos sz nChains warmSteps hsz hlo hhi hchains rnd rnd' blank hrnd).1
  rw [mean_count _ _ hQ, hset, mass_of_event hm hs hv' _, sizes_prior hsize hgeo v hv] at h
  simp only [count_mean] at h
  exact h

/-- **C116.** The same with sources. -/
theorem C116_sizes_are_uniform (hm : WellPosed m) (hs : m.cfg.sampleSource = true) (hN : K * m.cl.minSize < N)
    (hsize : m.cfg.size = .uniformSize) (hgeo : m.cfg.geo = .uniform)
    (hadj : ∀ i j, m.cl.adj i j = m.cl.adj j i)
    (cfg : OpConfig) (ops : List (OpKind M × ℝ)) (hops : getOperators true M cfg = .ok ops) (hpos : ∀ o ∈ ops, 0 < o.2)
    (sz nChains warmSteps : ℕ) (hsz : 1 ≤ sz) (hlo : m.cl.minSize ≤ sz) (hhi : sz ≤ m.cl.maxSize) (hchains : 0 < nChains)
    (garbage : Fin N × Fin F → Fin (M + 1)) (rnd : Fin nChains → ℕ → ℕ) (rnd' : ℕ → ℕ) (blank : Fin nChains → State K N F S M nG)
    (hrnd : ∀ c, (initialClusters (m := 0) m.cl.adj (rnd c) sz (fun k => k.elim0) : Option (Clus K N)).isSome)
    (s : ℕ) (hs0 : 0 < s) (v : Fin K → ℕ) (hv : v ∈ admissibleSizes K N m.cl.minSize m.cl.maxSize) (ε : ℝ) (hε : 0 < ε) :
    Tendsto (fun n : ℕ => (wholeRunPrior m (normalizeOperatorWeights ops) sz nChains warmSteps garbage rnd rnd' blank s n).prob
      {l | |(l.countP (fun x => decide (∀ k, size (x.1.1 k) = v k)) : ℝ) / (l.length : ℝ) -
        1 / ((admissibleSizes K N m.cl.minSize m.cl.maxSize).card : ℝ)| < ε}) atTop (𝓝 1) := by
  classical
  have hset : {x : Disc K N F M × Cont K F S M nG | decide (∀ k, size (x.1.1 k) = v k) = true} =
      {x | x.1.1 ∈ Finset.univ.filter fun z : Clus K N => (fun k => size (z k)) = v} := by
    ext x
    simp [funext_iff]
  have hQ : MeasurableSet {x : Disc K N F M × Cont K F S M nG | decide (∀ k, size (x.1.1 k) = v k) = true} :=
    measurable_fst (MeasurableSet.of_discrete (s := {d : Disc K N F M | decide (∀ k, size (d.1 k) = v k) = true}))
  have hmeas : Measurable fun x : Disc K N F M × Cont K F S M nG => if decide (∀ k, size (x.1.1 k) = v k) = true then (1 : ℝ) else 0 :=
    Measurable.ite hQ measurable_const measurable_const
  have h := C91_whole_run_converges hm hs hN hadj cfg ops hops hpos sz nChains warmSteps hsz hlo hhi hchains garbage rnd rnd' blank hrnd
    s hs0 _ hmeas 1 (fun x => by split <;> simp) ε hε
  have hv' := (priorRun hm hs hadj cfg ops hops hpos sz nChains warmSteps hsz hlo hhi hchains garbage rnd rnd' blank hrnd).1
  have e1 := marginal_prior hm hs {x | x.1 ∈ Finset.univ.filter fun z : Clus K N => (fun k => size (z k)) = v}
    (measurable_fst (MeasurableSet.of_discrete (s := {z : Clus K N | z ∈ Finset.univ.filter fun z : Clus K N => (fun k => size (z k)) = v})))
  have e2 := marginal_prior hm hs Set.univ MeasurableSet.univ
  have e3 : {x : Disc K N F M × Cont K F S M nG | (x.1.1, x.2) ∈ (Set.univ : Set (Clus K N × Cont K F S M nG))} = Set.univ :=
    Set.eq_univ_of_forall fun _ => trivial
  rw [e3] at e2
  have e4 : {x : Disc K N F M × Cont K F S M nG | (x.1.1, x.2) ∈
      ({x | x.1 ∈ Finset.univ.filter fun z : Clus K N => (fun k => size (z k)) = v} : Set (Clus K N × Cont K F S M nG))} =
      {x | x.1.1 ∈ Finset.univ.filter fun z : Clus K N => (fun k => size (z k)) = v} := rfl
  rw [e4] at e1
  rw [mean_count _ _ hQ, hset, e1, e2, mass_of_event (m := withSampling m false) (withSampling_wellPosed hm false) rfl hv' _,
    sizes_prior (m := withSampling m false) hsize hgeo v hv] at h
  simp only [count_mean] at h
  exact h

/-- Two clusters of one to four of five objects, with the size prior `uniform_size`. -/
noncomputable def sizedSetup (b : Bool) : Setup 2 5 2 3 1 (fun _ => 2) :=
  { widerSetup with cfg := { widerSetup.cfg with size := .uniformSize, sampleSource := b }, cl := { widerSetup.cl with maxSize := 4 } }

theorem sizedSetup_wellPosed (b : Bool) : WellPosed (sizedSetup b) :=
  { widerSetup_wellPosed with geo := fun _ _ => rfl, nonempty := fun _ => Nat.one_pos }

theorem sizedSetup_canMove (b : Bool) : CanMove (sizedSetup b) :=
  { widerSetup_canMove with sizes := by norm_num [sizedSetup, widerSetup] }

theorem sized_ten : (admissibleSizes 2 5 1 4).card = 10 := by decide +kernel

/-- The requirements are met by a run without sources: there are ten admissible pairs of sizes, and the pair (4, 1) is found in a tenth of the
samples, although there are only 5 ways to choose clusters of these sizes and 30 for (2, 2). -/
example : ∃ ops : List (OpKind 1 × ℝ),
    getOperators false 1 { clusters := 45, weights := 15, clusterEffect := 10, confoundingEffects := 10, source := 0 } = .ok ops ∧
    ∀ ε > 0, Tendsto (fun n : ℕ => (wholeRunPrior0 (sizedSetup false) (normalizeOperatorWeights ops) 1 3 10 (fun _ _ => 0) (fun _ => 0)
      (fun _ => widerState) 5 n).prob {l | |(l.countP (fun x => decide (∀ k, size (x.1 k) = ![4, 1] k)) : ℝ) / (l.length : ℝ) - 1 / 10| < ε})
        atTop (𝓝 1) := by
  refine ⟨_, rfl, fun ε hε => ?_⟩
  have h := C116_sizes_are_uniform_without_sources (sizedSetup_wellPosed false) rfl (sizedSetup_canMove false) rfl rfl (fun _ _ => rfl)
    { clusters := 45, weights := 15, clusterEffect := 10, confoundingEffects := 10, source := 0 } _ rfl (by
      intro o ho
      simp [List.finRange] at ho
      rcases ho with rfl | rfl | rfl | rfl <;> norm_num) 1 3 10 le_rfl le_rfl
    (by norm_num [sizedSetup]) (by norm_num) (fun _ _ => 0) (fun _ => 0) (fun _ => widerState) (fun _ => widerSetup_initial _) 5 (by norm_num)
    ![4, 1] (by show _ ∈ admissibleSizes 2 5 1 4; decide +kernel) ε hε
  have e : (((admissibleSizes 2 5 (sizedSetup false).cl.minSize (sizedSetup false).cl.maxSize).card : ℕ) : ℝ) = 10 := by
    have : (admissibleSizes 2 5 (sizedSetup false).cl.minSize (sizedSetup false).cl.maxSize).card = 10 := sized_ten
    rw [this]
    norm_num
  rw [e] at h
  exact h

/-- The same with sources. -/
example : ∃ ops : List (OpKind 1 × ℝ),
    getOperators true 1 { clusters := 45, weights := 15, clusterEffect := 10, confoundingEffects := 10, source := 10 } = .ok ops ∧
    ∀ ε > 0, Tendsto (fun n : ℕ => (wholeRunPrior (sizedSetup true) (normalizeOperatorWeights ops) 1 3 10 (fun _ => 0) (fun _ _ => 0) (fun _ => 0)
      (fun _ => ((widerState.1, fun _ => 0), widerState.2)) 5 n).prob
        {l | |(l.countP (fun x => decide (∀ k, size (x.1.1 k) = ![2, 2] k)) : ℝ) / (l.length : ℝ) - 1 / 10| < ε}) atTop (𝓝 1) := by
  refine ⟨_, rfl, fun ε hε => ?_⟩
  have h := C116_sizes_are_uniform (sizedSetup_wellPosed true) rfl (by norm_num [sizedSetup, widerSetup]) rfl rfl (fun _ _ => rfl)
    { clusters := 45, weights := 15, clusterEffect := 10, confoundingEffects := 10, source := 10 } _ rfl (by
      intro o ho
      simp [List.finRange] at ho
      rcases ho with rfl | rfl | rfl | rfl | rfl | rfl <;> norm_num) 1 3 10 le_rfl le_rfl
    (by norm_num [sizedSetup]) (by norm_num) (fun _ => 0) (fun _ _ => 0) (fun _ => 0) (fun _ => ((widerState.1, fun _ => 0), widerState.2))
    (fun _ => widerSetup_initial _) 5 (by norm_num)
    ![2, 2] (by show _ ∈ admissibleSizes 2 5 1 4; decide +kernel) ε hε
  have e : (((admissibleSizes 2 5 (sizedSetup true).cl.minSize (sizedSetup true).cl.maxSize).card : ℕ) : ℝ) = 10 := by
    have : (admissibleSizes 2 5 (sizedSetup true).cl.minSize (sizedSetup true).cl.maxSize).card = 10 := sized_ten
    rw [this]
    norm_num
  rw [e] at h
  exact h

end SBayes.Kernel
