import Verif.Props.Sizes
/- C118: under the prior `quadratic`, a run that samples from the prior visits clusters with the announced probabilities. -/
namespace SBayes.Kernel
open SBayes.Lik SBayes.Clusters SBayes.MH SBayes.Effects SBayes.Posterior SBayes.Draws SBayes.Meas SBayes.MCMC SBayes.Prior MeasureTheory
open SBayes.Init
open Filter Topology
open scoped BigOperators ENNReal

variable {K N F S M : ℕ} {nG : Fin M → ℕ} {m : Setup K N F S M nG}

/-- The exponential of the size prior `quadratic`. -/
theorem exp_quadratic (z : Clus K N) (h : ∀ k, 0 < size (z k)) :
    Real.exp (sizePrior .quadraticSize z) = ∏ k, 1 / (size (z k) : ℝ) ^ 2 := by
  simp only [sizePrior, List.map_map]
  rw [Real.exp_neg, ← List.ofFn_eq_map, List.sum_ofFn, Real.exp_sum, ← Finset.prod_inv_distrib]
  refine Finset.prod_congr rfl fun k _ => ?_
  have h1 : clusterSize (z k) = size (z k) := clusterSize_eq (z k)
  have h2 : (0 : ℝ) < (size (z k) : ℝ) ^ 2 := by have := h k; positivity
  rw [Function.comp, h1, Real.exp_log h2, one_div]

theorem clusterPrior_quadratic (hm : WellPosed m) (hsize : m.cfg.size = .quadraticSize) (hgeo : m.cfg.geo = .uniform) (z : Clus K N) :
    clusterPrior m z = quadraticWeight m.cl.minSize m.cl.maxSize z / ∑ z' : Clus K N, quadraticWeight m.cl.minSize m.cl.maxSize z' := by
  classical
  have h : ∀ z : Clus K N, (if Valid m.cl.minSize m.cl.maxSize z then
      Real.exp (sizePrior m.cfg.size z + (geoTerm m.cfg.geo z).getD 0) else 0) = quadraticWeight m.cl.minSize m.cl.maxSize z := by
    intro z
    unfold quadraticWeight
    split
    · rename_i hv
      rw [hsize, hgeo]
      simp only [geoTerm, Option.getD_some, add_zero]
      exact exp_quadratic z fun k => (hm.nonempty hsize).trans_le (hv.lower k)
    · rfl
  unfold clusterPrior
  simp only [h]

/-- **C118.** With `sample_from_prior`, the size prior `quadratic` and no geo-prior, the fraction of the samples of a whole run without sources
in which the clusters are `z` converges to a probability proportional to the product of `1 / size²` over the clusters. -/
theorem C118_quadratic_frequencies_without_sources (hm : WellPosed m) (hs : m.cfg.sampleSource = false) (hf : CanMove m)
    (hsize : m.cfg.size = .quadraticSize) (hgeo : m.cfg.geo = .uniform)
    (hadj : ∀ i j, m.cl.adj i j = m.cl.adj j i)
    (cfg : OpConfig) (ops : List (OpKind M × ℝ)) (hops : getOperators false M cfg = .ok ops) (hpos : ∀ o ∈ ops, 0 < o.2)
    (sz nChains warmSteps : ℕ) (hsz : 1 ≤ sz) (hlo : m.cl.minSize ≤ sz) (hhi : sz ≤ m.cl.maxSize) (hchains : 0 < nChains)
    (rnd : Fin nChains → ℕ → ℕ) (rnd' : ℕ → ℕ) (blank : Fin nChains → State0 K N F S M nG)
    (hrnd : ∀ c, (initialClusters (m := 0) m.cl.adj (rnd c) sz (fun k => k.elim0) : Option (Clus K N)).isSome)
    (s : ℕ) (hs0 : 0 < s) (z : Clus K N) (ε : ℝ) (hε : 0 < ε) :
    Tendsto (fun n : ℕ => (wholeRunPrior0 m (normalizeOperatorWeights ops) sz nChains warmSteps rnd rnd' blank s n).prob
      {l | |(l.countP (fun x => decide (x.1 = z)) : ℝ) / (l.length : ℝ) -
        quadraticWeight m.cl.minSize m.cl.maxSize z / ∑ z' : Clus K N, quadraticWeight m.cl.minSize m.cl.maxSize z'| < ε}) atTop (𝓝 1) := by
  rw [← clusterPrior_quadratic hm hsize hgeo z]
  exact C91_cluster_frequencies_without_sources hm hs hf hadj cfg ops hops hpos sz nChains warmSteps hsz hlo hhi hchains rnd rnd' blank hrnd
    s hs0 z ε hε

/-- **C118.** The same with sources. -/
theorem C118_quadratic_frequencies (hm : WellPosed m) (hs : m.cfg.sampleSource = true) (hN : K * m.cl.minSize < N)
    (hsize : m.cfg.size = .quadraticSize) (hgeo : m.cfg.geo = .uniform)
    (hadj : ∀ i j, m.cl.adj i j = m.cl.adj j i)
    (cfg : OpConfig) (ops : List (OpKind M × ℝ)) (hops : getOperators true M cfg = .ok ops) (hpos : ∀ o ∈ ops, 0 < o.2)
    (sz nChains warmSteps : ℕ) (hsz : 1 ≤ sz) (hlo : m.cl.minSize ≤ sz) (hhi : sz ≤ m.cl.maxSize) (hchains : 0 < nChains)
    (garbage : Fin N × Fin F → Fin (M + 1)) (rnd : Fin nChains → ℕ → ℕ) (rnd' : ℕ → ℕ) (blank : Fin nChains → State K N F S M nG)
    (hrnd : ∀ c, (initialClusters (m := 0) m.cl.adj (rnd c) sz (fun k => k.elim0) : Option (Clus K N)).isSome)
    (s : ℕ) (hs0 : 0 < s) (z : Clus K N) (ε : ℝ) (hε : 0 < ε) :
    Tendsto (fun n : ℕ => (wholeRunPrior m (normalizeOperatorWeights ops) sz nChains warmSteps garbage rnd rnd' blank s n).prob
      {l | |(l.countP (fun x => decide (x.1.1 = z)) : ℝ) / (l.length : ℝ) -
        quadraticWeight m.cl.minSize m.cl.maxSize z / ∑ z' : Clus K N, quadraticWeight m.cl.minSize m.cl.maxSize z'| < ε}) atTop (𝓝 1) := by
  rw [← clusterPrior_quadratic hm hsize hgeo z]
  exact C91_cluster_frequencies hm hs hN hadj cfg ops hops hpos sz nChains warmSteps hsz hlo hhi hchains garbage rnd rnd' blank hrnd
    s hs0 z ε hε

/-- Two clusters of one or two of five objects, with the size prior `quadratic`. -/
noncomputable def quadraticSetup (b : Bool) : Setup 2 5 2 3 1 (fun _ => 2) :=
  { widerSetup with cfg := { widerSetup.cfg with size := .quadraticSize, sampleSource := b } }

theorem quadraticSetup_wellPosed (b : Bool) : WellPosed (quadraticSetup b) :=
  { widerSetup_wellPosed with geo := fun _ _ => rfl, nonempty := fun _ => Nat.one_pos }

theorem quadraticSetup_canMove (b : Bool) : CanMove (quadraticSetup b) := { widerSetup_canMove with }

theorem quadratic_count : ∑ z : Fin 2 → Fin 5 → Bool, (if (∀ n, ¬ (z 0 n = true ∧ z 1 n = true)) ∧ ∀ k, 1 ≤ size (z k) ∧ size (z k) ≤ 2 then
    (if size (z 0) = 1 then 4 else 1) * (if size (z 1) = 1 then 4 else 1) else 0) = 590 := by decide +kernel

theorem valid_one_two (z : Clus 2 5) : Valid 1 2 z ↔ (∀ n, ¬ (z 0 n = true ∧ z 1 n = true)) ∧ ∀ k, 1 ≤ size (z k) ∧ size (z k) ≤ 2 := by
  constructor
  · intro h
    exact ⟨fun n hn => absurd (h.disjoint 0 1 n hn.1 hn.2) (by decide), fun k => ⟨h.lower k, h.upper k⟩⟩
  · rintro ⟨h1, h2⟩
    refine ⟨fun i j n hi hj => ?_, fun k => (h2 k).1, fun k => (h2 k).2⟩
    match i, j, hi, hj with
    | 0, 0, _, _ => rfl
    | 1, 1, _, _ => rfl
    | 0, 1, a, b => exact absurd ⟨a, b⟩ (h1 n)
    | 1, 0, a, b => exact absurd ⟨b, a⟩ (h1 n)

theorem quadratic_nat (z : Clus 2 5) : quadraticWeight 1 2 z = ((if (∀ n, ¬ (z 0 n = true ∧ z 1 n = true)) ∧ ∀ k, 1 ≤ size (z k) ∧ size (z k) ≤ 2 then
    (if size (z 0) = 1 then 4 else 1) * (if size (z 1) = 1 then 4 else 1) else 0 : ℕ) : ℝ) / 16 := by
  classical
  unfold quadraticWeight
  by_cases h : Valid 1 2 z
  · rw [if_pos h, if_pos ((valid_one_two z).mp h), Fin.prod_univ_two]
    have h0 : size (z 0) = 1 ∨ size (z 0) = 2 := by have := h.lower 0; have := h.upper 0; omega
    have h1 : size (z 1) = 1 ∨ size (z 1) = 2 := by have := h.lower 1; have := h.upper 1; omega
    rcases h0 with h0 | h0 <;> rcases h1 with h1 | h1 <;> rw [h0, h1] <;> norm_num
  · rw [if_neg h, if_neg fun h' => h ((valid_one_two z).mpr h')]
    simp

theorem quadratic_total : ∑ z : Clus 2 5, quadraticWeight 1 2 z = 295 / 8 := by
  simp only [quadratic_nat]
  rw [← Finset.sum_div, ← Nat.cast_sum, show (∑ z : Clus 2 5, _ : ℕ) = 590 from quadratic_count]
  norm_num

/-- Cluster 0 consists of object 0, cluster 1 of object 1. -/
def singletons : Clus 2 5 := fun k n => decide (k.val = n.val)

theorem singletons_weight : quadraticWeight 1 2 singletons = 1 := by
  rw [quadratic_nat, if_pos (by decide), if_pos (by decide), if_pos (by decide)]
  norm_num

/-- The requirements are met by a run without sources: two given single objects are the clusters in 8 of 295 samples. -/
example : ∃ ops : List (OpKind 1 × ℝ),
    getOperators false 1 { clusters := 45, weights := 15, clusterEffect := 10, confoundingEffects := 10, source := 0 } = .ok ops ∧
    ∀ ε > 0, Tendsto (fun n : ℕ => (wholeRunPrior0 (quadraticSetup false) (normalizeOperatorWeights ops) 1 3 10 (fun _ _ => 0) (fun _ => 0)
      (fun _ => widerState) 5 n).prob {l | |(l.countP (fun x => decide (x.1 = singletons)) : ℝ) / (l.length : ℝ) - 8 / 295| < ε})
        atTop (𝓝 1) := by
  refine ⟨_, rfl, fun ε hε => ?_⟩
  have h := C118_quadratic_frequencies_without_sources (quadraticSetup_wellPosed false) rfl (quadraticSetup_canMove false) rfl rfl (fun _ _ => rfl)
    { clusters := 45, weights := 15, clusterEffect := 10, confoundingEffects := 10, source := 0 } _ rfl (by
      intro o ho
      simp [List.finRange] at ho
      rcases ho with rfl | rfl | rfl | rfl <;> norm_num) 1 3 10 le_rfl le_rfl
    (by norm_num [quadraticSetup, widerSetup]) (by norm_num) (fun _ _ => 0) (fun _ => 0) (fun _ => widerState) (fun _ => widerSetup_initial _) 5 (by norm_num)
    singletons ε hε
  rw [show quadraticWeight (quadraticSetup false).cl.minSize (quadraticSetup false).cl.maxSize singletons = 1 from singletons_weight,
    show ∑ z : Clus 2 5, quadraticWeight (quadraticSetup false).cl.minSize (quadraticSetup false).cl.maxSize z = 295 / 8 from quadratic_total,
    show (1 : ℝ) / (295 / 8) = 8 / 295 by norm_num] at h
  exact h

/-- The same with sources. -/
example : ∃ ops : List (OpKind 1 × ℝ),
    getOperators true 1 { clusters := 45, weights := 15, clusterEffect := 10, confoundingEffects := 10, source := 10 } = .ok ops ∧
    ∀ ε > 0, Tendsto (fun n : ℕ => (wholeRunPrior (quadraticSetup true) (normalizeOperatorWeights ops) 1 3 10 (fun _ => 0) (fun _ _ => 0) (fun _ => 0)
      (fun _ => ((widerState.1, fun _ => 0), widerState.2)) 5 n).prob
        {l | |(l.countP (fun x => decide (x.1.1 = singletons)) : ℝ) / (l.length : ℝ) - 8 / 295| < ε}) atTop (𝓝 1) := by
  refine ⟨_, rfl, fun ε hε => ?_⟩
  have h := C118_quadratic_frequencies (quadraticSetup_wellPosed true) rfl (by norm_num [quadraticSetup, widerSetup]) rfl rfl (fun _ _ => rfl)
    { clusters := 45, weights := 15, clusterEffect := 10, confoundingEffects := 10, source := 10 } _ rfl (by
      intro o ho
      simp [List.finRange] at ho
      rcases ho with rfl | rfl | rfl | rfl | rfl | rfl <;> norm_num) 1 3 10 le_rfl le_rfl
    (by norm_num [quadraticSetup, widerSetup]) (by norm_num) (fun _ => 0) (fun _ _ => 0) (fun _ => 0) (fun _ => ((widerState.1, fun _ => 0), widerState.2))
    (fun _ => widerSetup_initial _) 5 (by norm_num) singletons ε hε
  rw [show quadraticWeight (quadraticSetup true).cl.minSize (quadraticSetup true).cl.maxSize singletons = 1 from singletons_weight,
    show ∑ z : Clus 2 5, quadraticWeight (quadraticSetup true).cl.minSize (quadraticSetup true).cl.maxSize z = 295 / 8 from quadratic_total,
    show (1 : ℝ) / (295 / 8) = 8 / 295 by norm_num] at h
  exact h

end SBayes.Kernel
