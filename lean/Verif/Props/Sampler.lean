import Verif.Lemmas.SamplerProper
import Verif.Props.MCMC
/- C80, C81: the sampler as a whole. -/
namespace SBayes.Kernel
open SBayes.Lik SBayes.Clusters SBayes.MH SBayes.Effects SBayes.Posterior SBayes.Draws SBayes.Meas SBayes.MCMC SBayes.Prior MeasureTheory
open scoped BigOperators ENNReal

variable {K N F S M : ℕ} {nG : Fin M → ℕ} {m : Setup K N F S M nG}

theorem leaves_of_keeps {X : Type} [MeasurableSpace X] {π : Measure X} {T : X → Law X} (h : Keeps π T) : LeavesInvariant π T :=
  fun _ hB => ⟨(h _ (measurable_one.indicator hB)).1, Keeps.prob h hB⟩

theorem weights_dist {ops : List (OpKind M × ℝ)} (hnn : ∀ o ∈ ops, 0 ≤ o.2) (hpos : 0 < (ops.map Prod.snd).sum) :
    IsDist (normalizeOperatorWeights ops) := by
  obtain ⟨h1, h2, -⟩ := C32_normalized_weights ops hnn hpos
  exact ⟨h1, h2⟩

theorem mem_normalized {ops : List (OpKind M × ℝ)} {o : OpKind M × ℝ} (h : o ∈ normalizeOperatorWeights ops) :
    ∃ o' ∈ ops, o'.1 = o.1 := by
  unfold normalizeOperatorWeights at h
  obtain ⟨o', ho', rfl⟩ := List.mem_map.mp h
  exact ⟨o', ho', rfl⟩

/-- **C80.** Sampling with sources: with the operators of `get_operators` (in the configured proportions) and all their
draws, a chain whose state is distributed as the posterior is distributed as the posterior after any number of
iterations. -/
theorem C80_sampler_leaves_posterior_invariant (hm : WellPosed m) (hs : m.cfg.sampleSource = true) (cfg : OpConfig)
    (ops : List (OpKind M × ℝ)) (hops : getOperators true M cfg = .ok ops) (hnn : ∀ o ∈ ops, 0 ≤ o.2)
    (hpos : 0 < (ops.map Prod.snd).sum) (n : ℕ) :
    LeavesInvariant (target m Prod.fst (post m)) (run (chainStep (post m) (propose m) (normalizeOperatorWeights ops)) n) := by
  refine leaves_of_keeps (Keeps.run ?_ n)
  have key := Keeps.mix (normalizeOperatorWeights ops) (ofRand_one (weights_dist hnn hpos))
    (fun op x => mhStep (post m) (propose m op) x) (π := target m Prod.fst (post m)) ?_
  · exact key
  · intro o ho
    rcases o with ⟨op, p⟩
    cases op with
    | cluster v => exact keeps_gibbsish hm hs v
    | weights => exact keeps_weights hm hs
    | clusterEffect => exact keeps_clusterEffect hm hs
    | source => exact keeps_source hm hs
    | confounding c => exact keeps_confounding hm hs c

/-- **C80.** Sampling without sources. Here every feature needs two applicable states, because the operators move
probability from one state to another. -/
theorem C80_sampler_without_sources_leaves_posterior_invariant (hm : WellPosed m) (hs : m.cfg.sampleSource = false) (hF : 0 < F)
    (h2 : ∀ f, ∃ s s', s ≠ s' ∧ m.cfg.app f s = true ∧ m.cfg.app f s' = true) (cfg : OpConfig)
    (ops : List (OpKind M × ℝ)) (hops : getOperators false M cfg = .ok ops) (hnn : ∀ o ∈ ops, 0 ≤ o.2)
    (hpos : 0 < (ops.map Prod.snd).sum) (n : ℕ) :
    LeavesInvariant (target m id (post0 m)) (run (chainStep (post0 m) (propose0 m) (normalizeOperatorWeights ops)) n) := by
  refine leaves_of_keeps (Keeps.run ?_ n)
  have key := Keeps.mix (normalizeOperatorWeights ops) (ofRand_one (weights_dist hnn hpos))
    (fun op x => mhStep (post0 m) (propose0 m op) x) (π := target m id (post0 m)) ?_
  · exact key
  · intro o ho
    obtain ⟨o', ho', he⟩ := mem_normalized ho
    have hsrc : o.1 ≠ .source := by
      rw [← he]
      unfold getOperators at hops
      split at hops
      · exact absurd hops (by simp)
      · simp only [Bool.false_eq_true, if_false, Except.ok.injEq] at hops
        subst hops
        intro h
        simp only [List.cons_append, List.nil_append, List.mem_cons, List.mem_map] at ho'
        rcases ho' with rfl | rfl | rfl | ⟨c, -, rfl⟩ <;> cases h
    rcases o with ⟨op, p⟩
    cases op with
    | cluster v => exact keeps_alterCluster hm hs v
    | weights => exact keeps_alterWeights hm hs hF
    | clusterEffect => exact keeps_alterClusterEffect hm hs hF h2
    | source => exact absurd rfl hsrc
    | confounding c => exact keeps_alterConfounding hm hs hF h2 c

theorem componentLh_spec (hm : WellPosed m) {z : Clus K N} (hz : DisjointGroups z) (c : Cont K F S M nG) :
    ComponentLhs m z c fun i n f => componentLh m.d c.2.1 c.2.2 z n f i := by
  refine ⟨?_, fun i => ?_⟩
  · exact C09_component_likelihood_is_specified m.d.features c.2.1 z hz (List.finRange K) (fun g => List.mem_finRange g) _
  · exact C09_component_likelihood_is_specified m.d.features (c.2.2 i) (m.d.confGroups i) (hm.disjoint i) (List.finRange (nG i))
      (fun g => List.mem_finRange g) _

theorem effectiveWeight_eq (w : Fin F → Fin (M + 1) → ℝ) (has : Fin N → Fin (M + 1) → Bool) (n : Fin N) (f : Fin F)
    (i : Fin (M + 1)) : normalizeWeights w has n f i = effectiveWeight w has n f i := by
  unfold normalizeWeights effectiveWeight b2n
  have : ∀ j, w f j * (if has n j then (1 : ℝ) else 0) = if has n j then w f j else 0 := fun j => by split <;> simp
  simp only [this]
  split <;> simp

/-- **C80.** The density of the posterior with sources: prior of the clusters, prior of the confounding effects, probability
of the sources given the weights, probability of the observations given their sources. -/
theorem C80_density_with_sources (hm : WellPosed m) (hs : m.cfg.sampleSource = true) (z : Clus K N)
    (hz : Valid m.cl.minSize m.cl.maxSize z) (s : Fin N × Fin F → Fin (M + 1)) (c : Cont K F S M nG) :
    ∃ lh geo, ComponentLhs m z c lh ∧ geoTerm m.cfg.geo z = some geo ∧
      post m ((z, s), c) = Real.exp (sizePrior m.cfg.size z) * Real.exp geo *
        (∏ i, ∏ g, confEffectPrior m.cfg.app (m.cfg.conf i g) (c.2.2 i g)) *
        ∏ n, ∏ f, effectiveWeight c.1 (hasComponents m.d z) n f (s (n, f)) * lh (s (n, f)) n f := by
  obtain ⟨geo, hgeo⟩ := Option.isSome_iff_exists.mp (hm.geo z hz)
  refine ⟨_, geo, componentLh_spec hm hz.disjoint c, hgeo, ?_⟩
  rw [post_eq hm hs hz]
  simp only [effectiveWeight_eq, Finset.prod_mul_distrib, clusterTerm, hgeo, Option.getD_some]
  ring

/-- **C80.** The density of the posterior without sources: every observation is a mixture of the components. -/
theorem C80_density_without_sources (hm : WellPosed m) (hs : m.cfg.sampleSource = false) (z : Clus K N)
    (hz : Valid m.cl.minSize m.cl.maxSize z) (c : Cont K F S M nG) :
    ∃ lh geo, ComponentLhs m z c lh ∧ geoTerm m.cfg.geo z = some geo ∧
      post0 m (z, c) = Real.exp (sizePrior m.cfg.size z) * Real.exp geo *
        (∏ i, ∏ g, confEffectPrior m.cfg.app (m.cfg.conf i g) (c.2.2 i g)) *
        ∏ n, ∏ f, ∑ i, effectiveWeight c.1 (hasComponents m.d z) n f i * lh i n f := by
  obtain ⟨geo, hgeo⟩ := Option.isSome_iff_exists.mp (hm.geo z hz)
  refine ⟨_, geo, componentLh_spec hm hz.disjoint c, hgeo, ?_⟩
  rw [post0_eq hm hs hz]
  simp only [effectiveWeight_eq, clusterTerm, hgeo, Option.getD_some]
  ring

/-- **C81.** The posterior is a proper distribution: its total mass is finite, and not zero if there is any valid
assignment to clusters. -/
theorem C81_posterior_is_proper (hm : WellPosed m) (hv : ∃ z : Clus K N, Valid m.cl.minSize m.cl.maxSize z) :
    (m.cfg.sampleSource = true → target m Prod.fst (post m) Set.univ ≠ 0 ∧ target m Prod.fst (post m) Set.univ ≠ ⊤) ∧
    (m.cfg.sampleSource = false → target m id (post0 m) Set.univ ≠ 0 ∧ target m id (post0 m) Set.univ ≠ ⊤) := by
  obtain ⟨z, hz⟩ := hv
  constructor
  · intro hs
    obtain ⟨s, hpos⟩ := exists_source hm hs hz
    exact ⟨(target_pos hm (meas_post m) (clusters := Prod.fst) (d := (z, s)) hz hpos).ne',
      (target_finite hm (meas_post m) fun d hd c hc => post_le hm hs hd hc).ne⟩
  · intro hs
    exact ⟨(target_pos hm (meas_post0 m) (clusters := id) (d := z) hz fun c hc => post0_pos hm hs hz hc).ne',
      (target_finite hm (meas_post0 m) (clusters := id) fun d hd c hc => post0_le hm hs hd hc).ne⟩

/-- **C81.** Hence the posterior can be normalised to a probability distribution, and the sampler leaves that invariant. -/
theorem C81_normalized_posterior_is_invariant (hm : WellPosed m) (hs : m.cfg.sampleSource = true)
    (hv : ∃ z : Clus K N, Valid m.cl.minSize m.cl.maxSize z) (cfg : OpConfig)
    (ops : List (OpKind M × ℝ)) (hops : getOperators true M cfg = .ok ops) (hnn : ∀ o ∈ ops, 0 ≤ o.2)
    (hpos : 0 < (ops.map Prod.snd).sum) :
    ∃ P : Measure (Disc K N F M × Cont K F S M nG), IsProbabilityMeasure P ∧ (∃ c : ℝ≥0∞, c ≠ 0 ∧ c ≠ ⊤ ∧ P = c • target m Prod.fst (post m)) ∧
      ∀ n, LeavesInvariant P (run (chainStep (post m) (propose m) (normalizeOperatorWeights ops)) n) := by
  obtain ⟨h0, h1⟩ := (C81_posterior_is_proper hm hv).1 hs
  refine ⟨(target m Prod.fst (post m) Set.univ)⁻¹ • target m Prod.fst (post m), ⟨?_⟩,
    ⟨_, ENNReal.inv_ne_zero.mpr h1, ENNReal.inv_ne_top.mpr h0, rfl⟩, fun n B hB => ?_⟩
  · rw [Measure.smul_apply, smul_eq_mul, ENNReal.inv_mul_cancel h0 h1]
  · obtain ⟨a, b⟩ := C80_sampler_leaves_posterior_invariant hm hs cfg ops hops hnn hpos n B hB
    refine ⟨a, ?_⟩
    rw [lintegral_smul_measure, b, Measure.smul_apply]

/-- **C81.** The same without sources. -/
theorem C81_normalized_posterior_is_invariant_without_sources (hm : WellPosed m) (hs : m.cfg.sampleSource = false) (hF : 0 < F)
    (h2 : ∀ f, ∃ s s', s ≠ s' ∧ m.cfg.app f s = true ∧ m.cfg.app f s' = true)
    (hv : ∃ z : Clus K N, Valid m.cl.minSize m.cl.maxSize z) (cfg : OpConfig)
    (ops : List (OpKind M × ℝ)) (hops : getOperators false M cfg = .ok ops) (hnn : ∀ o ∈ ops, 0 ≤ o.2)
    (hpos : 0 < (ops.map Prod.snd).sum) :
    ∃ P : Measure (Clus K N × Cont K F S M nG), IsProbabilityMeasure P ∧ (∃ c : ℝ≥0∞, c ≠ 0 ∧ c ≠ ⊤ ∧ P = c • target m id (post0 m)) ∧
      ∀ n, LeavesInvariant P (run (chainStep (post0 m) (propose0 m) (normalizeOperatorWeights ops)) n) := by
  obtain ⟨h0, h1⟩ := (C81_posterior_is_proper hm hv).2 hs
  refine ⟨(target m id (post0 m) Set.univ)⁻¹ • target m id (post0 m), ⟨?_⟩,
    ⟨_, ENNReal.inv_ne_zero.mpr h1, ENNReal.inv_ne_top.mpr h0, rfl⟩, fun n B hB => ?_⟩
  · rw [Measure.smul_apply, smul_eq_mul, ENNReal.inv_mul_cancel h0 h1]
  · obtain ⟨a, b⟩ := C80_sampler_without_sources_leaves_posterior_invariant hm hs hF h2 cfg ops hops hnn hpos n B hB
    refine ⟨a, ?_⟩
    rw [lintegral_smul_measure, b, Measure.smul_apply]

/-- A run that meets the requirements: two objects, one of them in the cluster, a Dirichlet prior. -/
noncomputable def exampleSetup (sampleSource : Bool) : Setup 1 2 1 2 1 (fun _ => 1) where
  d := { features := fun n _ s => n == s, confGroups := fun _ _ _ => true }
  cfg := { size := .quadraticSize, geo := .uniform, conf := fun _ _ => some fun _ _ => 2, sampleSource := sampleSource,
           app := fun _ _ => true }
  cl := { minSize := 1, maxSize := 1, adj := fun _ _ => true, pConn := 1 / 2 }
  clOrder := [0]
  confOrder := fun _ => [0]
  empty := fun _ _ _ => 0

theorem exampleSetup_wellPosed (b : Bool) : WellPosed (exampleSetup b) where
  observed n f := Or.inr ⟨n, fun s => beq_iff_eq.trans eq_comm, rfl⟩
  disjoint c i j n _ _ := Subsingleton.elim i j
  covered n := ⟨0, 0, rfl⟩
  hasState f := ⟨0, rfl⟩
  hasCluster := Nat.one_pos
  hasConfounder := Nat.one_pos
  hasGroup c := Nat.one_pos
  clOrder := fun g => by rw [Subsingleton.elim g 0]; exact List.mem_cons_self
  confOrder c := fun g => by rw [Subsingleton.elim g 0]; exact List.mem_cons_self
  geo z _ := rfl
  conc c g a h f s _ := by
    have : (some fun _ _ => (2 : ℝ)) = some a := h
    rw [← Option.some.inj this]
    norm_num
  nonempty _ := Nat.one_pos
  pConn := by constructor <;> norm_num [exampleSetup]

example : (∃ z : Clus 1 2, Valid (exampleSetup true).cl.minSize (exampleSetup true).cl.maxSize z) ∧
    (∀ f, ∃ s s', s ≠ s' ∧ (exampleSetup true).cfg.app f s = true ∧ (exampleSetup true).cfg.app f s' = true) := by
  refine ⟨⟨fun _ n => n == 0, ⟨fun i j n _ _ => Subsingleton.elim i j, fun k => ?_, fun k => ?_⟩⟩, fun f => ⟨0, 1, by decide, rfl, rfl⟩⟩
  · decide
  · decide

end SBayes.Kernel
