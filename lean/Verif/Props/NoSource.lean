import Verif.Lemmas.ErgoAlter
import Verif.Lemmas.LawLLN
import Verif.Lemmas.ChainKernel
/- C89: sampling without sources converges to the posterior. -/
namespace SBayes.Kernel
open SBayes.Lik SBayes.Clusters SBayes.MH SBayes.Effects SBayes.Posterior SBayes.Draws SBayes.Meas SBayes.MCMC SBayes.Prior MeasureTheory
open Filter Topology
open scoped BigOperators ENNReal

variable {K N F S M : ℕ} {nG : Fin M → ℕ} {m : Setup K N F S M nG}

theorem getOperators_noSource {cfg : OpConfig} {ops : List (OpKind M × ℝ)} (h : getOperators false M cfg = .ok ops) :
    ops ≠ [] ∧ (∀ o ∈ ops, NoSource o.1) ∧ (∃ o ∈ ops, o.1 = .cluster false) ∧ (∃ o ∈ ops, o.1 = .weights) ∧
      (∃ o ∈ ops, o.1 = .clusterEffect) ∧ ∀ c, ∃ o ∈ ops, o.1 = .confounding c := by
  unfold getOperators at h
  split at h
  · cases h
  · simp only [Bool.false_eq_true, if_false, Except.ok.injEq] at h
    subst h
    refine ⟨by simp, ?_, by simp, by simp, by simp, by simp⟩
    intro o ho
    rcases List.mem_append.mp ho with ho | ho
    · simp only [List.mem_cons, List.not_mem_nil, or_false] at ho
      rcases ho with rfl | rfl | rfl <;> exact trivial
    · obtain ⟨c, -, rfl⟩ := List.mem_map.mp ho
      exact trivial

section Chain
variable {ops : List (OpKind M × ℝ)}

theorem keeps_chain0 (hm : WellPosed m) (hs : m.cfg.sampleSource = false) (hF : 0 < F)
    (h2 : ∀ f, ∃ s s', s ≠ s' ∧ m.cfg.app f s = true ∧ m.cfg.app f s' = true) (hd : IsDist ops) (hn : ∀ o ∈ ops, NoSource o.1) :
    Keeps (target m id (post0 m)) (chainStep (post0 m) (propose0 m) ops) :=
  Keeps.mix ops (ofRand_one hd) (fun op x => mhStep (post0 m) (propose0 m op) x) fun o ho => keeps_op0 hm hs hF h2 (hn o ho)

theorem super_chain0 (ops : List (OpKind M × ℝ)) (x : Clus K N × Cont K F S M nG) :
    Super (chainStep (post0 m) (propose0 m) ops x) := (Super.ofRand _).bind fun op => (super_propose0 m op x).mhStep

theorem chain0_facts (hm : WellPosed m) (hs : m.cfg.sampleSource = false) (hF : 0 < F)
    (h2 : ∀ f, ∃ s s', s ≠ s' ∧ m.cfg.app f s = true ∧ m.cfg.app f s' = true) (hd : IsDist ops) (hn : ∀ o ∈ ops, NoSource o.1)
    {z : Clus K N} (hz : Valid m.cl.minSize m.cl.maxSize z) {c : Cont K F S M nG} (hc : Interior m.cfg.app c) :
    chainStep (post0 m) (propose0 m) ops (z, c) 1 = 1 ∧ IsMeas (chainStep (post0 m) (propose0 m) ops (z, c)) :=
  ⟨mix_mass hd (T := fun op => mhStep (post0 m) (propose0 m op) (z, c)) fun o ho => (op0_facts hm hs hF h2 (hn o ho) hz hc).1,
    isMeas_mix ops (fun op => mhStep (post0 m) (propose0 m op) (z, c)) fun o ho => (op0_facts hm hs hF h2 (hn o ho) hz hc).2⟩

theorem chain0_mass (hm : WellPosed m) (hs : m.cfg.sampleSource = false) (hF : 0 < F)
    (h2 : ∀ f, ∃ s s', s ≠ s' ∧ m.cfg.app f s = true ∧ m.cfg.app f s' = true) (hd : IsDist ops) (hn : ∀ o ∈ ops, NoSource o.1) :
    ∀ᵐ x ∂target m id (post0 m), chainStep (post0 m) (propose0 m) ops x 1 = 1 := by
  rw [ae_target0 hm hs]
  intro z hz
  filter_upwards [interior_ae hm.hasState] with c hc using (chain0_facts hm hs hF h2 hd hn hz hc).1

theorem chain0_kernel (hm : WellPosed m) (hs : m.cfg.sampleSource = false) (hF : 0 < F)
    (h2 : ∀ f, ∃ s s', s ≠ s' ∧ m.cfg.app f s = true ∧ m.cfg.app f s' = true) (hd : IsDist ops) (hn : ∀ o ∈ ops, NoSource o.1) :
    ∃ κ : ProbabilityTheory.Kernel (Clus K N × Cont K F S M nG) (Clus K N × Cont K F S M nG),
      ProbabilityTheory.IsMarkovKernel κ ∧ Represents (target m id (post0 m)) (chainStep (post0 m) (propose0 m) ops) κ := by
  refine exists_kernel (keeps_chain0 hm hs hF h2 hd hn) (chain0_mass hm hs hF h2 hd hn) ?_
  rw [ae_target0 hm hs]
  intro z hz
  filter_upwards [interior_ae hm.hasState] with c hc using (chain0_facts hm hs hF h2 hd hn hz hc).2

/-- A step of the chain that surely ends in a set started in it. -/
theorem chain0_recalls (hm : WellPosed m) (hs : m.cfg.sampleSource = false) (hF : 0 < F) {p : ℝ} (hmem : (OpKind.weights, p) ∈ ops) (hp : 0 < p)
    {Z : Set (Clus K N × Cont K F S M nG)} (hZ : MeasurableSet Z) :
    ∀ᵐ x ∂target m id (post0 m), chainStep (post0 m) (propose0 m) ops x (Zᶜ.indicator 1) = 0 → x ∈ Z := by
  have h01 : (0 : Fin (M + 1)) ≠ ⟨1, by have := hm.hasConfounder; omega⟩ := by simp [Fin.ext_iff]
  obtain ⟨q, hq, h1⟩ := mem_uniform_fin (⟨0, hF⟩ : Fin F)
  obtain ⟨r, hr, h2⟩ := mem_samplePair (List.mem_finRange (0 : Fin (M + 1))) (List.mem_finRange _) h01
  filter_upwards [pairMove_recalls hm hs (L := wLens ⟨0, hF⟩) (prec := 30) (by norm_num) (pairOk_w (m := m) ⟨0, hF⟩ h01) hZ] with x hx h0
  have key : ∀ {α : Type} {l : Rand α} {T : α → Law (Clus K N × Cont K F S M nG)} {a : α} {p : ℝ}, (a, p) ∈ l → 0 < p →
      ∀ g, Law.bind (Law.ofRand l) T g = 0 → T a g = 0 := by
    intro α l T a p ha hp g h
    have := (mem_le_ofRand ha fun a => T a g).trans_eq h
    rcases mul_eq_zero.mp (le_antisymm this bot_le) with h1 | h1
    · exact absurd (ENNReal.ofReal_eq_zero.mp h1) (not_le.mpr hp)
    · exact h1
  have e1 := key hmem hp _ h0
  rw [mhStep_alterWeights] at e1
  exact hx (key h2 hr _ (key h1 hq _ e1))

end Chain

theorem target0_finite (hm : WellPosed m) (hs : m.cfg.sampleSource = false) : IsFiniteMeasure (target m id (post0 m)) :=
  ⟨target_finite hm (meas_post0 m) fun _ hd _ hc => post0_le hm hs hd hc⟩

theorem chain0_triv (hm : WellPosed m) (hs : m.cfg.sampleSource = false) (hf : CanMove m) {cfg : OpConfig} {ops : List (OpKind M × ℝ)}
    (hops : getOperators false M cfg = .ok ops) (hpos : ∀ o ∈ ops, 0 < o.2) {A : Set (Clus K N × Cont K F S M nG)} (hA : MeasurableSet A)
    (hsp : Splits (target m id (post0 m)) (chainStep (post0 m) (propose0 m) (normalizeOperatorWeights ops)) A) :
    (∀ᵐ x ∂target m id (post0 m), x ∈ A) ∨ ∀ᵐ x ∂target m id (post0 m), x ∉ A := by
  obtain ⟨hne, -, h1, h2, h3, h4⟩ := getOperators_noSource hops
  have ht := total_pos hpos hne
  have hop : ∀ op, (∃ o ∈ ops, o.1 = op) → Splits (target m id (post0 m)) (mhStep (post0 m) (propose0 m op)) A := by
    rintro op ⟨o, ho, rfl⟩
    exact Splits.of_mix (T := fun op x => mhStep (post0 m) (propose0 m op) x) (l := normalizeOperatorWeights ops) hsp
      (List.mem_map.mpr ⟨o, ho, rfl⟩) (div_pos (hpos o ho) ht)
  exact ops0_triv hm hs hf hA (hop _ h1) (hop _ h2) (hop _ h3) fun c => hop _ (h4 c)

theorem noSource_normalized {cfg : OpConfig} {ops : List (OpKind M × ℝ)} (hops : getOperators false M cfg = .ok ops) :
    ∀ o ∈ normalizeOperatorWeights ops, NoSource o.1 := by
  intro o ho
  obtain ⟨o', ho', rfl⟩ := List.mem_map.mp ho
  exact (getOperators_noSource hops).2.1 o' ho'

/-- **C89.** Sampling without sources: the posterior is the only distribution with a density that the sampler leaves invariant. All operators
must be in use, and they must be able to move. -/
theorem C89_posterior_is_the_only_equilibrium (hm : WellPosed m) (hs : m.cfg.sampleSource = false) (hf : CanMove m)
    (cfg : OpConfig) (ops : List (OpKind M × ℝ)) (hops : getOperators false M cfg = .ok ops) (hpos : ∀ o ∈ ops, 0 < o.2)
    (P : Measure (Clus K N × Cont K F S M nG)) (hP : IsProbabilityMeasure P) (hac : P ≪ target m id (post0 m))
    (hinv : LeavesInvariant P (chainStep (post0 m) (propose0 m) (normalizeOperatorWeights ops))) :
    P = (target m id (post0 m) Set.univ)⁻¹ • target m id (post0 m) := by
  have hd := weights_dist (fun o ho => (hpos o ho).le) (total_pos hpos (getOperators_noSource hops).1)
  have hn := noSource_normalized hops
  have hfin := target0_finite hm hs
  exact unique_invariant (keeps_chain0 hm hs hf.feature hf.twoStates hd hn) (fun x => (super_chain0 _ x).add)
    (chain0_mass hm hs hf.feature hf.twoStates hd hn) (fun A hA hsp => chain0_triv hm hs hf hops hpos hA hsp) hac fun B hB => (hinv B hB).2

/-- **C89.** Sampling without sources never fails: from almost every state with positive posterior, with probability one, the run is not
interrupted by an exception, and after any number of iterations the clusters satisfy the size limits, do not overlap, and the posterior can be
evaluated and is positive. -/
theorem C89_sampling_never_fails (hm : WellPosed m) (hs : m.cfg.sampleSource = false) (hF : 0 < F)
    (h2 : ∀ f, ∃ s s', s ≠ s' ∧ m.cfg.app f s = true ∧ m.cfg.app f s' = true)
    (cfg : OpConfig) (ops : List (OpKind M × ℝ)) (hops : getOperators false M cfg = .ok ops) (hnn : ∀ o ∈ ops, 0 ≤ o.2)
    (hpos : 0 < (ops.map Prod.snd).sum) :
    ∀ᵐ x ∂target m id (post0 m), ∀ n, (run (chainStep (post0 m) (propose0 m) (normalizeOperatorWeights ops)) n x).prob
      {y | Valid m.cl.minSize m.cl.maxSize y.1 ∧
        ∃ p, posterior m.d m.cfg m.clOrder m.confOrder m.empty (params0 y) = some p ∧ 0 < p} = 1 := by
  classical
  have hd := weights_dist hnn hpos
  have hn := noSource_normalized hops
  have hfin := target0_finite hm hs
  have hset : {y : Clus K N × Cont K F S M nG | Valid m.cl.minSize m.cl.maxSize y.1 ∧
        ∃ p, posterior m.d m.cfg m.clOrder m.confOrder m.empty (params0 y) = some p ∧ 0 < p} =
      {y | Valid m.cl.minSize m.cl.maxSize y.1 ∧ 0 < post0 m y} := by
    ext y
    rw [Set.mem_ofPred_eq, Set.mem_ofPred_eq]
    refine and_congr_right fun _ => ?_
    unfold post0
    cases posterior m.d m.cfg m.clOrder m.confOrder m.empty (params0 y) with
    | none => simp
    | some p => simp
  rw [hset]
  have hmeas : MeasurableSet {y : Clus K N × Cont K F S M nG | Valid m.cl.minSize m.cl.maxSize y.1 ∧ 0 < post0 m y} := by
    have hp : Measurable (post0 m) := measurable_from_prod_countable_right (meas_post0 m)
    have h1 : MeasurableSet {y : Clus K N × Cont K F S M nG | 0 < post0 m y} := measurableSet_lt measurable_const hp
    have h2 : MeasurableSet {y : Clus K N × Cont K F S M nG | Valid m.cl.minSize m.cl.maxSize y.1} :=
      measurable_fst (MeasurableSet.of_discrete (s := {d : Clus K N | Valid m.cl.minSize m.cl.maxSize d}))
    exact h2.inter h1
  rw [ae_all_iff]
  intro n
  refine keeps_sure_run (keeps_chain0 hm hs hF h2 hd hn) (fun x => super_chain0 _ x) (chain0_mass hm hs hF h2 hd hn)
    (measurable_one.indicator hmeas) ?_ n
  rw [ae_target0 hm hs]
  intro z hz
  filter_upwards [interior_ae hm.hasState] with c hc
  have : (z, c) ∈ {y : Clus K N × Cont K F S M nG | Valid m.cl.minSize m.cl.maxSize y.1 ∧ 0 < post0 m y} := ⟨hz, post0_pos hm hs hz hc⟩
  rw [Set.indicator_of_mem this]
  rfl

/-- **C89.** Sampling without sources, started from any distribution with a density with respect to the posterior: the longer the run, the
closer is the average of any bounded function over the logged samples to its posterior mean, with probability tending to one. -/
theorem C89_averages_converge (hm : WellPosed m) (hs : m.cfg.sampleSource = false) (hf : CanMove m)
    (cfg : OpConfig) (ops : List (OpKind M × ℝ)) (hops : getOperators false M cfg = .ok ops) (hpos : ∀ o ∈ ops, 0 < o.2)
    (P : Measure (Clus K N × Cont K F S M nG)) (hP : IsProbabilityMeasure P) (hac : P ≪ target m id (post0 m))
    (s : ℕ) (hs0 : 0 < s) (f : Clus K N × Cont K F S M nG → ℝ) (hfm : Measurable f) (B : ℝ) (hB : ∀ x, |f x| ≤ B)
    (ε : ℝ) (hε : 0 < ε) :
    Tendsto (fun q : ℕ => ∫⁻ x, (sampleLoop (chainStep (post0 m) (propose0 m) (normalizeOperatorWeights ops)) s (s * q + 1) 0 x).prob
      {l | |(l.map f).sum / (l.length : ℝ) -
        (∫ y, f y ∂target m id (post0 m)) / (target m id (post0 m) Set.univ).toReal| < ε} ∂P) atTop (𝓝 1) := by
  obtain ⟨hne, -, -, ⟨o, ho, hw⟩, -, -⟩ := getOperators_noSource hops
  have ht := total_pos hpos hne
  have hd := weights_dist (fun o ho => (hpos o ho).le) ht
  have hn := noSource_normalized hops
  have hfin := target0_finite hm hs
  have hk := keeps_chain0 hm hs hf.feature hf.twoStates hd hn
  obtain ⟨κ, hκ, hR⟩ := chain0_kernel hm hs hf.feature hf.twoStates hd hn
  refine lln_law hk (super_chain0 _) hR hs0 (fun A hA hsp => ?_) hac ⟨hfm, hB⟩ hε
  refine chain0_triv hm hs hf hops hpos hA (splits_of_run_recalls hR hk (fun Z hZ => ?_) hs0 hA hsp)
  refine chain0_recalls hm hs hf.feature (p := o.2 / (ops.map Prod.snd).sum) (List.mem_map.mpr ⟨o, ho, ?_⟩) (div_pos (hpos o ho) ht) hZ
  rw [hw]

/-- **C89.** In particular, the fraction of the logged samples with any given feature (such as: an object is in a cluster) converges to its
posterior probability. -/
theorem C89_frequencies_converge (hm : WellPosed m) (hs : m.cfg.sampleSource = false) (hf : CanMove m)
    (cfg : OpConfig) (ops : List (OpKind M × ℝ)) (hops : getOperators false M cfg = .ok ops) (hpos : ∀ o ∈ ops, 0 < o.2)
    (P : Measure (Clus K N × Cont K F S M nG)) (hP : IsProbabilityMeasure P) (hac : P ≪ target m id (post0 m))
    (s : ℕ) (hs0 : 0 < s) (Q : Clus K N × Cont K F S M nG → Bool) (hQ : MeasurableSet {x | Q x = true}) (ε : ℝ) (hε : 0 < ε) :
    Tendsto (fun q : ℕ => ∫⁻ x, (sampleLoop (chainStep (post0 m) (propose0 m) (normalizeOperatorWeights ops)) s (s * q + 1) 0 x).prob
      {l | |(l.countP Q : ℝ) / (l.length : ℝ) -
        (target m id (post0 m) {x | Q x = true}).toReal / (target m id (post0 m) Set.univ).toReal| < ε} ∂P) atTop (𝓝 1) := by
  have hmeas : Measurable fun x => if Q x = true then (1 : ℝ) else 0 := Measurable.ite hQ measurable_const measurable_const
  have h := C89_averages_converge hm hs hf cfg ops hops hpos P hP hac s hs0 (fun x => if Q x = true then 1 else 0) hmeas 1
    (fun x => by split <;> simp) ε hε
  have e1 : ∀ l : List (Clus K N × Cont K F S M nG), (l.map fun x => if Q x = true then (1 : ℝ) else 0).sum = (l.countP Q : ℝ) := by
    intro l
    induction l with
    | nil => simp
    | cons x l ih =>
      rw [List.map_cons, List.sum_cons, ih, List.countP_cons]
      split <;> simp [add_comm]
  have e2 : ∫ y, (if Q y = true then (1 : ℝ) else 0) ∂target m id (post0 m) = (target m id (post0 m) {x | Q x = true}).toReal := by
    have : (fun y => if Q y = true then (1 : ℝ) else 0) = Set.indicator {x | Q x = true} (1 : Clus K N × Cont K F S M nG → ℝ) := by
      funext y
      by_cases hy : Q y = true <;> simp [hy]
    rw [this, integral_indicator_one hQ]
    rfl
  simp only [e1, e2] at h
  exact h

/-! ### Why clusters must be able to grow -/

theorem ofRand_null {α : Type} {d : Rand α} {g : α → ℝ≥0∞} (h : ∀ p ∈ d, g p.1 = 0) : Law.ofRand d g = 0 := by
  unfold Law.ofRand
  refine List.sum_eq_zero fun x hx => ?_
  obtain ⟨p, hp, rfl⟩ := List.mem_map.mp hx
  rw [h p hp, mul_zero]

/-- All outcomes have a property. -/
def Only {α : Type} (P : α → Prop) (d : Law α) : Prop := ∀ g, (∀ a, P a → g a = 0) → d g = 0

theorem Only.ret {α : Type} {P : α → Prop} {a : α} (h : P a) : Only P (Law.ret a) := fun _ hg => hg a h

theorem Only.bind {α β : Type} {P : β → Prop} {d : Law α} {f : α → Law β} (hd : d (fun _ => 0) = 0) (h : ∀ a, Only P (f a)) :
    Only P (Law.bind d f) := by
  intro g hg
  show d (fun a => f a g) = 0
  rw [← hd]
  exact congrArg d (funext fun a => h a g hg)

theorem ofRand_zero_fn {α : Type} (d : Rand α) : Law.ofRand d (fun _ => 0) = 0 := ofRand_null fun _ _ => rfl

theorem drawShare_zero {n : ℕ} (prec : ℝ) (v : Fin n → ℝ) (i j : Fin n) : drawShare prec v i j (fun _ => 0) = 0 := by
  unfold drawShare Law.draw
  exact lintegral_zero

theorem Only.rand {α β : Type} {P : β → Prop} (d : Rand α) {f : α → Law β} (h : ∀ a, Only P (f a)) : Only P (Law.bind (Law.ofRand d) f) :=
  Only.bind (ofRand_zero_fn d) h

theorem Only.share {β : Type} {P : β → Prop} {n : ℕ} (prec : ℝ) (v : Fin n → ℝ) (i j : Fin n) {f : (Fin 2 → ℝ) → Law β}
    (h : ∀ a, Only P (f a)) : Only P (Law.bind (drawShare prec v i j) f) := Only.bind (drawShare_zero prec v i j) h

/-- With a fixed cluster size, other clusters are never proposed. -/
theorem propose0_stays (hfix : m.cl.minSize = m.cl.maxSize) {z : Clus K N} (hz : Valid m.cl.minSize m.cl.maxSize z) (op : OpKind M)
    (c : Cont K F S M nG) : Only (fun r => r.new.1 = z) (propose0 m op (z, c)) := by
  cases op with
  | cluster b =>
    intro g hg
    show Law.ofRand (alterCluster m.cl z) (fun r => g (withCont c r)) = 0
    refine ofRand_null fun p hp => hg _ ?_
    obtain ⟨r, w⟩ := p
    rcases alterCluster_cases hp with rfl | ⟨k, o, -, hk, rfl⟩ | ⟨k, o, -, hk, rfl⟩
    · rfl
    · have := hz.lower k; omega
    · have := hz.upper k; omega
  | source => exact fun _ _ => rfl
  | weights =>
    unfold propose0
    refine Only.rand _ fun f => ?_
    refine Only.rand _ fun ij => ?_
    refine Only.share _ _ _ _ fun t => ?_
    exact Only.ret rfl
  | clusterEffect =>
    unfold propose0
    refine Only.rand _ fun k => ?_
    refine Only.rand _ fun f => ?_
    refine Only.rand _ fun ij => ?_
    refine Only.share _ _ _ _ fun t => ?_
    exact Only.ret rfl
  | confounding a =>
    unfold propose0
    refine Only.rand _ fun k => ?_
    refine Only.rand _ fun f => ?_
    refine Only.rand _ fun ij => ?_
    refine Only.share _ _ _ _ fun t => ?_
    exact Only.ret rfl

/-- With a fixed cluster size, a step never leads to other clusters. -/
theorem step0_stays (hfix : m.cl.minSize = m.cl.maxSize) {z : Clus K N} (hz : Valid m.cl.minSize m.cl.maxSize z) (op : OpKind M)
    (c : Cont K F S M nG) {g : Clus K N × Cont K F S M nG → ℝ≥0∞} (hg : ∀ c, g (z, c) = 0) :
    mhStep (post0 m) (propose0 m op) (z, c) g = 0 := by
  refine propose0_stays hfix hz op c _ fun r hr => ?_
  refine ofRand_null fun p hp => ?_
  simp only [List.mem_cons, List.not_mem_nil, or_false] at hp
  rcases hp with rfl | rfl
  · have : r.new = (z, r.new.2) := Prod.ext hr rfl
    rw [this]; exact hg _
  · exact hg _

/-- **C89**, limit: if the minimal and the maximal cluster size are the same, sampling without sources never changes the clusters, however long
it runs, so frequencies cannot converge to posterior probabilities. -/
theorem C89_fixed_size_false (hfix : m.cl.minSize = m.cl.maxSize) (ops : List (OpKind M × ℝ)) (z : Clus K N)
    (hz : Valid m.cl.minSize m.cl.maxSize z) (c : Cont K F S M nG) (n : ℕ) :
    (run (chainStep (post0 m) (propose0 m) ops) n (z, c)).prob {y | y.1 ≠ z} = 0 := by
  unfold Law.prob
  have : ∀ n c, run (chainStep (post0 m) (propose0 m) ops) n (z, c) ({y | y.1 ≠ z}.indicator 1) = 0 := by
    intro n
    induction n with
    | zero => intro c; exact Set.indicator_of_notMem (fun h : (z, c) ∈ {y : Clus K N × Cont K F S M nG | y.1 ≠ z} => h rfl) _
    | succ n ih => intro c; exact ofRand_null (g := fun op => mhStep _ (propose0 m op) _ _) fun p hp => step0_stays hfix hz p.1 c ih
  exact this n c

/-! ### A run that meets the requirements -/

/-- Two clusters of one or two of five objects, a confounder with two groups, two features with three and two states, missing values. -/
noncomputable def widerSetup : Setup 2 5 2 3 1 (fun _ => 2) where
  d := { features := fun n f s => decide (n.val ≠ 4) && decide (s.val = (n.val + f.val) % 2), confGroups := fun _ g n => decide (n.val % 2 = g.val) }
  cfg := { size := .uniformArea, geo := .uniform, conf := fun _ _ => some fun _ _ => 2, sampleSource := false,
           app := fun f s => decide (s.val < 3 - f.val) }
  cl := { minSize := 1, maxSize := 2, adj := fun _ _ => true, pConn := 4 / 5 }
  clOrder := [0, 1]
  confOrder := fun _ => [0, 1]
  empty := fun _ _ _ => 0

theorem widerSetup_wellPosed : WellPosed widerSetup where
  observed n f := by
    have : ∀ (n : Fin 5) (f : Fin 2), (∀ s : Fin 3, (decide (n.val ≠ 4) && decide (s.val = (n.val + f.val) % 2)) = false) ∨
        ∃ s : Fin 3, (∀ t : Fin 3, (decide (n.val ≠ 4) && decide (t.val = (n.val + f.val) % 2)) = true ↔ t = s) ∧ decide (s.val < 3 - f.val) = true := by
      decide
    exact this n f
  disjoint c i j n h1 h2 := by
    have e1 : n.val % 2 = i.val := of_decide_eq_true h1
    have e2 : n.val % 2 = j.val := of_decide_eq_true h2
    exact Fin.ext (e1.symm.trans e2)
  covered n := ⟨0, ⟨n.val % 2, Nat.mod_lt _ (by norm_num)⟩, decide_eq_true rfl⟩
  hasState f := by have : ∀ f : Fin 2, ∃ s : Fin 3, decide (s.val < 3 - f.val) = true := by decide
                   exact this f
  hasCluster := by norm_num
  hasConfounder := by norm_num
  hasGroup c := by norm_num
  clOrder g := by have : ∀ g : Fin 2, g ∈ [0, 1] := by decide
                  exact this g
  confOrder c g := by have : ∀ g : Fin 2, g ∈ [0, 1] := by decide
                      exact this g
  geo z _ := rfl
  conc c g a h f s _ := by
    have : (some fun _ _ => (2 : ℝ)) = some a := h
    rw [← Option.some.inj this]
    norm_num
  nonempty _ := Nat.one_pos
  pConn := by constructor <;> norm_num [widerSetup]

theorem widerSetup_canMove : CanMove widerSetup where
  feature := by norm_num
  twoStates f := by
    have : ∀ f : Fin 2, ∃ s s' : Fin 3, s ≠ s' ∧ decide (s.val < 3 - f.val) = true ∧ decide (s'.val < 3 - f.val) = true := by decide
    exact this f
  room := by norm_num [widerSetup]
  sizes := by norm_num [widerSetup]
  anywhere := by norm_num [widerSetup]

/-- The requirements are met by a run where all operators are in use, that is started from the posterior. -/
example : ∃ ops : List (OpKind 1 × ℝ), ∃ P, WellPosed widerSetup ∧ CanMove widerSetup ∧ widerSetup.cfg.sampleSource = false ∧
    getOperators false 1 { clusters := 45, weights := 15, clusterEffect := 10, confoundingEffects := 10, source := 0 } = .ok ops ∧
    (∀ o ∈ ops, 0 < o.2) ∧ IsProbabilityMeasure P ∧ P ≪ target widerSetup id (post0 widerSetup) := by
  have hm := widerSetup_wellPosed
  have hv : Valid widerSetup.cl.minSize widerSetup.cl.maxSize (fun (k : Fin 2) (n : Fin 5) => decide (n.val = k.val)) := by
    refine ⟨fun i j n h1 h2 => Fin.ext ((of_decide_eq_true h1).symm.trans (of_decide_eq_true h2)), fun k => ?_, fun k => ?_⟩
    · have : ∀ k : Fin 2, 1 ≤ size (fun n : Fin 5 => decide (n.val = k.val)) := by decide
      exact this k
    · have : ∀ k : Fin 2, size (fun n : Fin 5 => decide (n.val = k.val)) ≤ 2 := by decide
      exact this k
  have h0 : target widerSetup id (post0 widerSetup) Set.univ ≠ 0 := ((C81_posterior_is_proper hm ⟨_, hv⟩).2 rfl).1
  refine ⟨_, (target widerSetup id (post0 widerSetup) Set.univ)⁻¹ • target widerSetup id (post0 widerSetup), hm, widerSetup_canMove, rfl, rfl,
    ?_, ⟨?_⟩, Measure.smul_absolutelyContinuous⟩
  · intro o ho
    simp [List.finRange] at ho
    rcases ho with rfl | rfl | rfl | rfl <;> norm_num
  · rw [Measure.smul_apply, smul_eq_mul, ENNReal.inv_mul_cancel h0]
    exact (target0_finite hm rfl).measure_univ_lt_top.ne

/-- Runs with a fixed cluster size and valid clusters exist. -/
example : (exampleSetup false).cl.minSize = (exampleSetup false).cl.maxSize ∧
    Valid (exampleSetup false).cl.minSize (exampleSetup false).cl.maxSize (fun (_ : Fin 1) (n : Fin 2) => n == 0) := by
  refine ⟨rfl, ⟨fun i j n _ _ => Subsingleton.elim i j, fun k => ?_, fun k => ?_⟩⟩ <;> decide

end SBayes.Kernel
