import Verif.Lemmas.ChainKernel
import Verif.Lemmas.LawLLN
/- C85: averages over the logged samples converge to posterior means. -/
namespace SBayes.Kernel
open SBayes.Lik SBayes.Clusters SBayes.MH SBayes.Effects SBayes.Posterior SBayes.Draws SBayes.Meas SBayes.MCMC SBayes.Prior MeasureTheory
open Filter Topology
open scoped BigOperators ENNReal

variable {K N F S M : ℕ} {nG : Fin M → ℕ} {m : Setup K N F S M nG}

/-- **C85.** Sampling with sources, started from any distribution with a density with respect to the posterior: the longer the run, the
closer is the average of any bounded function over the logged samples to its posterior mean, with probability tending to one.
`s` is `steps_per_sample`; the run has `s * q + 1` iterations and so logs `q + 1` samples. That the run does not fail is part of the claim. -/
theorem C85_averages_converge (hm : WellPosed m) (hs : m.cfg.sampleSource = true) (hN : K * m.cl.minSize < N)
    (cfg : OpConfig) (ops : List (OpKind M × ℝ)) (hops : getOperators true M cfg = .ok ops) (hpos : ∀ o ∈ ops, 0 < o.2)
    (P : Measure (Disc K N F M × Cont K F S M nG)) (hP : IsProbabilityMeasure P) (hac : P ≪ target m Prod.fst (post m))
    (s : ℕ) (hs0 : 0 < s) (f : Disc K N F M × Cont K F S M nG → ℝ) (hf : Measurable f) (B : ℝ) (hB : ∀ x, |f x| ≤ B)
    (ε : ℝ) (hε : 0 < ε) :
    Tendsto (fun q : ℕ => ∫⁻ x, (sampleLoop (chainStep (post m) (propose m) (normalizeOperatorWeights ops)) s (s * q + 1) 0 x).prob
      {l | |(l.map f).sum / (l.length : ℝ) -
        (∫ y, f y ∂target m Prod.fst (post m)) / (target m Prod.fst (post m) Set.univ).toReal| < ε} ∂P) atTop (𝓝 1) := by
  obtain ⟨hne, hall⟩ := getOperators_source hops
  have ht := total_pos hpos hne
  have hd := weights_dist (fun o ho => (hpos o ho).le) ht
  have hfin : IsFiniteMeasure (target m Prod.fst (post m)) :=
    ⟨target_finite hm (meas_post m) fun d hd c hc => post_le hm hs hd hc⟩
  obtain ⟨κ, hκ, hR⟩ := chain_kernel hm hs hd
  obtain ⟨E, w, hlazy⟩ : ∃ E w, Lazy (target m Prod.fst (post m)) (chainStep (post m) (propose m) (normalizeOperatorWeights ops)) E w := by
    obtain ⟨o, ho, hce⟩ := hall .clusterEffect
    refine chain_lazy hm hs (p := o.2 / (ops.map Prod.snd).sum) (List.mem_map.mpr ⟨o, ho, ?_⟩) (div_pos (hpos o ho) ht)
    rw [hce]
  refine lln_law (keeps_chain hm hs hd) (super_chain _) hR hs0 (fun A hA hsp => ?_) hac ⟨hf, hB⟩ hε
  have hsp1 := splits_of_run hR (keeps_chain hm hs hd) (super_chain _) hlazy hs0 hA hsp
  have hop : ∀ op, Splits (target m Prod.fst (post m)) (mhStep (post m) (propose m op)) A := by
    intro op
    obtain ⟨o, ho, rfl⟩ := hall op
    exact Splits.of_mix (T := fun op x => mhStep (post m) (propose m op) x) (l := normalizeOperatorWeights ops) hsp1
      (List.mem_map.mpr ⟨o, ho, rfl⟩) (div_pos (hpos o ho) ht)
  exact ops_triv hm hs hN hA (hop _) (hop _) (hop _) (hop _) fun i => hop _

/-- **C85.** In particular, the fraction of the logged samples with any given feature (such as: an object is in a cluster) converges to its
posterior probability. -/
theorem C85_frequencies_converge (hm : WellPosed m) (hs : m.cfg.sampleSource = true) (hN : K * m.cl.minSize < N)
    (cfg : OpConfig) (ops : List (OpKind M × ℝ)) (hops : getOperators true M cfg = .ok ops) (hpos : ∀ o ∈ ops, 0 < o.2)
    (P : Measure (Disc K N F M × Cont K F S M nG)) (hP : IsProbabilityMeasure P) (hac : P ≪ target m Prod.fst (post m))
    (s : ℕ) (hs0 : 0 < s) (Q : Disc K N F M × Cont K F S M nG → Bool) (hQ : MeasurableSet {x | Q x = true}) (ε : ℝ) (hε : 0 < ε) :
    Tendsto (fun q : ℕ => ∫⁻ x, (sampleLoop (chainStep (post m) (propose m) (normalizeOperatorWeights ops)) s (s * q + 1) 0 x).prob
      {l | |(l.countP Q : ℝ) / (l.length : ℝ) -
        (target m Prod.fst (post m) {x | Q x = true}).toReal / (target m Prod.fst (post m) Set.univ).toReal| < ε} ∂P) atTop (𝓝 1) := by
  have hmeas : Measurable fun x => if Q x = true then (1 : ℝ) else 0 := Measurable.ite hQ measurable_const measurable_const
  have h := C85_averages_converge hm hs hN cfg ops hops hpos P hP hac s hs0 (fun x => if Q x = true then 1 else 0) hmeas 1
    (fun x => by split <;> simp) ε hε
  have e1 : ∀ l : List (Disc K N F M × Cont K F S M nG), (l.map fun x => if Q x = true then (1 : ℝ) else 0).sum = (l.countP Q : ℝ) := by
    intro l
    induction l with
    | nil => simp
    | cons x l ih =>
      rw [List.map_cons, List.sum_cons, ih, List.countP_cons]
      split <;> simp [add_comm]
  have e2 : ∫ y, (if Q y = true then (1 : ℝ) else 0) ∂target m Prod.fst (post m) = (target m Prod.fst (post m) {x | Q x = true}).toReal := by
    have : (fun y => if Q y = true then (1 : ℝ) else 0) = Set.indicator {x | Q x = true} (1 : Disc K N F M × Cont K F S M nG → ℝ) := by
      funext y
      by_cases hy : Q y = true <;> simp [hy]
    rw [this, integral_indicator_one hQ]
    rfl
  simp only [e1, e2] at h
  exact h

/-- The requirements are met by a run with one cluster and two objects, where all operators are in use, that is started from the posterior. -/
example : ∃ ops : List (OpKind 1 × ℝ), ∃ P, WellPosed (exampleSetup true) ∧ (exampleSetup true).cfg.sampleSource = true ∧
    1 * (exampleSetup true).cl.minSize < 2 ∧
    getOperators true 1 { clusters := 45, weights := 15, clusterEffect := 10, confoundingEffects := 10, source := 10 } = .ok ops ∧
    (∀ o ∈ ops, 0 < o.2) ∧ IsProbabilityMeasure P ∧ P ≪ target (exampleSetup true) Prod.fst (post (exampleSetup true)) := by
  have hm := exampleSetup_wellPosed true
  have h0 : target (exampleSetup true) Prod.fst (post (exampleSetup true)) Set.univ ≠ 0 :=
    ((C81_posterior_is_proper hm ⟨fun _ n => n == 0, ⟨fun i j n _ _ => Subsingleton.elim i j, fun k => by decide, fun k => by decide⟩⟩).1 rfl).1
  refine ⟨_, (target (exampleSetup true) Prod.fst (post (exampleSetup true)) Set.univ)⁻¹ •
    target (exampleSetup true) Prod.fst (post (exampleSetup true)), hm, rfl, by simp [exampleSetup], rfl, ?_, ⟨?_⟩,
    Measure.smul_absolutelyContinuous⟩
  · intro o ho
    simp [List.finRange] at ho
    rcases ho with rfl | rfl | rfl | rfl | rfl | rfl <;> norm_num
  · rw [Measure.smul_apply, smul_eq_mul, ENNReal.inv_mul_cancel h0]
    exact (target_finite hm (meas_post _) fun d hd c hc => post_le hm rfl hd hc).ne

end SBayes.Kernel
