import Verif.Model.Posterior
import Verif.Props.Likelihood
import Verif.Props.Cache
import Mathlib.Analysis.SpecialFunctions.Gamma.Basic
/- C65, C66: the whole posterior. -/
namespace SBayes.Posterior
open SBayes.Lik SBayes.Prior SBayes.Effects SBayes.Cache
open scoped BigOperators

variable {K N F S M : ℕ} {nG : Fin M → ℕ}

/-! ## C65: the reference implementation -/

theorem slowComponent_eq {G : ℕ} (x : Features N F S) (probs : Fin G → Fin F → Fin S → ℝ) (groups : Fin G → Fin N → Bool) :
    slowComponent x probs groups = computeComponentLikelihood x probs groups (List.finRange G) (fun _ _ => 0) := by
  unfold slowComponent computeComponentLikelihood
  congr 1
  funext n f
  split <;> rfl

theorem slowComponents_eq (d : ModelData N F S M nG) (p : Params ℝ K N F S M nG) :
    slowComponents d p = updateComponents d p (List.finRange K) (fun c => List.finRange (nG c)) (fun _ _ _ => 0) := by
  unfold slowComponents updateComponents
  simp only [slowComponent_eq]

/-- The density of a Dirichlet distribution with all parameters 1 is constant. -/
theorem dirichletPdf_ones {ι : Type} (A : Finset ι) (x : ι → ℝ) :
    dirichletPdf A (fun _ => 1) x = Real.Gamma A.card := by
  unfold dirichletPdf
  simp

theorem groupEffectPrior_ones (app : Fin F → Fin S → Bool) (e : Fin F → Fin S → ℝ) :
    groupEffectPrior app (fun _ _ => 1) e = ∏ f, Real.Gamma (states app f).card := by
  unfold groupEffectPrior
  exact Finset.prod_congr rfl fun f _ => dirichletPdf_ones _ _

/-- The posterior of the reference implementation is the posterior of the (uncached) model times a constant that depends
on the data and the configuration only: it fails on the same samples, and both give the same odds of any two samples. -/
theorem C65_reference_model_agrees (d : ModelData N F S M nG) (hc : ∀ c, DisjointGroups (d.confGroups c))
    (cfg : ModelCfg N F S M nG) (huni : ∀ c g, cfg.conf c g = none) (happ : ∀ f, ∃ s, cfg.app f s = true) :
    ∃ C > 0, ∀ p : Params ℝ K N F S M nG, DisjointGroups p.clusters → p.source.isSome = cfg.sampleSource →
      ∀ (clOrder : List (Fin K)) (confOrder : (c : Fin M) → List (Fin (nG c))) (empty : Fin N → Fin F → Fin (M + 1) → ℝ),
        VisitsAll clOrder → (∀ c, VisitsAll (confOrder c)) →
        slowPosterior d cfg p = (posterior d cfg clOrder confOrder empty p).map (fun x => C * x) := by
  refine ⟨∏ c : Fin M, ∏ _g : Fin (nG c), ∏ f, Real.Gamma (states cfg.app f).card, ?_, ?_⟩
  · apply Finset.prod_pos; intro c _
    apply Finset.prod_pos; intro g _
    apply Finset.prod_pos; intro f _
    apply Real.Gamma_pos_of_pos
    obtain ⟨s, hs⟩ := happ f
    have : 0 < (states cfg.app f).card := Finset.card_pos.mpr ⟨s, by simp [states, hs]⟩
    exact_mod_cast this
  · intro p hd hsrc clOrder confOrder empty h1 h2
    have hlh : observationLhs (slowComponents d p) (slowWeights d p) p.source =
        freshObservationLhs d p clOrder confOrder empty := by
      unfold freshObservationLhs
      rw [slowComponents_eq, updateComponents_all hd hc (fun g => List.mem_finRange g) (fun c g => List.mem_finRange g),
        updateComponents_all hd hc h1 h2]
      rfl
    have hw : slowWeights d p = normalizeWeights p.weights (hasComponents d p.clusters) := rfl
    unfold slowPosterior posterior slowPrior prior slowLikelihood
    rw [hlh, hw]
    rcases hgeo : geoTerm cfg.geo p.clusters with _ | geo
    · rfl
    · have hall : ∀ c g, (cfg.conf c g).isNone = true := by intro c g; rw [huni]; rfl
      have hconf : (∏ c, ∏ g, confEffectPrior cfg.app (cfg.conf c g) (p.confEffect c g)) = 1 := by
        apply Finset.prod_eq_one; intro c _
        apply Finset.prod_eq_one; intro g _
        rw [huni]; rfl
      simp only [Option.bind_eq_bind, Option.bind_some, if_pos hall, hconf, groupEffectPrior_ones]
      cases hs : p.source with
      | none =>
        rw [hs] at hsrc
        rw [← hsrc]
        simp only [sourceTerm, Option.isSome_none, Option.bind_some, Option.map_some, Option.some.injEq]
        ring
      | some src =>
        rw [hs] at hsrc
        rw [← hsrc]
        simp only [sourceTerm, Option.isSome_some, Option.bind_some, Option.map_some, Option.some.injEq]
        ring

/-- The constant is not 1 in general: the two implementations report different posteriors for the same sample (a
confounder with one group, one feature with three states, no clusters). -/
theorem C65_values_differ : ∃ (d : ModelData 1 1 3 1 (fun _ => 1)) (cfg : ModelCfg 1 1 3 1 (fun _ => 1))
    (p : Params ℝ 0 1 1 3 1 (fun _ => 1)) (x y : ℝ),
    posterior d cfg [] (fun _ => [0]) (fun _ _ _ => 0) p = some x ∧ slowPosterior d cfg p = some y ∧ 0 < x ∧ y = 2 * x := by
  let d : ModelData 1 1 3 1 (fun _ => 1) := ⟨fun _ _ s => s == 0, fun _ _ _ => true⟩
  let cfg : ModelCfg 1 1 3 1 (fun _ => 1) :=
    { size := .uniformArea, geo := .uniform, conf := fun _ _ => none, sampleSource := false, app := fun _ _ => true }
  let p : Params ℝ 0 1 1 3 1 (fun _ => 1) :=
    { clusters := fun k => k.elim0, weights := fun _ _ => 1, clusterEffect := fun k => k.elim0,
      confEffect := fun _ _ _ _ => 1 / 3, source := none }
  have hdis : ∀ c, DisjointGroups (d.confGroups c) := by
    intro c i j n _ _; exact Subsingleton.elim (α := Fin 1) i j
  have hobs : likelihood (freshObservationLhs d p [] (fun _ => [0]) (fun _ _ _ => 0)) = 1 / 3 := by
    unfold freshObservationLhs
    rw [show p.source = none from rfl, likelihood_none]
    simp [updateComponents, hasComponents, normalizeWeights, overwriteNA, isNA, computeComponentLikelihood, writeGroup,
      stateProb, anyGroup, b2n, d, p, List.finRange_succ]
    rfl
  have hpr : prior d cfg p = some 1 := by
    unfold prior
    simp [cfg, p, geoTerm, sourceTerm, sizePrior, confEffectPrior]
  have h1 : posterior d cfg [] (fun _ => [0]) (fun _ _ _ => 0) p = some (1 / 3) := by
    unfold posterior
    rw [hpr, hobs]; simp
  have h2 : slowPosterior d cfg p = some (2 / 3) := by
    unfold slowPosterior slowPrior slowLikelihood
    have hlh : observationLhs (slowComponents d p) (slowWeights d p) p.source =
        freshObservationLhs d p [] (fun _ => [0]) (fun _ _ _ => 0) := by
      unfold freshObservationLhs
      rw [slowComponents_eq, updateComponents_all (by intro k; exact k.elim0) hdis (fun g => g.elim0) (fun c g => List.mem_finRange g),
        updateComponents_all (by intro k; exact k.elim0) hdis (fun g => g.elim0) (fun c g => by
          have : g = (0 : Fin 1) := Subsingleton.elim (α := Fin 1) g 0
          rw [this]; exact List.mem_singleton.mpr rfl)]
      rfl
    rw [hlh, hobs]
    simp only [groupEffectPrior_ones]
    simp [cfg, p, geoTerm, sizePrior, states]
    norm_num
  exact ⟨d, cfg, p, 1 / 3, 2 / 3, h1, h2, by norm_num, by norm_num⟩

/-! ## C66: `Model.__call__` with caches -/

/-- A sample with sources is only accepted when the configuration asks for source sampling, and one without sources only
when it does not: otherwise the call fails. Without a mismatch it fails only if the geo prior does. -/
theorem C66_source_must_match_configuration (d : ModelData N F S M nG) (cfg : ModelCfg N F S M nG)
    (p : Params ℝ K N F S M nG) :
    (prior d cfg p).isSome = true ↔ (geoTerm cfg.geo p.clusters).isSome = true ∧ p.source.isSome = cfg.sampleSource := by
  unfold prior
  rcases geoTerm cfg.geo p.clusters with _ | geo
  · simp
  · rcases h : p.source with _ | src <;> rcases h' : cfg.sampleSource with _ | _ <;> simp [sourceTerm]

/-- Both sides of the equivalence occur: two samples of the same model, one of them without sources. -/
example : ∃ (d : ModelData 1 1 3 0 (fun _ => 1)) (cfg : ModelCfg 1 1 3 0 (fun _ => 1)) (p p' : Params ℝ 0 1 1 3 0 (fun _ => 1)),
    (prior d cfg p).isSome = true ∧ (prior d cfg p').isSome = false := by
  let cfg : ModelCfg 1 1 3 0 (fun _ => 1) :=
    { size := .uniformArea, geo := .uniform, conf := fun _ _ => none, sampleSource := true, app := fun _ _ => true }
  let p : Params ℝ 0 1 1 3 0 (fun _ => 1) :=
    { clusters := fun k => k.elim0, weights := fun _ _ => 1, clusterEffect := fun k => k.elim0,
      confEffect := fun _ _ _ _ => 1 / 3, source := none }
  refine ⟨⟨fun _ _ s => s == 0, fun _ _ _ => true⟩, cfg, { p with source := some fun _ _ _ => true }, p, ?_, ?_⟩
  · exact (C66_source_must_match_configuration _ _ _).mpr ⟨rfl, rfl⟩
  · by_contra h
    have := ((C66_source_must_match_configuration _ _ _).mp (Bool.eq_true_of_not_eq_false h)).2
    exact absurd this (by decide)

section
variable {𝕜 : Type} [Field 𝕜]
variable {d : ModelData N F S M nG} {P : PriorFns 𝕜 K N F S M nG}

theorem evalLh_params (s : Sample 𝕜 K N F S M nG) (b : Bool) (clO : List (Fin K)) (cfO : (c : Fin M) → List (Fin (nG c))) :
    (evalLh d s b clO cfO).1.params = s.params := by
  unfold evalLh
  dsimp only
  obtain ⟨e1, e2, e3, e4, e5, e6, _⟩ := updateWeights_params
    (s := updateComp d (if b = true then s else { s with cache := s.cache.clear }) b clO cfO) b
  obtain ⟨r1, r2, r3, r4, r5, r6, _⟩ :=
    updateComp_params (d := d) (s := if b = true then s else { s with cache := s.cache.clear }) b clO cfO
  unfold Sample.params
  rw [e1, e2, e3, e4, e5, e6, r1, r2, r3, r4, r5, r6]
  cases b <;> rfl

omit [Field 𝕜] in
theorem evalGeo_congr {s t : Sample 𝕜 K N F S M nG} (h1 : t.cache.geo = s.cache.geo) (h2 : t.clusters = s.clusters)
    (b : Bool) : (evalGeo P t b).2 = (evalGeo P s b).2 := by
  unfold evalGeo
  rw [h1, h2]
  split <;> rfl

theorem evalConfs_val {s : Sample 𝕜 K N F S M nG} (b : Bool) {order : (c : Fin M) → List (Fin (nG c))}
    (ho : ∀ c, VisitsAll (order c)) (cs : List (Fin M)) (hN : NodeInv d P s) (hC : ConfInv P s) :
    (evalConfs P b order cs s).2 = (cs.map fun c => ∑ g, P.confP c g ((s.confEffect c).value g)).sum ∧
      NodeInv d P (evalConfs P b order cs s).1 ∧ (evalConfs P b order cs s).1.clusters = s.clusters ∧
      (evalConfs P b order cs s).1.weights = s.weights ∧ (evalConfs P b order cs s).1.source = s.source ∧
      (evalConfs P b order cs s).1.useSource = s.useSource := by
  induction cs generalizing s with
  | nil => exact ⟨rfl, hN, rfl, rfl, rfl, rfl⟩
  | cons c cs ih =>
    obtain ⟨e1, e2, e3, e4, e5, e6, e7, e8, e9, e10⟩ := evalConf_params (P := P) (s := s) c b (order c)
    have hu : (evalConf P s c b (order c)).1.useSource = s.useSource := by
      unfold evalConf; dsimp only; split <;> rfl
    obtain ⟨h1, h2, h3, h4, h5, h6⟩ := ih (s := (evalConf P s c b (order c)).1)
      (nodeInv_of_eq hN e1 e2 e3 e7 e8 e9 e10) (evalConf_inv hC c b (ho c))
    refine ⟨?_, h2, h3.trans e1, h4.trans e2, h5.trans e3, h6.trans hu⟩
    show _ + _ = _
    rw [evalConf_val hC c b (ho c), h1, e5]; rfl

theorem evalPrior_val {s : Sample 𝕜 K N F S M nG} (b : Bool) {order : (c : Fin M) → List (Fin (nG c))}
    (ho : ∀ c, VisitsAll (order c)) (hN : NodeInv d P s) (hC : ConfInv P s) :
    (evalPrior P b order s).2 = P.sizeP s.params.clusters + (evalGeo P s b).2 +
      (∑ c, ∑ g, P.confP c g (s.params.confEffect c g)) +
      match s.params.source with
      | none => 0
      | some src => ((sourceWeights (normalizeWeights s.params.weights (hasComponents d s.params.clusters)) src).map
          P.logf).sum := by
  have ha : (evalSize P s b).1.clusters = s.clusters ∧ (evalSize P s b).1.weights = s.weights ∧
      (evalSize P s b).1.source = s.source ∧ (evalSize P s b).1.useSource = s.useSource ∧
      (evalSize P s b).1.confEffect = s.confEffect ∧ (evalSize P s b).1.cache.conf = s.cache.conf ∧
      (evalSize P s b).1.cache.geo = s.cache.geo := by
    unfold evalSize; split <;> simp
  obtain ⟨a1, a2, a3, a4, a5, a6, a7⟩ := ha
  have hNa := evalSize_inv hN b
  have hgv : (evalGeo P (evalSize P s b).1 b).2 = (evalGeo P s b).2 := evalGeo_congr a7 a1 b
  have hCa : ConfInv P (evalSize P s b).1 := confInv_of_eq hC a5 a6
  generalize hta : (evalSize P s b).1 = ta at *
  obtain ⟨b1, b2, b3, b4, b5, b6, b7, b8, b9, b10, b11⟩ := evalGeo_params (P := P) (s := ta) b
  have bu : (evalGeo P ta b).1.useSource = ta.useSource := by unfold evalGeo; split <;> rfl
  have hNb := nodeInv_of_eq hNa b1 b2 b3 b8 b9 b10 b11
  have hCb : ConfInv P (evalGeo P ta b).1 := confInv_of_eq hCa b5 b7
  obtain ⟨c1, c2, c3, c4, c5, c6⟩ := evalConfs_val (d := d) (s := (evalGeo P ta b).1) b ho (List.finRange M) hNb hCb
  unfold evalPrior
  dsimp only
  rw [evalSize_val hN, hta, hgv, c1]
  have hcu : (evalConfs P b order (List.finRange M) (evalGeo P ta b).1).1.useSource = s.useSource := by
    rw [c6, bu, a4]
  rw [hcu]
  have hsum : ((List.finRange M).map fun c => ∑ g, P.confP c g (((evalGeo P ta b).1.confEffect c).value g)).sum =
      ∑ c, ∑ g, P.confP c g (s.params.confEffect c g) := by
    rw [b5, a5, Fin.sum_univ_def]
    rfl
  rw [hsum]
  cases hu : s.useSource with
  | false => simp [Sample.params, hu]
  | true =>
    simp only [if_true, Sample.params, hu]
    rw [evalSrc_val c2, c3, c4, c5, b1, b2, b3, a1, a2, a3]

/-- The log-posterior that `Model.__call__` is meant to return, as a function of the parameters. -/
def logPosterior (d : ModelData N F S M nG) (P : PriorFns 𝕜 K N F S M nG) (clO : List (Fin K))
    (cfO : (c : Fin M) → List (Fin (nG c))) (garbage : Fin N → Fin F → Fin (M + 1) → 𝕜) (p : Params 𝕜 K N F S M nG) : 𝕜 :=
  ((freshObservationLhs d p clO cfO garbage).map P.logf).sum +
    (P.sizeP p.clusters + P.geoP p.clusters + (∑ c, ∑ g, P.confP c g (p.confEffect c g)) +
      match p.source with
      | none => 0
      | some src => ((sourceWeights (normalizeWeights p.weights (hasComponents d p.clusters)) src).map P.logf).sum)

theorem evalLh_rest (s : Sample 𝕜 K N F S M nG) (b : Bool) (clO : List (Fin K)) (cfO : (c : Fin M) → List (Fin (nG c))) :
    (evalLh d s b clO cfO).1.clusters = s.clusters ∧ (evalLh d s b clO cfO).1.confEffect = s.confEffect ∧
    (evalLh d s b clO cfO).1.cache.geo = (if b then s else { s with cache := s.cache.clear }).cache.geo ∧
    (evalLh d s b clO cfO).1.cache.conf = (if b then s else { s with cache := s.cache.clear }).cache.conf := by
  unfold evalLh
  dsimp only
  obtain ⟨e1, e2, e3, e4, e5, e6, e7, e8, e9, e10, _⟩ := updateWeights_params
    (s := updateComp d (if b = true then s else { s with cache := s.cache.clear }) b clO cfO) b
  obtain ⟨r1, r2, r3, r4, r5, r6, r7, r8, r9, r10, _⟩ :=
    updateComp_params (d := d) (s := if b = true then s else { s with cache := s.cache.clear }) b clO cfO
  rw [e1, e4, e8, e10, r1, r4, r8, r10]
  refine ⟨?_, ?_, rfl, rfl⟩ <;> cases b <;> rfl

/-- The operations on the sample that one call of the model consists of. -/
def modelOps (useSource caching : Bool) (clO : List (Fin K)) (cfO order : (c : Fin M) → List (Fin (nG c))) :
    List (SOp 𝕜 K N F S M nG) :=
  [.evalLh caching clO cfO, .evalSize true, .evalGeo true] ++
    (List.finRange M).map (fun c => .evalConf c true (order c)) ++ (if useSource then [.evalSrc true] else [])

theorem evalConfs_steps (order : (c : Fin M) → List (Fin (nG c))) (cs : List (Fin M)) (s : Sample 𝕜 K N F S M nG) :
    (evalConfs P true order cs s).1 = (cs.map fun c => SOp.evalConf c true (order c)).foldl (stepS d P) s := by
  induction cs generalizing s with
  | nil => rfl
  | cons c cs ih => exact ih _

theorem evalConfs_params (b : Bool) (order : (c : Fin M) → List (Fin (nG c))) (cs : List (Fin M))
    (s : Sample 𝕜 K N F S M nG) :
    (evalConfs P b order cs s).1.params = s.params ∧ (evalConfs P b order cs s).1.useSource = s.useSource := by
  induction cs generalizing s with
  | nil => exact ⟨rfl, rfl⟩
  | cons c cs ih =>
    obtain ⟨h1, h2⟩ := ih (evalConf P s c b (order c)).1
    refine ⟨h1.trans ?_, h2.trans ?_⟩
    · unfold evalConf; dsimp only; split <;> rfl
    · unfold evalConf; dsimp only; split <;> rfl

theorem evalModel_params (s : Sample 𝕜 K N F S M nG) (b : Bool) (clO : List (Fin K))
    (cfO order : (c : Fin M) → List (Fin (nG c))) :
    (evalModel d P b clO cfO order s).1.params = s.params := by
  unfold evalModel evalPrior
  dsimp only
  have h1 : ∀ t : Sample 𝕜 K N F S M nG, (evalSize P t true).1.params = t.params := by
    intro t; unfold evalSize; split <;> rfl
  have h2 : ∀ t : Sample 𝕜 K N F S M nG, (evalGeo P t true).1.params = t.params := by
    intro t; unfold evalGeo; split <;> rfl
  have h3 : ∀ t : Sample 𝕜 K N F S M nG, (evalSrc P t true).1.params = t.params := by
    intro t; unfold evalSrc; dsimp only; split
    · rfl
    · obtain ⟨e1, e2, e3, e4, e5, e6, _⟩ := updateWeights_params (s := t) true
      show Sample.params (updateWeights t true) = _
      unfold Sample.params; rw [e1, e2, e3, e4, e5, e6]
  split
  · rw [h3, (evalConfs_params true order _ _).1, h2, h1, evalLh_params]
  · show (evalConfs P true order _ _).1.params = _
    rw [(evalConfs_params true order _ _).1, h2, h1, evalLh_params]

/-- A call of the model is a sequence of the operations that histories consist of: the theorems about histories cover
programs that call the model. -/
theorem C66_model_call_is_a_history (s : Sample 𝕜 K N F S M nG) (b : Bool) (clO : List (Fin K))
    (cfO order : (c : Fin M) → List (Fin (nG c))) :
    (evalModel d P b clO cfO order s).1 = (modelOps s.useSource b clO cfO order).foldl (stepS d P) s := by
  have hu : (evalConfs P true order (List.finRange M)
      (evalGeo P (evalSize P (evalLh d s b clO cfO).1 true).1 true).1).1.useSource = s.useSource := by
    rw [(evalConfs_params true order _ _).2]
    have h1 : ∀ t : Sample 𝕜 K N F S M nG, (evalGeo P t true).1.useSource = t.useSource := by
      intro t; unfold evalGeo; split <;> rfl
    have h2 : ∀ t : Sample 𝕜 K N F S M nG, (evalSize P t true).1.useSource = t.useSource := by
      intro t; unfold evalSize; split <;> rfl
    rw [h1, h2]
    unfold evalLh; dsimp only
    rw [(updateWeights_params _).2.2.2.2.1, (updateComp_params _ _ _).2.2.2.2.1]
    cases b <;> rfl
  unfold evalModel evalPrior modelOps
  dsimp only
  rw [hu, List.foldl_append, List.foldl_append, ← evalConfs_steps]
  cases s.useSource <;> rfl

/-- **C66.** Without caching, after every history whatsoever (whole-array changes included, and for geo-priors of every
type): `Model.__call__` returns the log-posterior of the current parameters and leaves these as they are. -/
theorem C66_uncached_posterior (d : ModelData N F S M nG) (P : PriorFns 𝕜 K N F S M nG)
    (hc : ∀ c, DisjointGroups (d.confGroups c)) (ops : List (WOp 𝕜 K N F S M nG)) (s : Sample 𝕜 K N F S M nG)
    (hs : s ∈ runW d P [] ops) (hd : DisjointGroups s.clusters.value)
    (clO clO' : List (Fin K)) (cfO cfO' order : (c : Fin M) → List (Fin (nG c)))
    (h1 : VisitsAll clO) (h2 : ∀ c, VisitsAll (cfO c)) (h3 : VisitsAll clO') (h4 : ∀ c, VisitsAll (cfO' c))
    (h5 : ∀ c, VisitsAll (order c)) (garbage : Fin N → Fin F → Fin (M + 1) → 𝕜) :
    (evalModel d P false clO cfO order s).2 = logPosterior d P clO' cfO' garbage s.params ∧
      (evalModel d P false clO cfO order s).1.params = s.params := by
  have hN := runW_forall_any (I := fun s => NodeInv d P s) (fun p g => nodeInv_new p g) (fun s h => nodeInv_copy h)
    (fun s op h => stepS_nodeInv h op) ops [] (by simp) s hs
  obtain ⟨-, -, hW⟩ := runW_WF d P ops s hs
  obtain ⟨r1, r2, r3, r4⟩ := evalLh_rest (d := d) s false clO cfO
  have hG : (evalGeo P (evalLh d s false clO cfO).1 true).2 = P.geoP s.params.clusters := by
    have : ((evalLh d s false clO cfO).1.cache.geo).cached = none := by rw [r3]; rfl
    unfold evalGeo
    rw [this, r1]
    simp [Sample.params]
  have hC : ConfInv P (evalLh d s false clO cfO).1 := by
    unfold ConfInv
    rw [r2, r4]
    refine ⟨hW, fun c => ⟨?_, ?_⟩⟩
    · intro g m hm; exact absurd hm (by simp [ModelCache.clear])
    · intro v hv; exact absurd hv (by simp [ModelCache.clear])
  refine ⟨?_, evalModel_params s false clO cfO order⟩
  unfold evalModel logPosterior
  dsimp only
  rw [evalPrior_val true h5 (evalLh_nodeInv hN false clO cfO) hC, hG, evalLh_params,
    C05_uncached_likelihood_always_right_partial d P hc ops s hs hd clO clO' cfO cfO' h1 h2 h3 h4 garbage]

/-- With caching, after every history with group-wise changes, `Model.__call__` returns the log-posterior of the current
parameters, except that the geo-prior is whatever its cache holds. -/
theorem C66_cached_posterior_up_to_geo (d : ModelData N F S M nG) (P : PriorFns 𝕜 K N F S M nG)
    (hc : ∀ c, DisjointGroups (d.confGroups c)) (ops : List (WOp 𝕜 K N F S M nG)) (ho : HistoryOk d P [] ops)
    (s : Sample 𝕜 K N F S M nG) (hs : s ∈ runW d P [] ops) (hd : DisjointGroups s.clusters.value)
    (clO clO' : List (Fin K)) (cfO cfO' order : (c : Fin M) → List (Fin (nG c)))
    (h1 : VisitsAll clO) (h2 : ∀ c, VisitsAll (cfO c)) (h3 : VisitsAll clO') (h4 : ∀ c, VisitsAll (cfO' c))
    (h5 : ∀ c, VisitsAll (order c)) (garbage : Fin N → Fin F → Fin (M + 1) → 𝕜) :
    (evalModel d P true clO cfO order s).2 = logPosterior d P clO' cfO' garbage s.params +
        ((evalGeo P s true).2 - P.geoP s.params.clusters) ∧
      (evalModel d P true clO cfO order s).1.params = s.params := by
  have hN := runW_forall_any (I := fun s => NodeInv d P s) (fun p g => nodeInv_new p g) (fun s h => nodeInv_copy h)
    (fun s op h => stepS_nodeInv h op) ops [] (by simp) s hs
  have hC0 := runW_forall (I := fun s => ConfInv P s) (fun p g => confInv_new p g) (fun s h => confInv_copy h)
    (fun s op hop h => stepS_confInv h hop) ops [] (by simp) ho s hs
  obtain ⟨r1, r2, r3, r4⟩ := evalLh_rest (d := d) s true clO cfO
  rw [if_pos rfl] at r3 r4
  have hC : ConfInv P (evalLh d s true clO cfO).1 := confInv_of_eq hC0 r2 r4
  refine ⟨?_, evalModel_params s true clO cfO order⟩
  unfold evalModel logPosterior
  dsimp only
  rw [evalPrior_val true h5 (evalLh_nodeInv hN true clO cfO) hC, evalLh_params, evalGeo_congr r3 r1 true,
    C04_cached_likelihood_is_the_specified_one d P hc ops ho s hs hd true clO clO' cfO cfO' h1 h2 h3 h4 garbage]
  ring

/-- **C66.** With caching, after every history with group-wise changes: `Model.__call__` returns the log-posterior of the
current parameters, provided the geo-prior does not depend on the clusters (see C07 for what happens otherwise). -/
theorem C66_cached_posterior_partial (d : ModelData N F S M nG) (P : PriorFns 𝕜 K N F S M nG)
    (hc : ∀ c, DisjointGroups (d.confGroups c)) (ops : List (WOp 𝕜 K N F S M nG)) (ho : HistoryOk d P [] ops)
    (hconst : ∀ cl cl', P.geoP cl = P.geoP cl') (s : Sample 𝕜 K N F S M nG)
    (hs : s ∈ runW d P [] ops) (hd : DisjointGroups s.clusters.value)
    (clO clO' : List (Fin K)) (cfO cfO' order : (c : Fin M) → List (Fin (nG c)))
    (h1 : VisitsAll clO) (h2 : ∀ c, VisitsAll (cfO c)) (h3 : VisitsAll clO') (h4 : ∀ c, VisitsAll (cfO' c))
    (h5 : ∀ c, VisitsAll (order c)) (garbage : Fin N → Fin F → Fin (M + 1) → 𝕜) :
    (evalModel d P true clO cfO order s).2 = logPosterior d P clO' cfO' garbage s.params ∧
      (evalModel d P true clO cfO order s).1.params = s.params := by
  obtain ⟨e1, e2⟩ := C66_cached_posterior_up_to_geo d P hc ops ho s hs hd clO clO' cfO cfO' order h1 h2 h3 h4 h5 garbage
  rw [(C07_geo_prior_partial d P ops s hs).2.2 hconst, sub_self, add_zero] at e1
  exact ⟨e1, e2⟩
end

/-- **C66 is false of the code with caching**, for geo-priors that depend on the clusters: after one change of a cluster
through the tracked mutator, the call with caching counts the old geo-prior, the call without caching the new one. -/
theorem C66_cached_posterior_false : ∃ s ∈ runW cexD cexF [] geoOps, HistoryOk cexD cexF [] geoOps ∧
    (evalModel cexD cexF true [0] (fun c => c.elim0) (fun c => c.elim0) s).2 ≠
      (evalModel cexD cexF false [0] (fun c => c.elim0) (fun c => c.elim0) s).2 := by
  have hok : HistoryOk cexD cexF [] geoOps := by
    simp only [geoOps, HistoryOk, OpOk]
    exact ⟨fun _ _ => trivial, fun _ _ => trivial, trivial⟩
  have hv : VisitsAll ([0] : List (Fin 1)) := by unfold VisitsAll; decide
  have hdis : ∀ g : Fin 1 → Fin 1 → Bool, DisjointGroups g := by
    intro g i j n _ _; exact Subsingleton.elim i j
  refine ⟨_, List.mem_singleton.mpr rfl, hok, ?_⟩
  rw [(C66_cached_posterior_up_to_geo cexD cexF (fun c => c.elim0) geoOps hok _ (List.mem_singleton.mpr rfl) (hdis _)
      [0] [0] (fun c => c.elim0) (fun c => c.elim0) (fun c => c.elim0) hv (fun c => c.elim0) hv (fun c => c.elim0)
      (fun c => c.elim0) (fun _ _ _ => 0)).1,
    (C66_uncached_posterior cexD cexF (fun c => c.elim0) geoOps _ (List.mem_singleton.mpr rfl) (hdis _)
      [0] [0] (fun c => c.elim0) (fun c => c.elim0) (fun c => c.elim0) hv (fun c => c.elim0) hv (fun c => c.elim0)
      (fun c => c.elim0) (fun _ _ _ => 0)).1]
  simp [stepS, evalGeo, Sample.new, freshCache, Sample.params, GP.editGroup, GP.new, cexP, cexF]

/-- The example history of C04 (two samples, four evaluations, changes in between) meets the hypotheses; its priors do not
make the geo-prior constant, the following do. -/
example : ∃ P : PriorFns ℚ 1 2 1 2 1 (fun _ => 1), (∀ cl cl', P.geoP cl = P.geoP cl') ∧ HistoryOk exD P [] exOps := by
  refine ⟨{ exF with geoP := fun _ => -3 }, fun _ _ => rfl, ?_⟩
  have hv : VisitsAll ([0] : List (Fin 1)) := by unfold VisitsAll; decide
  have hdis : ∀ g : Fin 1 → Fin 2 → Bool, DisjointGroups g := by
    intro g i j n _ _; exact Subsingleton.elim i j
  simp only [exOps, HistoryOk, OpOk]
  exact ⟨fun s _ => ⟨hdis _, hv, fun _ => hv⟩, fun _ _ => trivial, fun _ _ => hv, fun _ _ => trivial,
    fun _ _ => trivial, fun s _ => ⟨hdis _, hv, fun _ => hv⟩, fun s _ => ⟨hdis _, hv, fun _ => hv⟩,
    fun _ _ => trivial, trivial⟩

end SBayes.Posterior
