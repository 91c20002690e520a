import Verif.Lemmas.FlatChain
import Verif.Props.NoSource
/- The chain without sources, on all states of positive posterior. -/
namespace SBayes.Meas
set_option linter.unusedSectionVars false
open SBayes.Lik SBayes.Clusters SBayes.MH SBayes.Source SBayes.Effects SBayes.Posterior SBayes.Draws SBayes.Kernel SBayes.MCMC MeasureTheory
open Filter Topology
open scoped BigOperators ENNReal

section Abstract
variable {X : Type} [MeasurableSpace X] {G : Set X}

/-- A step that cannot fail here, and stays in the set. -/
structure OpIn (G : Set X) (T : Law X) : Prop where
  mass : T 1 = 1
  meas : IsMeas T
  stay : T (Gᶜ.indicator 1) = 0
  loc : ∀ H H', (∀ y ∈ G, H y = H' y) → T H = T H'

theorem opIn_ofRand {α : Type} {l : Rand α} (hl : IsDist l) {φ : α → X} (h : ∀ p ∈ l, p.2 ≠ 0 → φ p.1 ∈ G) {T : Law X}
    (hT : ∀ g, T g = Law.ofRand l fun a => g (φ a)) : OpIn G T := by
  have hloc : ∀ H H' : X → ℝ≥0∞, (∀ y ∈ G, H y = H' y) → (Law.ofRand l fun a => H (φ a)) = Law.ofRand l fun a => H' (φ a) := by
    intro H H' hH
    unfold Law.ofRand
    congr 1
    refine List.map_congr_left fun p hp => ?_
    by_cases h0 : p.2 = 0
    · rw [h0, ENNReal.ofReal_zero, zero_mul, zero_mul]
    · dsimp only
      rw [hH _ (h p hp h0)]
  refine ⟨(hT 1).trans (ofRand_mass hl), (isMeas_ofRand l φ).congr fun g _ => hT g, ?_, fun H H' hH => ?_⟩
  · rw [hT, hloc _ 0 fun y hy => Set.indicator_of_notMem (show y ∉ Gᶜ from fun h => h hy) _]
    simp [Law.ofRand]
  · rw [hT, hT, hloc H H' hH]

theorem OpIn.mix {α : Type} {l : Rand α} (hl : IsDist l) {T : α → Law X} (h : ∀ a ∈ l, OpIn G (T a.1)) {U : Law X}
    (hU : ∀ g, U g = Law.ofRand l fun a => T a g) : OpIn G U := by
  have e : U = Law.bind (Law.ofRand l) T := funext hU
  rw [e]
  refine ⟨mix_mass hl fun a ha => (h a ha).mass, isMeas_mix l T fun a ha => (h a ha).meas, ?_, fun H H' hH => ?_⟩
  · show (Law.ofRand l fun a => T a (Gᶜ.indicator 1)) = 0
    unfold Law.ofRand
    refine List.sum_eq_zero fun y hy => ?_
    obtain ⟨p, hp, rfl⟩ := List.mem_map.mp hy
    dsimp only
    rw [(h p hp).stay, mul_zero]
  · show (Law.ofRand l fun a => T a H) = Law.ofRand l fun a => T a H'
    unfold Law.ofRand
    congr 1
    refine List.map_congr_left fun p hp => ?_
    dsimp only
    rw [(h p hp).loc H H' hH]

end Abstract

variable {K N F S M : ℕ} {nG : Fin M → ℕ} {m : Setup K N F S M nG}

/-- All states of positive posterior. -/
def Live0 (m : Setup K N F S M nG) : Set (Clus K N × Cont K F S M nG) := {x | Valid m.cl.minSize m.cl.maxSize x.1 ∧ Interior m.cfg.app x.2}

theorem live0_meas (m : Setup K N F S M nG) : MeasurableSet (Live0 m) :=
  ((Set.to_countable {z : Clus K N | Valid m.cl.minSize m.cl.maxSize z}).measurableSet.preimage measurable_fst).inter
    (measurable_snd (interior_meas m.cfg.app))

theorem live0_ae (hm : WellPosed m) (hs : m.cfg.sampleSource = false) : ∀ᵐ x ∂target m id (post0 m), x ∈ Live0 m := by
  rw [ae_target0 hm hs]
  intro z hz
  filter_upwards [interior_ae hm.hasState] with c hc using ⟨hz, hc⟩

section
variable {C : ℕ} {L : Lens (Cont K F S M nG) (Fin C → ℝ)} {prec : ℝ} {i j : Fin C}

theorem share_ae {v : Fin C → ℝ} (hp : ∀ k, 0 < shareAlpha prec v i j k) :
    ∀ᵐ p ∂dirichletLaw Finset.univ (shareAlpha prec v i j), p 0 ∈ Set.Ioo (0 : ℝ) 1 ∧ p = ![p 0, 1 - p 0] := by
  have h1 : ∀ᵐ p ∂uniformSimplex (Finset.univ : Finset (Fin 2)), Row Finset.univ p := uniformSimplex_ae Finset.univ_nonempty
  rw [dirichletLaw_density Finset.univ_nonempty fun k _ => hp k]
  refine (withDensity_absolutelyContinuous _ _).ae_le (h1.mono fun p hr => ?_)
  have p0 := hr.pos (Finset.mem_univ 0)
  have p1 := hr.pos (Finset.mem_univ 1)
  have hs := hr.2
  rw [Fin.sum_univ_two] at hs
  refine ⟨⟨p0, by linarith⟩, funext fun k => ?_⟩
  fin_cases k
  · rfl
  · show p 1 = 1 - p 0
    linarith

theorem pair_on (hm : WellPosed m) (hs : m.cfg.sampleSource = false) (hprec : 0 ≤ prec) (ho : PairOk m L i j)
    {x : Clus K N × Cont K F S M nG} (hx : x ∈ Live0 m) : OpIn (Live0 m) (pairMove m L prec (i, j) x) := by
  obtain ⟨z, c⟩ := x
  obtain ⟨hz, hc⟩ := hx
  obtain ⟨h1, h2, h3⟩ := ho.pos c hc
  have hT : ∀ g, pairMove m L prec (i, j) (z, c) g =
      drawShare prec (L.get c) i j (pairH L prec i j (fun c => post0 m (z, c)) (fun c => g (z, c)) c) := by
    intro g
    unfold pairMove mhStep Law.bind Law.ret pairH
    dsimp only
    congr 1
    funext t
    simp only [Law.ofRand, List.map_cons, List.map_nil, List.sum_cons, List.sum_nil, add_zero]
  have hloc : ∀ H H' : Clus K N × Cont K F S M nG → ℝ≥0∞, (∀ y ∈ Live0 m, H y = H' y) →
      pairMove m L prec (i, j) (z, c) H = pairMove m L prec (i, j) (z, c) H' := by
    intro H H' hH
    rw [hT, hT, drawShare_eq, drawShare_eq]
    refine lintegral_congr_ae ((share_ae fun k => shareAlpha_pos hprec h1 h2 k).mono fun p hp => ?_)
    have hnew : (z, L.set c (alterPair prec (L.get c) i j p).new) ∈ Live0 m := by
      rw [hp.2, along_alterPair]
      exact ⟨hz, h3 _ hp.1⟩
    unfold pairH
    dsimp only
    rw [hH _ hnew, hH (z, c) ⟨hz, hc⟩]
  refine ⟨pairMove_mass hm hs hprec ho hc hz, pairMove_isMeas hprec ho hc z, ?_, hloc⟩
  rw [hloc _ 0 fun y hy => Set.indicator_of_notMem (show y ∉ (Live0 m)ᶜ from fun h => h hy) _]
  have hp : pairMove m L prec (i, j) (z, c) 0 = drawShare prec (L.get c) i j 0 := by
    rw [hT]
    congr 1
    funext t
    simp [pairH]
  rw [hp, drawShare_eq]
  simp

end

theorem chain0_on (hm : WellPosed m) (hs : m.cfg.sampleSource = false) (hF : 0 < F)
    (h2 : ∀ f, ∃ s s', s ≠ s' ∧ m.cfg.app f s = true ∧ m.cfg.app f s' = true) {ops : List (OpKind M × ℝ)} (hd : IsDist ops)
    (hn : ∀ o ∈ ops, NoSource o.1) {x : Clus K N × Cont K F S M nG} (hx : x ∈ Live0 m) :
    OpIn (Live0 m) (chainStep (post0 m) (propose0 m) ops x) := by
  refine OpIn.mix (l := leafsOf (K := K) (nG := nG) m.cfg.app hm.hasState ops) (T := fun o => leafStep m hm.hasState o x)
    (isDist_bind hd fun o _ => leafOf_dist hm hF h2 o.1) (fun o ho => ?_) (leaf_chain hm hF h2 hd hn x)
  obtain ⟨o, p⟩ := o
  rcases o with _ | ⟨b, i, j⟩
  · obtain ⟨z, c⟩ := x
    obtain ⟨h1, h3⟩ := alterCluster_step hm hs hx.2 false hx.1
    exact opIn_ofRand h1 (φ := fun z => (z, c)) (fun p hp _ => (show (p.1, c) ∈ Live0 m from ⟨alter_stays hx.1 hp, hx.2⟩)) h3
  · obtain ⟨o, -, ⟨q1, q2⟩, hq, e1, -⟩ := mem_bind ho
    have e : some ⟨b, i, j⟩ = q1 := e1
    subst e
    obtain ⟨hi, hj, hij⟩ := mem_leafOf hq
    exact pair_on hm hs (rowPrec_nonneg b) (pairOk_row hi hj hij) hx

theorem chain0_rep (hm : WellPosed m) (hs : m.cfg.sampleSource = false) (hF : 0 < F)
    (h2 : ∀ f, ∃ s s', s ≠ s' ∧ m.cfg.app f s = true ∧ m.cfg.app f s' = true) {ops : List (OpKind M × ℝ)} (hd : IsDist ops)
    (hn : ∀ o ∈ ops, NoSource o.1) :
    ∃ κ : ProbabilityTheory.Kernel (Clus K N × Cont K F S M nG) (Clus K N × Cont K F S M nG),
      ProbabilityTheory.IsMarkovKernel κ ∧ RepOn (Live0 m) (chainStep (post0 m) (propose0 m) ops) κ :=
  exists_kernel_on (live0_meas m) (fun g hg => (keeps_chain0 hm hs hF h2 hd hn g hg).1) (fun _ hx => (chain0_on hm hs hF h2 hd hn hx).mass)
    (fun _ hx => (chain0_on hm hs hF h2 hd hn hx).meas) (fun _ hx => (chain0_on hm hs hF h2 hd hn hx).stay) fun _ hx => (chain0_on hm hs hF h2 hd hn hx).loc

theorem chain0_noEscape (hm : WellPosed m) (hs : m.cfg.sampleSource = false) (hF : 0 < F)
    (h2 : ∀ f, ∃ s s', s ≠ s' ∧ m.cfg.app f s = true ∧ m.cfg.app f s' = true) {ops : List (OpKind M × ℝ)} (hd : IsDist ops)
    (hn : ∀ o ∈ ops, NoSource o.1)
    (hw : ∃ p, 0 < p ∧ (OpKind.weights, p) ∈ ops) (he : ∃ p, 0 < p ∧ (OpKind.clusterEffect, p) ∈ ops)
    (hce : ∀ a, ∃ p, 0 < p ∧ (OpKind.confounding a, p) ∈ ops)
    {κ : ProbabilityTheory.Kernel (Clus K N × Cont K F S M nG) (Clus K N × Cont K F S M nG)}
    (hR : RepOn (Live0 m) (chainStep (post0 m) (propose0 m) ops) κ) : NoEscape (target m id (post0 m)) (Live0 m) κ := by
  intro s hsm hs1 hsub h0 x hx
  have hP : IsProbabilityMeasure (contRef m.cfg.app : Measure (Cont K F S M nG)) := contRef_prob hm.hasState
  have hint : ∀ᵐ c ∂(contRef m.cfg.app : Measure (Cont K F S M nG)), c ∈ (contRows m.cfg.app hm.hasState).Int :=
    (interior_ae hm.hasState).mono fun c hc => mem_int.mpr hc
  refine rows_zero (pairChain hm hs hF h2 hd hw he hce) hsm hs1 (fun z hz c hc => ?_) (fun b h hh => rows_refresh b h hh) hint
    ((ae_target0 hm hs).mp h0) x.1 hx.1 x.2 (mem_int.mpr hx.2)
  have hl : (z, c) ∈ Live0 m := ⟨hz, mem_int.mp hc⟩
  refine (hsub (z, c) hl).trans_eq ?_
  rw [← hR.rep (z, c) hl s s hsm fun _ _ => rfl]
  exact leaf_chain hm hF h2 hd hn (z, c) s

end SBayes.Meas
