import Verif.Spec.Run
import Verif.Props.Init
import Verif.Props.Source
import Verif.Props.Effects
/- Theorem C54: invariants of whole runs. -/
namespace SBayes.Run
open SBayes.Lik SBayes.Clusters SBayes.MH SBayes.Source SBayes.Effects SBayes.Init
open scoped BigOperators
variable {K N F S M : ℕ} {nG : Fin M → ℕ}

theorem EffectMove.toEStep {G : ℕ} {app : Fin F → Fin S → Bool} {e e' : Fin G → Fin F → Fin S → ℝ}
    (he : ∀ g f, EffectOn (app f) (e g f) ∧ ∀ x, app f x = true → 0 < e g f x) (h : EffectMove app e e') :
    EStep app e e' := by
  cases h with
  | alter prec g f i j t hij hi hj ht =>
    exact .alter prec g f i j t hij hi hj ⟨fun k => (ht.1 k).le, ht.2⟩ (add_pos ((he g f).2 i hi) ((he g f).2 j hj)).ne'
  | gibbs g draw hd => exact .gibbs g draw fun f => ⟨fun s hs => ((hd f).1 s hs).le, (hd f).2⟩

theorem EffectMove.keeps {G : ℕ} {app : Fin F → Fin S → Bool} {e e' : Fin G → Fin F → Fin S → ℝ}
    (he : ∀ g f, EffectOn (app f) (e g f) ∧ ∀ x, app f x = true → 0 < e g f x) (h : EffectMove app e e') :
    ∀ g f, EffectOn (app f) (e' g f) ∧ ∀ x, app f x = true → 0 < e' g f x := by
  intro g' f'
  refine ⟨C25_effects_stay_distributions app e e' (.single (h.toEStep he)) (fun g f => (he g f).1) g' f', ?_⟩
  intro x hx
  cases h with
  | alter prec g f i j t hij hi hj ht =>
    by_cases hgf : g' = g ∧ f' = f
    · obtain ⟨rfl, rfl⟩ := hgf
      have h0 : (alterEffect prec e g' f' i j t).new g' f' = (alterPair prec (e g' f') i j t).new := by
        simp [alterEffect]
      rw [h0, alterPair_new]
      have hsum : 0 < e g' f' i + e g' f' j := add_pos ((he g' f').2 i hi) ((he g' f').2 j hj)
      simp only [Function.update_apply]
      split
      · exact mul_pos (ht.1 1) hsum
      · split
        · exact mul_pos (ht.1 0) hsum
        · exact (he g' f').2 x hx
    · have := (C25_two_states_change prec e g f i j hij t ⟨fun k => (ht.1 k).le, ht.2⟩).1 g' f' x (by tauto)
      rw [this]
      exact (he g' f').2 x hx
  | gibbs g draw hd =>
    unfold writeEffect
    by_cases hg : g' = g
    · subst hg
      rw [Function.update_self, if_pos hx]
      exact (hd f').1 x (by simp [states, hx])
    · rw [Function.update_of_ne hg]
      exact (he g' f').2 x hx

theorem WellFormed.positive {u : Setup N F S M nG} (hu : GoodSetup u) {s : St K N F S M nG}
    (hw : ∀ f, OpenSimplex (s.weights f))
    (hce : ∀ k f, EffectOn (u.app f) (s.clusterEffect k f) ∧ ∀ x, u.app f x = true → 0 < s.clusterEffect k f x)
    (hfe : ∀ c g f, EffectOn (u.app f) (s.confEffect c g f) ∧ ∀ x, u.app f x = true → 0 < s.confEffect c g f x) :
    PositiveModel u.data s.weights s.clusterEffect s.confEffect where
  weights f c := (hw f).1 c
  onehot := hu.onehot
  cluster k n f x hx := (hce k f).2 x (hu.observable.observed n f x ((hx x).mpr rfl))
  conf c g n f x _ hx := (hfe c g f).2 x (hu.observable.observed n f x ((hx x).mpr rfl))
  disjoint := hu.disjoint
  covered := hu.covered

theorem moveCluster_wf {u : Setup N F S M nG} (hu : GoodSetup u) {s : St K N F S M nG} (hs : WellFormed u s)
    {cl : Clus K N} (hcl : Valid u.cfg.minSize u.cfg.maxSize cl) {z : Fin N → Fin F → ℝ} (hz : Unit01 z) :
    WellFormed u (moveCluster u.data u.fromPrior cl z s) := by
  have hpos := WellFormed.positive hu hs.weights hs.clusterEffect hs.confEffect
  have hrows := resample_rows u.fromPrior (d := u.data) (s := { s with clusters := cl }) ⟨hcl.disjoint, hpos⟩
    (fun n => decide (n ∈ changed s.clusters cl)) hz (by
      intro n f hn
      have hn' : n ∉ changed s.clusters cl := by simpa using hn
      obtain ⟨c, h1, h2, h3⟩ := hs.source n f
      refine ⟨c, h1, fun hc => ?_, h3⟩
      obtain ⟨k, hk⟩ := h2 hc
      refine ⟨k, ?_⟩
      show cl k n = true
      by_contra hne
      exact hn' (mem_changed.mpr ⟨k, fun e => hne (by rw [← e]; exact hk)⟩))
  refine ⟨?_, ?_, ?_, ?_, hrows.2⟩ <;> unfold moveCluster <;> cases u.fromPrior
  · exact hcl
  · exact hcl
  · exact hs.weights
  · exact hs.weights
  · exact hs.clusterEffect
  · exact hs.clusterEffect
  · exact hs.confEffect
  · exact hs.confEffect

theorem resample_wf {u : Setup N F S M nG} (hu : GoodSetup u) {s : St K N F S M nG}
    (hcl : Valid u.cfg.minSize u.cfg.maxSize s.clusters) (hw : ∀ f, OpenSimplex (s.weights f))
    (hce : ∀ k f, EffectOn (u.app f) (s.clusterEffect k f) ∧ ∀ x, u.app f x = true → 0 < s.clusterEffect k f x)
    (hfe : ∀ c g f, EffectOn (u.app f) (s.confEffect c g f) ∧ ∀ x, u.app f x = true → 0 < s.confEffect c g f x)
    (subset : Fin N → Bool) {z : Fin N → Fin F → ℝ} (hz : Unit01 z)
    (hold : ∀ n f, subset n = false → rowOK u.data s.clusters (s.source n f) n) :
    WellFormed u (if u.fromPrior then resampleSourcePrior u.data subset z s else resampleSource u.data subset z s) := by
  have hpos := WellFormed.positive hu hw hce hfe
  have hrows := resample_rows u.fromPrior (d := u.data) ⟨hcl.disjoint, hpos⟩ subset hz hold
  refine ⟨?_, ?_, ?_, ?_, hrows.2⟩ <;> cases u.fromPrior
  · exact hcl
  · exact hcl
  · exact hw
  · exact hw
  · exact hce
  · exact hce
  · exact hfe
  · exact hfe

/-- **C54.** Every state of every run -- initialisation, then any sequence of moves of any of the operators
with any draws, accepted or rejected -- is well-formed: clusters disjoint with sizes within the bounds, weights
and effects positive distributions (effects only on applicable states), and each observation attributed to
exactly one component that applies to the object. -/
theorem C54_states_of_a_run_are_well_formed (u : Setup N F S M nG) (hu : GoodSetup u) (s : St K N F S M nG)
    (h : Reachable u s) : WellFormed u s := by
  induction h with
  | init rnd cl garbage z hcl hz =>
    have hv := C30_initial_clusters_valid u.cfg.adj hu.symmetric rnd u.initialSize u.cfg.minSize u.cfg.maxSize
      hu.size_pos hu.lower hu.upper cl hcl
    have hw := (C31_initial_weights (F := F) (C := M) none (by simp)).1
    have he := C31_initial_effects (K := K) (m := 0) u.data.features u.app hu.observable (fun k => k.elim0)
      (fun k => k.elim0) cl (G := 0) none (by simp) (fun g => g.elim0)
    have hf := fun c => (C31_initial_effects (K := K) (m := 0) u.data.features u.app hu.observable (fun k => k.elim0)
      (fun k => k.elim0) cl none (by simp) (u.data.confGroups c)).2.1
    unfold initialSample
    exact resample_wf hu (s := ⟨cl, garbage, initialWeights none, _, _⟩) hv hw he.1 hf (fun _ => true) hz (by simp)
  | step s t _ hst ih =>
    cases hst with
    | rejected => exact ih
    | alterCluster r w z hz hr hw hb =>
      rcases C16_alterCluster_keeps_constraints u.cfg s.clusters ih.clusters r w hr with ⟨-, h0⟩ | ⟨hv, -⟩
      · exact absurd h0 hb
      · exact moveCluster_wf hu ih hv hz
    | gibbsish r w z hz hr hw hb =>
      rcases C16_gibbsish_keeps_constraints u.cfg _ s.clusters ih.clusters r w hr hw with ⟨-, h0⟩ | ⟨hv, -⟩
      · exact absurd h0 hb
      · exact moveCluster_wf hu ih hv hz
    | gibbsish2 r w z hz hr hw hb =>
      rcases C16_gibbsish2_keeps_constraints u.cfg _ s.clusters ih.clusters r w hr with ⟨-, h0⟩ | ⟨hv, -⟩
      · exact absurd h0 hb
      · exact moveCluster_wf hu ih hv hz
    | source subset z hz =>
      exact resample_wf hu ih.clusters ih.weights ih.clusterEffect ih.confEffect subset hz fun n f _ => ih.source n f
    | weights w hw =>
      exact ⟨ih.clusters, fun f => (C24_weights_stay_positive s.weights w (.single hw) ih.weights f).1,
        ih.clusterEffect, ih.confEffect, ih.source⟩
    | clusterEffect e he =>
      exact ⟨ih.clusters, ih.weights, he.keeps ih.clusterEffect, ih.confEffect, ih.source⟩
    | confEffect c e he =>
      refine ⟨ih.clusters, ih.weights, ih.clusterEffect, fun c' => ?_, ih.source⟩
      by_cases hc : c' = c
      · subst hc
        simp only [Function.update_self]
        exact he.keeps (ih.confEffect c')
      · simp only [Function.update_of_ne hc]
        exact ih.confEffect c'

/-- The component likelihood is positive for components that apply to the object. -/
theorem component_pos {u : Setup N F S M nG} (hu : GoodSetup u) {s : St K N F S M nG} (hs : WellFormed u s)
    (b : Bool) (clO : List (Fin K)) (hcl : VisitsAll clO) (cfO : (c : Fin M) → List (Fin (nG c)))
    (hcf : ∀ c, VisitsAll (cfO c)) (buf : Fin N → Fin F → Fin (M + 1) → ℝ) (n : Fin N) (f : Fin F) (c : Fin (M + 1)) :
    0 ≤ updateComponents u.data (params b s) clO cfO buf n f c ∧
    (hasComponents u.data s.clusters n c = true → 0 < updateComponents u.data (params b s) clO cfO buf n f c) := by
  have key : ∀ {G : ℕ} (probs : Fin G → Fin F → Fin S → ℝ) (groups : Fin G → Fin N → Bool) (v : Fin N → Fin F → ℝ),
      (∀ g f x, u.app f x = true → 0 < probs g f x) → IsComponentLh u.data.features probs groups v →
      0 ≤ v n f ∧ (anyGroup groups n = true → 0 < v n f) := by
    intro G probs groups v hp hv
    rcases hu.onehot n f with hm | ⟨x, hx⟩
    · rw [hv.missing n f hm]; exact ⟨zero_le_one, fun _ => zero_lt_one⟩
    · have happ := hu.observable.observed n f x ((hx x).mpr rfl)
      by_cases hg : ∃ g, groups g n = true
      · obtain ⟨g, hg⟩ := hg
        rw [hv.member n f x g hx hg]
        exact ⟨(hp g f x happ).le, fun _ => hp g f x happ⟩
      · have hout : ∀ g, groups g n = false := by
          intro g
          by_contra h
          exact hg ⟨g, by simpa using h⟩
        rw [hv.outside n f x hx hout]
        refine ⟨le_rfl, fun h => ?_⟩
        exact absurd (anyGroup_iff.mp h) hg
  refine Fin.cases ?_ (fun c => ?_) c
  · exact key _ _ _ (fun g f x hx => (hs.clusterEffect g f).2 x hx)
      (C09_component_likelihood_is_specified u.data.features s.clusterEffect s.clusters hs.clusters.disjoint clO hcl
        (fun n f => buf n f 0))
  · exact key _ _ _ (fun g f x hx => (hs.confEffect c g f).2 x hx)
      (C09_component_likelihood_is_specified u.data.features (s.confEffect c) (u.data.confGroups c) (hu.disjoint c)
        (cfO c) (hcf c) (fun n f => buf n f c.succ))

/-- **C54.** In every state of every run the likelihood of every observation and the prior weight of every source
are positive: neither the log-likelihood nor the source prior is ever `-inf` or undefined. -/
theorem C54_likelihood_is_positive (u : Setup N F S M nG) (hu : GoodSetup u) (s : St K N F S M nG)
    (h : Reachable u s) (sampleSource : Bool) (clO : List (Fin K)) (hcl : VisitsAll clO)
    (cfO : (c : Fin M) → List (Fin (nG c))) (hcf : ∀ c, VisitsAll (cfO c)) (buf : Fin N → Fin F → Fin (M + 1) → ℝ) :
    (∀ x ∈ freshObservationLhs u.data (params sampleSource s) clO cfO buf, 0 < x) ∧
    0 < likelihood (freshObservationLhs u.data (params sampleSource s) clO cfO buf) ∧
    ∀ x ∈ sourceWeights (normalizeWeights s.weights (hasComponents u.data s.clusters)) s.source, 0 < x := by
  have hs := C54_states_of_a_run_are_well_formed u hu s h
  have hwpos : ∀ n f c, hasComponents u.data s.clusters n c = true →
      0 < normalizeWeights s.weights (hasComponents u.data s.clusters) n f c := by
    intro n f c hc
    unfold normalizeWeights
    have h1 : 0 < s.weights f c * b2n ℝ (hasComponents u.data s.clusters n c) := by
      rw [hc]; simpa [b2n] using (hs.weights f).1 c
    refine div_pos h1 (Finset.sum_pos' (fun c' _ => ?_) ⟨c, Finset.mem_univ _, h1⟩)
    exact mul_nonneg ((hs.weights f).1 c').le (by unfold b2n; split <;> norm_num)
  have hw0 : ∀ n f c, 0 ≤ normalizeWeights s.weights (hasComponents u.data s.clusters) n f c := by
    intro n f c
    unfold normalizeWeights
    have h0 : ∀ c', 0 ≤ s.weights f c' * b2n ℝ (hasComponents u.data s.clusters n c') := fun c' =>
      mul_nonneg ((hs.weights f).1 c').le (by unfold b2n; split <;> norm_num)
    exact div_nonneg (h0 c) (Finset.sum_nonneg fun c' _ => h0 c')
  have hsrc : ∀ n f c, s.source n f c = true → hasComponents u.data s.clusters n c = true := by
    intro n f c hc
    obtain ⟨c0, h1, h2, h3⟩ := hs.source n f
    have := (h1 c).mp hc
    subst this
    revert h2 h3
    refine Fin.cases (fun h2 _ => ?_) (fun j _ h3 => ?_) c
    · obtain ⟨k, hk⟩ := h2 rfl
      exact anyGroup_iff.mpr ⟨k, hk⟩
    · obtain ⟨g, hg⟩ := h3 j rfl
      exact anyGroup_iff.mpr ⟨g, hg⟩
  have hobs : ∀ x ∈ freshObservationLhs u.data (params sampleSource s) clO cfO buf, 0 < x := by
    intro x hx
    unfold freshObservationLhs at hx
    cases sampleSource with
    | true =>
      simp only [params, if_true, observationLhs, List.mem_map, List.mem_filter] at hx
      obtain ⟨t, ⟨-, ht⟩, rfl⟩ := hx
      exact (component_pos hu hs true clO hcl cfO hcf buf t.1 t.2.1 t.2.2).2 (hsrc _ _ _ ht)
    | false =>
      simp only [params, Bool.false_eq_true, if_false, observationLhs, List.mem_flatMap, List.mem_map] at hx
      obtain ⟨n, -, f, -, rfl⟩ := hx
      obtain ⟨c, g, hg⟩ := hu.covered n
      have hc : hasComponents u.data s.clusters n c.succ = true := anyGroup_iff.mpr ⟨g, hg⟩
      refine Finset.sum_pos' (fun c' _ => mul_nonneg (hw0 n f c') ?_) ⟨c.succ, Finset.mem_univ _, mul_pos (hwpos n f _ hc) ?_⟩
      · exact (component_pos hu hs false clO hcl cfO hcf buf n f c').1
      · exact (component_pos hu hs false clO hcl cfO hcf buf n f c.succ).2 hc
  refine ⟨hobs, List.prod_pos hobs, ?_⟩
  intro x hx
  simp only [sourceWeights, List.mem_map, List.mem_filter] at hx
  obtain ⟨t, ⟨-, ht⟩, rfl⟩ := hx
  exact hwpos _ _ _ (hsrc _ _ _ ht)

/-- Three objects on a path, one feature with two states, one observation missing, one confounder whose only
group contains everybody, clusters of one or two objects. -/
noncomputable def exSetup : Setup 3 1 2 1 (fun _ => 1) :=
  ⟨⟨![![![true, false]], ![![false, true]], ![![false, false]]], fun _ _ _ => true⟩, fun _ _ => true,
    ⟨1, 2, fun i j => i.val + 1 == j.val || j.val + 1 == i.val, 1 / 2⟩, 2, false⟩

theorem exSetup_good : GoodSetup exSetup where
  onehot := by
    show ∀ n f, (∀ s, exSetup.data.features n f s = false) ∨ ∃ s, ∀ s', exSetup.data.features n f s' = true ↔ s' = s
    decide
  observable := ⟨fun _ _ _ _ => rfl, fun _ => ⟨0, rfl⟩⟩
  disjoint c i j n _ _ := Subsingleton.elim i j
  covered n := ⟨0, 0, rfl⟩
  symmetric := by decide
  size_pos := by decide
  lower := by decide
  upper := by decide

/-- There are runs: a reachable state, and one that differs from the initial state in its weights. -/
example : ∃ s t : St 1 3 1 2 1 (fun _ => 1), Reachable exSetup s ∧ Reachable exSetup t ∧ s.weights ≠ t.weights := by
  obtain ⟨cl, hcl, -⟩ := exInit
  have h := Reachable.init (u := exSetup) (fun _ => 0) cl (fun _ _ _ => true) (fun _ _ => 1 / 2) hcl
    (fun _ _ => by norm_num)
  set s := initialSample exSetup cl (fun _ _ _ => true) (fun _ _ => 1 / 2)
  have hw : s.weights = fun _ _ => 1 / 2 := by
    funext f c
    show initialWeights none f c = _
    simp [initialWeights, Effects.normalize]
  refine ⟨s, _, h, .step _ _ h (.weights s _ (.alter 0 0 1 ![1/3, 2/3] (by decide) ⟨?_, ?_⟩)), ?_⟩
  · intro k; fin_cases k <;> norm_num
  · rw [Fin.sum_univ_two]; norm_num
  · intro e
    have := congrFun (congrFun e 0) 0
    simp [hw, alterWeights, alterPair, dirichletProposal] at this
    norm_num at this

end SBayes.Run
