import Verif.Lemmas.ClusterSource
import Verif.Props.MH
import Mathlib.Tactic.FinCases
/- Theorems C16, C17, C18, C20, C45, C50: the cluster operators. -/
namespace SBayes.Clusters
open SBayes.Lik SBayes.MH
variable {K N F S M C : ℕ} {nG : Fin M → ℕ}

/-! ### C16: constraints -/

theorem OneMembershipChanged.toOneCluster {x y : Clus K N} (h : OneMembershipChanged x y) :
    OneClusterChanged x y := by
  obtain ⟨z, o, -, h2, h3⟩ := h
  refine ⟨z, fun k n hk => h2 k n fun e => hk e.1, fun k n hk hx => h2 z n fun e => ?_⟩
  rw [e.2, h3 k hk] at hx; cases hx

/-- **C16** for `AlterCluster`: every result is a rejection with the unchanged sample, or changes
exactly one membership of an object in no other cluster and satisfies all constraints. -/
theorem C16_alterCluster_keeps_constraints (cfg : Cfg N) (cl : Clus K N)
    (hv : Valid cfg.minSize cfg.maxSize cl) (r : Result (Clus K N)) (w : ℝ)
    (hr : (r, w) ∈ alterCluster cfg cl) :
    (r.new = cl ∧ r.qBack = 0) ∨
      (Valid cfg.minSize cfg.maxSize r.new ∧ OneMembershipChanged cl r.new) := by
  rcases alterCluster_cases hr with rfl | ⟨z, o, hf, hs, rfl⟩ | ⟨z, o, hz, hs, rfl⟩
  · exact Or.inl ⟨rfl, rfl⟩
  · exact Or.inr ⟨valid_add hv hf hs, changed_add hv hf⟩
  · exact Or.inr ⟨valid_remove hv hz hs, changed_remove hv hz⟩

/-- **C16** for `AlterClusterGibbsish` (outcomes of positive probability). -/
theorem C16_gibbsish_keeps_constraints (cfg : Cfg N) (post : Clus K N → Fin K → Fin N → ℝ)
    (cl : Clus K N) (hv : Valid cfg.minSize cfg.maxSize cl) (r : Result (Clus K N)) (w : ℝ)
    (hr : (r, w) ∈ gibbsish cfg post cl) (hw : w ≠ 0) :
    (r.new = cl ∧ r.qBack = 0) ∨
      (Valid cfg.minSize cfg.maxSize r.new ∧ OneMembershipChanged cl r.new) := by
  rcases gibbsish_cases hr with rfl | ⟨z, o, hf, hs, rfl⟩ | ⟨z, o, hz, hs, rfl⟩
  · exact Or.inl ⟨rfl, rfl⟩
  · have hf := free_of_pAdd (hf hw)
    exact Or.inr ⟨valid_add hv hf (by have := hv.upper z; omega), changed_add hv hf⟩
  · have hz := mem_of_pRemove (hz hw)
    exact Or.inr ⟨valid_remove hv hz (by have := hv.lower z; omega), changed_remove hv hz⟩

/-- **C16** for `AlterClusterGibbsish2`: one cluster is redrawn among the objects that are in no other
cluster. -/
theorem C16_gibbsish2_keeps_constraints (cfg : Cfg N) (post : Clus K N → Fin K → Fin N → ℝ)
    (cl : Clus K N) (hv : Valid cfg.minSize cfg.maxSize cl) (r : Result (Clus K N)) (w : ℝ)
    (hr : (r, w) ∈ gibbsish2 cfg post cl) :
    (r.new = cl ∧ r.qBack = 0) ∨
      (Valid cfg.minSize cfg.maxSize r.new ∧ OneClusterChanged cl r.new ∧ r.new ≠ cl) := by
  rcases gibbsish2_cases hr with rfl | ⟨z, v, hav, h1, h2, ⟨n, hn, hn'⟩, rfl⟩
  · exact Or.inl ⟨rfl, rfl⟩
  · refine Or.inr ⟨valid_redraw hv hav h1 h2, ⟨z, fun k n hk => ?_, fun k m hk hm => ?_⟩, ?_⟩
    · exact congrFun (redraw_other hk) n
    · dsimp only
      unfold redraw
      rw [if_neg]
      rintro ⟨-, ha⟩
      rw [available_other hv hk ha] at hm; cases hm
    · intro e
      apply hn'
      have := congrFun e z
      dsimp only at this
      rw [redraw_row hav] at this
      rw [this]

/-! ### C17, C18: AlterCluster -/

/-- **C17.** The reported forward and backward probabilities of `AlterCluster` are the real ones: the
total probability of all draws leading to the proposed clusters, and of all draws leading back, both
without the common factor 1/2 (grow or shrink) times 1/K (which cluster). -/
theorem C17_alterCluster_reports_real_masses (cfg : Cfg N) :
    ReportsRealMasses (Valid cfg.minSize cfg.maxSize) (alterCluster (K := K) cfg) (1 / (2 * (K : ℝ))) :=
  alterCluster_reports cfg

/-- **C18.** `AlterCluster` followed by the acceptance step is in detailed balance with every positive
target on the constrained clusters. -/
theorem C18_alterCluster_detailed_balance (cfg : Cfg N) (hK : 0 < K) (h0 : 0 ≤ cfg.pConn)
    (h1 : cfg.pConn ≤ 1) (post : Clus K N → ℝ)
    (hpost : ∀ x, Valid cfg.minSize cfg.maxSize x → 0 < post x) :
    DetailedBalance (Valid cfg.minSize cfg.maxSize) post (alterCluster cfg) :=
  C19_real_masses_give_detailed_balance _ _ _ (by positivity)
    (fun x _ => alterCluster_isDist cfg hK h0 h1 x) (alterCluster_reports cfg) post hpost

open Classical in
/-- **C18**, consequence: the target restricted to the constrained clusters is stationary. -/
theorem C18_alterCluster_stationary (cfg : Cfg N) (hK : 0 < K) (h0 : 0 ≤ cfg.pConn)
    (h1 : cfg.pConn ≤ 1) (post : Clus K N → ℝ)
    (hpost : ∀ x, Valid cfg.minSize cfg.maxSize x → 0 < post x) (y : Clus K N)
    (hy : Valid cfg.minSize cfg.maxSize y) :
    ∑ x with Valid cfg.minSize cfg.maxSize x, post x * stepMass post (alterCluster cfg) x y = post y := by
  refine C19_posterior_is_stationary _ (alterCluster cfg) (1 / (2 * (K : ℝ))) (by positivity)
    (fun x _ => alterCluster_isDist cfg hK h0 h1 x) ?_ post (fun x hx => hpost x (by simpa using hx)) y
    (by simpa using hy)
  intro x hx r w hr hw hne
  have := alterCluster_reports cfg x (by simpa using hx) r w hr hw hne
  simpa using this

/-! ### C20: the Gibbs-ish operators -/

/-- **C20**, ingredient: the inclusion probability `compute_cluster_posterior` computes does not depend
on the current clusters (in particular it is the same before and after the move) and is strictly
between 0 and 1. -/
theorem C20_cluster_posterior_is_the_same_both_ways {d : ModelData N F S M nG}
    {w : Fin F → Fin (M + 1) → ℝ} {ce : Fin K → Fin F → Fin S → ℝ}
    {fe : (c : Fin M) → Fin (nG c) → Fin F → Fin S → ℝ} (hm : PositiveModel d w ce fe)
    (x y : Clus K N) (z : Fin K) (n : Fin N) :
    clusterPosterior d w ce fe x z n = clusterPosterior d w ce fe y z n ∧
      0 < clusterPosterior d w ce fe x z n ∧ clusterPosterior d w ce fe x z n < 1 :=
  ⟨(clusterPosterior_good hm).indep x y z n, (clusterPosterior_good hm).pos x z n,
    (clusterPosterior_good hm).lt_one x z n⟩

/-- **C20** for `AlterClusterGibbsish`. -/
theorem C20_gibbsish_reports_real_masses (cfg : Cfg N) (d : ModelData N F S M nG)
    (w : Fin F → Fin (M + 1) → ℝ) (ce : Fin K → Fin F → Fin S → ℝ)
    (fe : (c : Fin M) → Fin (nG c) → Fin F → Fin S → ℝ) :
    ReportsRealMasses (Valid cfg.minSize cfg.maxSize) (gibbsish cfg (clusterPosterior d w ce fe))
      (1 / (2 * (K : ℝ))) :=
  gibbsish_reports cfg fun x y z n => by rw [clusterPosterior_eq, clusterPosterior_eq]

/-- **C20** for `AlterClusterGibbsish2`. -/
theorem C20_gibbsish2_reports_real_masses (cfg : Cfg N) (d : ModelData N F S M nG)
    (w : Fin F → Fin (M + 1) → ℝ) (ce : Fin K → Fin F → Fin S → ℝ)
    (fe : (c : Fin M) → Fin (nG c) → Fin F → Fin S → ℝ) :
    ReportsRealMasses (Valid cfg.minSize cfg.maxSize) (gibbsish2 cfg (clusterPosterior d w ce fe))
      (1 / (K : ℝ)) :=
  gibbsish2_reports cfg fun x y z n => by rw [clusterPosterior_eq, clusterPosterior_eq]

/-- **C20**: the same with `sample_from_prior`, where the inclusion probability is 0.5. -/
theorem C20_gibbsish_reports_real_masses_from_prior (cfg : Cfg N) :
    ReportsRealMasses (Valid cfg.minSize cfg.maxSize)
        (gibbsish cfg fun (_ : Clus K N) _ _ => (1 / 2 : ℝ)) (1 / (2 * (K : ℝ))) ∧
      ReportsRealMasses (Valid cfg.minSize cfg.maxSize)
        (gibbsish2 cfg fun (_ : Clus K N) _ _ => (1 / 2 : ℝ)) (1 / (K : ℝ)) :=
  ⟨gibbsish_reports cfg fun _ _ _ _ => rfl, gibbsish2_reports cfg fun _ _ _ _ => rfl⟩

/-- **C20**, consequence: both Gibbs-ish operators are reversible. -/
theorem C20_gibbsish_detailed_balance (cfg : Cfg N) (hK : 0 < K) {d : ModelData N F S M nG}
    {w : Fin F → Fin (M + 1) → ℝ} {ce : Fin K → Fin F → Fin S → ℝ}
    {fe : (c : Fin M) → Fin (nG c) → Fin F → Fin S → ℝ} (hm : PositiveModel d w ce fe)
    (post : Clus K N → ℝ) (hpost : ∀ x, Valid cfg.minSize cfg.maxSize x → 0 < post x) :
    DetailedBalance (Valid cfg.minSize cfg.maxSize) post (gibbsish cfg (clusterPosterior d w ce fe)) ∧
    DetailedBalance (Valid cfg.minSize cfg.maxSize) post (gibbsish2 cfg (clusterPosterior d w ce fe)) :=
  ⟨C19_real_masses_give_detailed_balance _ _ _ (by positivity)
      (fun x hx => gibbsish_isDist cfg (clusterPosterior_good hm) hK x hx)
      (C20_gibbsish_reports_real_masses cfg d w ce fe) post hpost,
    C19_real_masses_give_detailed_balance _ _ _ (by positivity)
      (fun x _ => gibbsish2_isDist cfg (fun x z n => ((clusterPosterior_good hm).pos x z n).le)
        (fun x z n => ((clusterPosterior_good hm).lt_one x z n).le) hK x)
      (C20_gibbsish2_reports_real_masses cfg d w ce fe) post hpost⟩

/-! ### C50: with source resampling -/

/-- **C50**, ingredient: the distribution from which sources are redrawn is a distribution over the
components and depends on the clusters only through the memberships of the object itself. -/
theorem C50_source_posterior_is_a_local_law {d : ModelData N F S M nG} {w : Fin F → Fin (M + 1) → ℝ}
    {ce : Fin K → Fin F → Fin S → ℝ} {fe : (c : Fin M) → Fin (nG c) → Fin F → Fin S → ℝ}
    (hm : PositiveModel d w ce fe) (lo hi : ℕ) :
    SourceLaw (Valid lo hi) (sourcePosterior d w ce fe) := sourcePosterior_law hm lo hi

/-- **C50.** If a cluster operator reports the real probabilities, it still does so when the sources
of the changed objects are redrawn, for every source law. -/
theorem C50_resampling_sources_keeps_masses_real {V : Clus K N → Prop}
    {p : Clus K N → Fin N → Fin F → Fin C → ℝ} (hp : SourceLaw V p)
    {op : Clus K N → Rand (Result (Clus K N))} {c : ℝ} (hop : ReportsRealMasses V op c) :
    ReportsRealMasses (Possible V p) (withSource p op) c := withSource_reports hp hop

/-- **C50**, consequence: each of the three cluster operators with source resampling is in detailed
balance with every positive target on (clusters, sources). -/
theorem C50_cluster_operators_with_sources_detailed_balance (cfg : Cfg N) (hK : 0 < K)
    (h0 : 0 ≤ cfg.pConn) (h1 : cfg.pConn ≤ 1) {d : ModelData N F S M nG}
    {w : Fin F → Fin (M + 1) → ℝ} {ce : Fin K → Fin F → Fin S → ℝ}
    {fe : (c : Fin M) → Fin (nG c) → Fin F → Fin S → ℝ} (hm : PositiveModel d w ce fe)
    (post : Clus K N × (Fin N × Fin F → Fin (M + 1)) → ℝ)
    (hpost : ∀ x, Possible (Valid cfg.minSize cfg.maxSize) (sourcePosterior d w ce fe) x → 0 < post x)
    (op : Clus K N → Rand (Result (Clus K N)))
    (hop : op = alterCluster cfg ∨ op = gibbsish cfg (clusterPosterior d w ce fe) ∨
      op = gibbsish2 cfg (clusterPosterior d w ce fe)) :
    DetailedBalance (Possible (Valid cfg.minSize cfg.maxSize) (sourcePosterior d w ce fe)) post
      (withSource (sourcePosterior d w ce fe) op) := by
  have hlaw := sourcePosterior_law hm cfg.minSize cfg.maxSize
  have key : ∀ (c : ℝ), 0 < c → ReportsRealMasses (Valid cfg.minSize cfg.maxSize) op c →
      (∀ x, Valid cfg.minSize cfg.maxSize x → IsDist (op x)) →
      DetailedBalance (Possible (Valid cfg.minSize cfg.maxSize) (sourcePosterior d w ce fe)) post
        (withSource (sourcePosterior d w ce fe) op) := fun c hc hr hd =>
    C19_real_masses_give_detailed_balance _ _ c hc
      (fun x hx => withSource_isDist hlaw (fun x hx r w hr' hw hne => (hr x hx r w hr' hw hne).1) hd x hx.1)
      (withSource_reports hlaw hr) post hpost
  have hgood := clusterPosterior_good hm
  rcases hop with rfl | rfl | rfl
  · exact key _ (by positivity) (alterCluster_reports cfg) fun x _ => alterCluster_isDist cfg hK h0 h1 x
  · exact key _ (by positivity) (C20_gibbsish_reports_real_masses cfg d w ce fe)
      fun x hx => gibbsish_isDist cfg hgood hK x hx
  · exact key _ (by positivity) (C20_gibbsish2_reports_real_masses cfg d w ce fe)
      fun x _ => gibbsish2_isDist cfg (fun x z n => (hgood.pos x z n).le)
        (fun x z n => (hgood.lt_one x z n).le) hK x

/-- Every valid clustering has sources of positive probability, so `Possible` is not empty. -/
theorem C50_every_clustering_has_possible_sources {V : Clus K N → Prop}
    {p : Clus K N → Fin N → Fin F → Fin C → ℝ} (hp : SourceLaw V p) (x : Clus K N) (hx : V x) :
    ∃ s, Possible V p (x, s) := by
  have : ∀ i : Fin N × Fin F, ∃ c, p x i.1 i.2 c ≠ 0 := by
    intro i
    by_contra h
    push Not at h
    have := hp.sum_one x hx i.1 i.2
    rw [Finset.sum_eq_zero fun c _ => h c] at this
    exact zero_ne_one this
  choose s hs using this
  exact ⟨s, hx, fun n f => hs (n, f)⟩

/-! ### C45 -/

/-- **C45.** `get_neighbours` returns exactly the unoccupied objects adjacent to a member. -/
theorem C45_get_neighbours (cluster occupied : Fin N → Bool) (adj : Fin N → Fin N → Bool) (n : Fin N) :
    getNeighbours cluster occupied adj n = true ↔
      occupied n = false ∧ ∃ m, cluster m = true ∧ adj n m = true := by
  rw [getNeighbours_iff]
  constructor
  · rintro ⟨⟨m, h1, h2⟩, h⟩; exact ⟨h, m, h2, h1⟩
  · rintro ⟨h, m, h2, h1⟩; exact ⟨⟨m, h1, h2⟩, h⟩

/-- **C45** in the operators: neighbours are in no cluster. -/
theorem C45_neighbours_are_free (cl : Clus K N) (z : Fin K) (adj : Fin N → Fin N → Bool) (n : Fin N)
    (h : getNeighbours (cl z) (anyGroup cl) adj n = true) (k : Fin K) : cl k n = false :=
  free_iff.mp (neighbour_free h) k

/-! ### Concrete cases -/

/-- Two clusters of four objects, sizes between 1 and 3. -/
def exCl : Clus 2 4 := ![![true, true, false, false], ![false, false, true, false]]

noncomputable def exCfg : Cfg 4 := ⟨1, 3, fun i j => i.val + 1 == j.val || j.val + 1 == i.val, 1 / 2⟩

theorem exCl_valid : Valid exCfg.minSize exCfg.maxSize exCl := by
  refine ⟨by decide, ?_, ?_⟩
  · show ∀ k, 1 ≤ size (exCl k); decide
  · show ∀ k, size (exCl k) ≤ 3; decide

/-- `AlterCluster` really proposes to grow in this state, connected or not: object 3 has probability
1/8·1 (not connected: the only free object) + for cluster 1 also the connected step. -/
example : propMass (alterCluster exCfg) exCl (addObject exCl 1 3) = 1 / 4 ∧
    propMass (alterCluster exCfg) exCl (addObject exCl 0 3) = 1 / 8 := by
  have hf : free exCl 3 = true := by decide
  constructor
  · rw [propMass_add hf (by show size (exCl 1) < 3; decide)]
    unfold growProb
    have h1 : count (free exCl) = 1 := by decide
    have h2 : getNeighbours (exCl 1) (anyGroup exCl) exCfg.adj 3 = true := by decide
    have h3 : count (getNeighbours (exCl 1) (anyGroup exCl) exCfg.adj) = 1 := by decide
    dsimp only
    rw [h1, h3, if_pos h2]
    norm_num [exCfg]
  · rw [propMass_add hf (by show size (exCl 0) < 3; decide)]
    unfold growProb
    have h1 : count (free exCl) = 1 := by decide
    have h2 : getNeighbours (exCl 0) (anyGroup exCl) exCfg.adj 3 = false := by decide
    dsimp only
    rw [h1, h2]
    norm_num [exCfg]

/-- The hypotheses of C18 hold here, for a target that is not uniform. -/
example : DetailedBalance (Valid exCfg.minSize exCfg.maxSize) (fun x : Clus 2 4 => (size (x 0) : ℝ) + 1)
    (alterCluster exCfg) :=
  C18_alterCluster_detailed_balance exCfg (by norm_num) (by norm_num [exCfg]) (by norm_num [exCfg]) _
    (fun x _ => by positivity)

/-- A model with one feature, two states, a universal confounder and a missing observation. -/
def exData : ModelData 4 1 2 1 (fun _ => 1) :=
  ⟨![![![true, false]], ![![false, true]], ![![false, false]], ![![true, false]]], fun _ _ _ => true⟩

theorem exPositive : PositiveModel (K := 2) exData (fun _ _ => 1 / 2) (fun _ _ _ => 1 / 2)
    (fun _ _ _ _ => 1 / 2) := by
  refine ⟨fun _ _ => by norm_num, ?_, fun _ _ _ _ _ => by norm_num, fun _ _ _ _ _ _ _ => by norm_num,
    ?_, ?_⟩
  · show ∀ n f, (∀ s, exData.features n f s = false) ∨ ∃ s, ∀ s', exData.features n f s' = true ↔ s' = s
    decide
  · intro c i j n _ _; exact Subsingleton.elim i j
  · intro n; exact ⟨0, 0, rfl⟩

/-- The hypotheses of C20 and C50 hold here. -/
example : DetailedBalance (Valid exCfg.minSize exCfg.maxSize) (fun x : Clus 2 4 => (size (x 0) : ℝ) + 1)
    (gibbsish exCfg (clusterPosterior exData (fun _ _ => 1 / 2) (fun _ _ _ => 1 / 2) (fun _ _ _ _ => 1 / 2))) :=
  (C20_gibbsish_detailed_balance exCfg (by norm_num) exPositive _ (fun x _ => by positivity)).1

end SBayes.Clusters
