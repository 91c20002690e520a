import Verif.Spec.Settings
import Verif.Lemmas.AlterCluster
import Verif.Lemmas.Build
import Mathlib.Combinatorics.SimpleGraph.Acyclic
/- Property C107: settings take effect. -/
namespace SBayes.Settings
open SBayes.Validate SBayes.Build SBayes.Kernel SBayes.Clusters SBayes.MH SBayes.Prior SBayes.Lik

variable {K N F S M : ℕ} {nG : Fin M → ℕ}

/-- **C107**, finding: the setting `skeleton` of the geo-prior is accepted and has no effect at all: with any other skeleton the same run
is built, whatever the configuration and the files. -/
theorem C107_skeleton_is_ignored (W : World) (c : SBayesConfig) (s : Skeleton) : build W (withSkeleton c s) = build W c := rfl

theorem sum_edgeCost_one {V : Type} [Fintype V] (E : Finset (Sym2 V)) :
    (E.val.map (edgeCost fun _ _ : V => (1:ℝ))) = Multiset.replicate E.card 1 := by
  rw [Multiset.eq_replicate]
  refine ⟨by rw [Multiset.card_map]; rfl, fun b hb => ?_⟩
  obtain ⟨e, -, rfl⟩ := Multiset.mem_map.mp hb
  induction e using Sym2.ind with
  | _ x y => simp [edgeCost]

/-- **C107**, the full claim is false for the skeleton: for a cluster of `N ≥ 3` objects with costs 1 between them, summed up, and an
exponential prior with scale 1 the log-prior is `-(N - 1)`, the costs along a spanning tree, whichever `mst` is returned. With the
complete graph it would be `-N (N - 1) / 2`. -/
theorem C107_skeleton_false (hN : 3 ≤ N) (mst : (z : Fin N → Bool) → SimpleGraph (Members z)) (hT : ∀ z, (∃ n, z n = true) → (mst z).IsTree) :
    Prior.geoPrior .sum .exponential 1 (fun _ _ => 1) mst (fun (_ : Fin 1) _ => true) = some (-((N:ℝ) - 1)) ∧
    completeGraphPrior .sum .exponential 1 (fun _ _ => 1) (fun (_ : Fin 1) (_ : Fin N) => true) = -((N.choose 2 : ℕ) : ℝ) ∧
    Prior.geoPrior .sum .exponential 1 (fun _ _ => 1) mst (fun (_ : Fin 1) _ => true) ≠
      some (completeGraphPrior .sum .exponential 1 (fun _ _ => 1) (fun (_ : Fin 1) (_ : Fin N) => true)) := by
  classical
  have hc : Fintype.card (Members fun _ : Fin N => true) = N := by
    rw [Fintype.card_subtype]
    simp
  have h1 : Prior.geoPrior .sum .exponential 1 (fun _ _ => 1) mst (fun (_ : Fin 1) _ => true) = some (-((N:ℝ) - 1)) := by
    have ht := (hT (fun _ => true) ⟨⟨0, by omega⟩, rfl⟩).card_edgeFinset
    unfold Prior.geoPrior
    rw [if_pos (fun _ => by
      have : clusterSize (fun _ : Fin N => true) = N := by unfold clusterSize; simp
      show 1 < clusterSize (fun _ : Fin N => true)
      omega)]
    congr 1
    rw [Fin.sum_univ_one]
    have hd : distances (fun _ _ : Members fun _ : Fin N => true => (1:ℝ)) (mst fun _ => true) = Multiset.replicate (N - 1) 1 := by
      unfold distances
      dsimp only
      rw [sum_edgeCost_one, Multiset.filter_eq_self.mpr (fun a ha => by rw [Multiset.eq_of_mem_replicate ha]; norm_num)]
      have e : (mst fun _ => true).edgeFinset.card = N - 1 := by
        rw [hc] at ht
        have : (mst fun _ => true).edgeFinset.card + 1 = N := by convert ht
        omega
      rw [if_neg]
      · rw [← e]
      · intro h
        have := congrArg Multiset.card h
        rw [Multiset.card_replicate, e, Multiset.card_zero] at this
        omega
    rw [hd]
    unfold ProbFn.eval Agg.eval
    simp only [Multiset.sum_replicate, nsmul_eq_mul, mul_one, div_one]
    rw [Nat.cast_sub (by omega)]
    simp
  have h2 : completeGraphPrior .sum .exponential 1 (fun _ _ => 1) (fun (_ : Fin 1) (_ : Fin N) => true) = -((N.choose 2 : ℕ) : ℝ) := by
    unfold completeGraphPrior
    rw [Fin.sum_univ_one, sum_edgeCost_one, SimpleGraph.card_edgeFinset_top_eq_card_choose_two, hc]
    unfold ProbFn.eval Agg.eval
    simp only [Multiset.sum_replicate, nsmul_eq_mul, mul_one, div_one]
  refine ⟨h1, h2, ?_⟩
  rw [h1, h2]
  intro h
  have h3 := Option.some.inj h
  have h4 : (N:ℝ) - 1 = ((N.choose 2 : ℕ) : ℝ) := by linarith
  have h5 : N - 1 = N.choose 2 := by
    have : (((N - 1 : ℕ)) : ℝ) = ((N.choose 2 : ℕ) : ℝ) := by rw [Nat.cast_sub (by omega), ← h4]; simp
    exact_mod_cast this
  rw [Nat.choose_two_right] at h5
  have h6 : 3 * (N - 1) ≤ N * (N - 1) := Nat.mul_le_mul_right _ hN
  omega

/-- Such trees exist. -/
example : ∃ mst : (z : Fin N → Bool) → SimpleGraph (Members z), ∀ z, (∃ n, z n = true) → (mst z).IsTree := by
  classical
  have (z : Fin N → Bool) : ∃ T : SimpleGraph (Members z), (∃ n, z n = true) → T.IsTree := by
    by_cases h : ∃ n, z n = true
    · obtain ⟨n, hn⟩ := h
      have : Nonempty (Members z) := ⟨⟨n, hn⟩⟩
      obtain ⟨T, -, hT⟩ := (SimpleGraph.connected_top (V := Members z)).exists_isTree_le
      exact ⟨T, fun _ => hT⟩
    · exact ⟨⊥, fun h' => absurd h' h⟩
  choose mst h using this
  exact ⟨mst, h⟩

/-- A setup with another probability of connected growing steps. -/
def setGrow (p : ℝ) (m : Setup K N F S M nG) : Setup K N F S M nG := { m with cl := { m.cl with pConn := p } }

theorem propose_setGrow (p : ℝ) (m : Setup K N F S M nG) : propose (setGrow p m) = propose m := by
  funext op x
  cases op with
  | cluster b => cases b <;> rfl
  | _ => rfl

theorem initialSample_setGrow (p : ℝ) (m : Setup K N F S M nG) : initialSample (setGrow p m) = initialSample m := by
  funext a b prev r
  cases prev <;> rfl

/-- **C107**, finding: with source sampling (the default) the setting `grow_to_adjacent` has no effect: the distribution of the
logged samples of a whole run, with warm-up, is the same for all values. -/
theorem C107_grow_to_adjacent_is_ignored (p : ℝ) (m : Setup K N F S M nG) : wholeRun (setGrow p m) = wholeRun m := by
  funext ops sz nc ws garbage rnd rnd' blank s steps
  unfold wholeRun
  rw [propose_setGrow, initialSample_setGrow]
  rfl

/-- **C107.** The run built from a configuration with another value of `grow_to_adjacent` is the one with this probability. -/
theorem C107_grow_to_adjacent_is_passed_on (W : World) (c : SBayesConfig) (q : ℚ) :
    build W (withGrowToAdjacent c q) = (build W c).map fun b => { b with setup := setGrow q b.setup } := by
  apply Option.ext
  intro b
  rw [Option.map_eq_some_iff, build_iff]
  constructor
  · rintro ⟨D, net, cost, K, P, geo, h⟩
    refine ⟨result W c D net.2 K P geo, build_iff.mpr ⟨D, net, cost, K, P, geo, ⟨h.data, h.network, h.costs, h.clusters, h.weights,
      h.clusterEffect, h.priors, h.known, h.groups, h.geoP, rfl⟩⟩, ?_⟩
    rw [h.result]
    rfl
  · rintro ⟨b', hb', e⟩
    obtain ⟨D, net, cost, K, P, geo, h⟩ := build_iff.mp hb'
    refine ⟨D, net, cost, K, P, geo, ⟨h.data, h.network, h.costs, h.clusters, h.weights,
      h.clusterEffect, h.priors, h.known, h.groups, h.geoP, ?_⟩⟩
    rw [← e, h.result]
    rfl

/-- **C107.** Without source sampling the setting has an effect: the larger it is, the more likely an adjacent object is added, if there are
also free objects that are not adjacent. -/
theorem C107_grow_to_adjacent_favours_neighbours (cfg cfg' : Cfg N) (hcfg : cfg' = { cfg with pConn := cfg'.pConn })
    (hp : cfg.pConn < cfg'.pConn) {cl : Clus K N} {z : Fin K} {o : Fin N}
    (hn : getNeighbours (cl z) (anyGroup cl) cfg.adj o = true) (hs : size (cl z) < cfg.maxSize)
    {o' : Fin N} (hf' : free cl o' = true) (hn' : getNeighbours (cl z) (anyGroup cl) cfg.adj o' = false) :
    propMass (alterCluster cfg) cl (addObject cl z o) < propMass (alterCluster cfg') cl (addObject cl z o) := by
  have hf : free cl o = true := by
    unfold getNeighbours at hn
    rw [Bool.and_eq_true] at hn
    exact hn.2
  have hadj : cfg'.adj = cfg.adj := by rw [hcfg]
  have hmax : cfg'.maxSize = cfg.maxSize := by rw [hcfg]
  rw [propMass_add hf hs, propMass_add hf (by rw [hmax]; exact hs)]
  have hK : 0 < (K:ℝ) := by exact_mod_cast (Nat.pos_of_ne_zero (by rintro rfl; exact z.elim0))
  refine mul_lt_mul_of_pos_left ?_ (by positivity)
  unfold growProb
  dsimp only
  rw [hadj, hn, if_pos rfl, if_pos rfl]
  set nb := getNeighbours (cl z) (anyGroup cl) cfg.adj with hnb
  have hlt : count nb < count (free cl) := by
    have hsub : ∀ i, nb i = true → free cl i = true := fun i hi => by
      rw [hnb] at hi
      unfold getNeighbours at hi
      rw [Bool.and_eq_true] at hi
      exact hi.2
    unfold count
    rw [List.countP_eq_length_filter, List.countP_eq_length_filter,
      ← List.toFinset_card_of_nodup ((List.nodup_finRange N).filter _), ← List.toFinset_card_of_nodup ((List.nodup_finRange N).filter _)]
    refine Finset.card_lt_card (Finset.ssubset_iff_of_subset (fun i hi => ?_) |>.mpr ⟨o', ?_, ?_⟩)
    · simp only [List.mem_toFinset, List.mem_filter, List.mem_finRange, true_and] at hi ⊢
      exact hsub i hi
    · simp [hf']
    · simp only [List.mem_toFinset, List.mem_filter, List.mem_finRange, true_and, hn']
      exact Bool.false_ne_true
  have hpos : 0 < count nb := by
    unfold count
    rw [List.countP_pos_iff]
    exact ⟨o, List.mem_finRange o, hn⟩
  have h1 : (0:ℝ) < count nb := by exact_mod_cast hpos
  have h2 : (count nb : ℝ) < count (free cl) := by exact_mod_cast hlt
  have h3 : 1 / (count (free cl) : ℝ) < 1 / (count nb : ℝ) := one_div_lt_one_div_of_lt h1 h2
  nlinarith

/-- Such a case: four objects in a row, the first is in the cluster, the second is its neighbour, the others are free. -/
example : let cl : Clus 1 4 := fun _ n => n = 0
    let adj : Fin 4 → Fin 4 → Bool := fun i j => i.val + 1 = j.val || j.val + 1 = i.val
    getNeighbours (cl 0) (anyGroup cl) adj 1 = true ∧ size (cl 0) < 3 ∧ free cl 3 = true ∧
      getNeighbours (cl 0) (anyGroup cl) adj 3 = false := by decide

/-- **C107**, finding: the warm-up sets limits for the sizes of clusters and probabilities of connected growing steps for each chain, but
after its operators were built: they are those of the main run. -/
theorem C107_warmup_settings_are_ignored (src : Bool) (modelMax initialSize nChains : ℕ) (pGrow : ℚ) (choices : List Bool) :
    (clusterMCMCWarmup src modelMax initialSize nChains pGrow choices).ops =
      (clusterMCMC src modelMax initialSize nChains pGrow).ops ∧
    ∀ op ∈ (clusterMCMCWarmup src modelMax initialSize nChains pGrow choices).ops, ∀ x ∈ op.maxSizes, x = modelMax := by
  refine ⟨rfl, fun op hop x hx => ?_⟩
  have : op.maxSizes = List.replicate nChains modelMax := by
    unfold clusterMCMCWarmup clusterMCMC getClusterOps at hop
    cases src <;> simp at hop <;> rw [hop]
  rw [this] at hx
  exact List.eq_of_mem_replicate hx

/-- **C107**, the full claim is false for the warm-up: with initial size 5, a maximum of 20 and 10 chains, the limits 12, 16, 21 and 25 are
announced for the chains, but 20 is the one the operators use in all of them. -/
theorem C107_warmup_limits_false (src : Bool) (pGrow : ℚ) (choices : List Bool) :
    (List.range 10).map (clusterMCMCWarmup src 20 5 10 pGrow choices).limit =
      [some 12, some 12, some 12, some 16, some 16, some 16, some 21, some 21, some 21, some 25] ∧
    ∀ op ∈ (clusterMCMCWarmup src 20 5 10 pGrow choices).ops, op.maxSizes = List.replicate 10 20 := by
  refine ⟨rfl, fun op hop => ?_⟩
  unfold clusterMCMCWarmup clusterMCMC getClusterOps at hop
  cases src <;> simp at hop <;> rw [hop] <;> rfl

end SBayes.Settings
