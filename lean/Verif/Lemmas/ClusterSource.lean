import Verif.Lemmas.Gibbsish
import Verif.Lemmas.Likelihood
import Verif.Props.Likelihood
set_option linter.unusedSectionVars false
/- Cluster moves together with source resampling; the concrete laws of the model. -/
namespace SBayes.Clusters
open SBayes.Lik SBayes.MH
open scoped BigOperators
variable {K N F S M C : ℕ} {nG : Fin M → ℕ}

theorem changed_symm (x y : Clus K N) : changed x y = changed y x := by
  unfold changed
  congr 1; funext n; congr 1; funext k
  rw [bne_comm]

theorem mem_changed {x y : Clus K N} {n : Fin N} : n ∈ changed x y ↔ ∃ k, x k n ≠ y k n := by
  simp [changed]

theorem mem_positions {l : List (Fin N)} {i : Fin N × Fin F} : i ∈ positions F l ↔ i.1 ∈ l := by
  unfold positions
  simp only [List.mem_flatMap, List.mem_map, List.mem_finRange, true_and]
  constructor
  · rintro ⟨n, hn, f, rfl⟩; exact hn
  · intro h; exact ⟨i.1, h, i.2, rfl⟩

theorem nodup_positions {l : List (Fin N)} (hl : l.Nodup) : (positions F l).Nodup := by
  unfold positions
  rw [List.nodup_flatMap]
  constructor
  · intro n _
    exact (List.nodup_finRange F).map fun a b h => (Prod.mk.inj h).2
  · refine hl.imp ?_
    intro a b hab x hx hy
    obtain ⟨_, _, rfl⟩ := List.mem_map.mp hx
    obtain ⟨_, _, h⟩ := List.mem_map.mp hy
    exact hab (Prod.mk.inj h).1.symm

theorem nodup_changed (x y : Clus K N) : (changed x y).Nodup := (List.nodup_finRange N).filter _

/-- Real probability of a cluster move with resampled sources. -/
theorem withSource_propMass {p : Clus K N → Fin N → Fin F → Fin C → ℝ}
    {op : Clus K N → Rand (Result (Clus K N))} {x y : Clus K N} {s t : Fin N × Fin F → Fin C}
    (hxy : y ≠ x) (ht : ∀ i, i ∉ positions F (changed x y) → t i = s i) :
    propMass (withSource p op) (x, s) (y, t) =
      propMass op x y * ((positions F (changed x y)).map fun i => p y i.1 i.2 (t i)).prod := by
  classical
  unfold propMass withSource prob
  rw [E_bind, mul_comm, ← E_const_mul]
  refine E_congr fun r _ => ?_
  by_cases h : r.1.new = x
  · rw [if_pos h, E_ret]
    have h1 : ¬ ((x, s) = (y, t)) := fun e => hxy (Prod.mk.inj e).1.symm
    have h2 : ¬ (r.1.new = y) := fun e => hxy (by rw [← e, h])
    simp [reject, h1, h2]
  · rw [if_neg h]
    by_cases hy : r.1.new = y
    · rw [E_bind, E_supported t]
      · rw [E_ret, hy, prob_indep _ _ (nodup_positions (nodup_changed x y)), if_pos ht]
        simp only [if_true, mul_one]
        rw [if_pos hy, mul_one]
        congr 1
        refine List.map_congr_left fun i _ => ?_
        rw [prob_choice (List.nodup_finRange C), if_pos (List.mem_finRange _)]
      · intro q _ hq
        rw [E_ret]
        have : ¬ ((r.1.new, q.1) = (y, t)) := fun e => hq (Prod.mk.inj e).2
        simp [this]
    · rw [E_bind]
      rw [E_eq_zero]
      · simp [hy]
      · intro q _
        rw [E_ret]
        have : ¬ ((r.1.new, q.1) = (y, t)) := fun e => hy (Prod.mk.inj e).1
        simp [this]

theorem withSource_reports {V : Clus K N → Prop} {p : Clus K N → Fin N → Fin F → Fin C → ℝ}
    (hp : SourceLaw V p) {op : Clus K N → Rand (Result (Clus K N))} {c : ℝ}
    (hop : ReportsRealMasses V op c) : ReportsRealMasses (Possible V p) (withSource p op) c := by
  rintro ⟨x, s⟩ ⟨hx, hs⟩ r w hr hw hne
  dsimp only at hx hs
  unfold withSource at hr
  obtain ⟨a, ha, b, hb, h1, h2⟩ := mem_bind hr
  dsimp only at h1 h2 hb
  by_cases h : a.1.new = x
  · rw [if_pos h] at hb; exact absurd (by rw [h1, mem_ret hb]; rfl) hne
  · rw [if_neg h] at hb
    obtain ⟨t, ht, b', hb', h3, h4⟩ := mem_bind hb
    obtain ⟨ht1, ht2⟩ := mem_indep _ _ (nodup_positions (nodup_changed x a.1.new)) _ _ ht
    have hr' := mem_ret hb'
    rw [h1, h3, hr']
    have ha0 : a.2 ≠ 0 := fun e => hw (by rw [h2, e, zero_mul])
    have ht0 : t.2 ≠ 0 := fun e => hw (by rw [h2, h4, e, zero_mul, mul_zero])
    obtain ⟨hy, hq, hqb⟩ := hop x hx a.1 a.2 ha ha0 h
    refine ⟨⟨hy, ?_⟩, ?_, ?_⟩
    · intro n f
      dsimp only
      by_cases hn : n ∈ changed x a.1.new
      · obtain ⟨w', hw', hw0⟩ := ht2 (n, f) (mem_positions.mpr hn)
        have := (mem_choice hw').2
        dsimp only at this
        rw [← this]; exact hw0 ht0
      · rw [ht1 (n, f) fun hm => hn (mem_positions.mp hm)]
        have : p a.1.new n = p x n := hp.local_ _ _ hy hx n fun k => by
          by_contra hk
          exact hn (mem_changed.mpr ⟨k, fun e => hk e.symm⟩)
        rw [this]; exact hs n f
    · rw [withSource_propMass h ht1, hq]; ring
    · dsimp only
      rw [withSource_propMass (Ne.symm h) (fun i hi => (ht1 i (by rwa [changed_symm])).symm), hqb,
        changed_symm a.1.new x]; ring

theorem withSource_isDist {V : Clus K N → Prop} {p : Clus K N → Fin N → Fin F → Fin C → ℝ}
    (hp : SourceLaw V p) {op : Clus K N → Rand (Result (Clus K N))}
    (hv : ∀ x, V x → ∀ r w, (r, w) ∈ op x → w ≠ 0 → r.new ≠ x → V r.new)
    (hop : ∀ x, V x → IsDist (op x))
    (x : Clus K N × (Fin N × Fin F → Fin C)) (hx : V x.1) : IsDist (withSource p op x) := by
  refine isDist_bind' (hop _ hx) fun r hr hr0 => ?_
  split
  · exact isDist_ret _
  · rename_i hne
    have hy : V r.1.new := hv _ hx r.1 r.2 hr hr0 hne
    refine isDist_bind (isDist_indep _ _ (fun i _ => ?_) _) fun _ _ => isDist_ret _
    refine isDist_choice (fun c _ => hp.nonneg _ hy _ _ c) ?_
    rw [← List.ofFn_eq_map, List.sum_ofFn]
    exact hp.sum_one _ hy _ _

/-! ### The concrete cluster posterior -/

/-- Likelihood of object `n` if it were (`b = true`) or were not in cluster `z`. -/
noncomputable def lhIf (d : ModelData N F S M nG) (w : Fin F → Fin (M + 1) → ℝ)
    (clusterEffect : Fin K → Fin F → Fin S → ℝ)
    (confEffect : (c : Fin M) → Fin (nG c) → Fin F → Fin S → ℝ) (z : Fin K) (n : Fin N) (b : Bool) : ℝ :=
  ((List.finRange F).map fun f => ∑ c,
    (Fin.cons (stateProb d.features (clusterEffect z) n f) (confLh d confEffect n f) : Fin (M + 1) → ℝ) c *
    normalizeWeights w (fun m : Fin N => (Fin.cons b (fun c => anyGroup (d.confGroups c) m) : Fin (M + 1) → Bool))
      n f c).prod

theorem clusterPosterior_eq (d : ModelData N F S M nG) (w : Fin F → Fin (M + 1) → ℝ)
    (clusterEffect : Fin K → Fin F → Fin S → ℝ)
    (confEffect : (c : Fin M) → Fin (nG c) → Fin F → Fin S → ℝ) (cl : Clus K N) (z : Fin K) (n : Fin N) :
    clusterPosterior d w clusterEffect confEffect cl z n =
      lhIf d w clusterEffect confEffect z n true /
        (lhIf d w clusterEffect confEffect z n false + lhIf d w clusterEffect confEffect z n true) := by
  have hrow : ∀ (h h' : Fin N → Fin (M + 1) → Bool), h n = h' n →
      normalizeWeights w h n = normalizeWeights w h' n := by
    intro h h' e; funext f c; unfold normalizeWeights; rw [e]
  have hupd : ∀ b, Function.update (hasComponents d cl n) 0 b =
      (Fin.cons b (fun c => anyGroup (d.confGroups c) n) : Fin (M + 1) → Bool) := by
    intro b; unfold hasComponents; rw [Fin.update_cons_zero]
  unfold clusterPosterior lhIf
  dsimp only
  by_cases h : anyGroup cl n = true
  · have h0 : hasComponents d cl n 0 = true := h
    have e1 := hrow (hasComponents d cl)
      (fun m => Fin.cons true (fun c => anyGroup (d.confGroups c) m)) (by
        unfold hasComponents; rw [h])
    have e2 := hrow (fun n => Function.update (hasComponents d cl n) 0 (!hasComponents d cl n 0))
      (fun m => Fin.cons false (fun c => anyGroup (d.confGroups c) m)) (by
        rw [h0]; exact hupd false)
    rw [e1, e2]
    simp [h0]
  · have h : anyGroup cl n = false := by simpa using h
    have h0 : hasComponents d cl n 0 = false := h
    have e1 := hrow (hasComponents d cl)
      (fun m => Fin.cons false (fun c => anyGroup (d.confGroups c) m)) (by
        unfold hasComponents; rw [h])
    have e2 := hrow (fun n => Function.update (hasComponents d cl n) 0 (!hasComponents d cl n 0))
      (fun m => Fin.cons true (fun c => anyGroup (d.confGroups c) m)) (by
        rw [h0]; exact hupd true)
    rw [e1, e2]
    simp [h0]

section positive
variable {d : ModelData N F S M nG} {w : Fin F → Fin (M + 1) → ℝ}
  {clusterEffect : Fin K → Fin F → Fin S → ℝ}
  {confEffect : (c : Fin M) → Fin (nG c) → Fin F → Fin S → ℝ}

theorem confLh_nonneg_pos (hm : PositiveModel d w clusterEffect confEffect) (n : Fin N) (f : Fin F)
    (c : Fin M) : 0 ≤ confLh d confEffect n f c ∧
      (anyGroup (d.confGroups c) n = true → 0 < confLh d confEffect n f c) := by
  have hspec := C09_component_likelihood_is_specified d.features (confEffect c) (d.confGroups c)
    (hm.disjoint c) (List.finRange (nG c)) (fun g => List.mem_finRange g) (fun _ _ => 0)
  rcases hm.onehot n f with hna | ⟨s, hs⟩
  · have : confLh d confEffect n f c = 1 := hspec.missing n f hna
    rw [this]; exact ⟨zero_le_one, fun _ => zero_lt_one⟩
  · by_cases h : anyGroup (d.confGroups c) n = true
    · obtain ⟨g, hg⟩ := anyGroup_iff.mp h
      have : confLh d confEffect n f c = confEffect c g f s := hspec.member n f s g hs hg
      have hpos := hm.conf c g n f s hg hs
      rw [this]; exact ⟨hpos.le, fun _ => hpos⟩
    · have : confLh d confEffect n f c = 0 := hspec.outside n f s hs
        (anyGroup_false.mp (by simpa using h))
      rw [this]; exact ⟨le_rfl, fun h' => absurd h' h⟩

theorem stateProb_nonneg (hm : PositiveModel d w clusterEffect confEffect) (z : Fin K) (n : Fin N) (f : Fin F) :
    0 ≤ stateProb d.features (clusterEffect z) n f := by
  rcases hm.onehot n f with hna | ⟨s, hs⟩
  · unfold stateProb
    rw [Finset.sum_eq_zero]
    intro s _; rw [hna s]; simp [b2n]
  · rw [stateProb_observed hs]; exact (hm.cluster z n f s hs).le

theorem normalizeWeights_pos (hw : ∀ f c, 0 < w f c) (has : Fin N → Fin (M + 1) → Bool) (n : Fin N)
    (f : Fin F) (c : Fin (M + 1)) : 0 ≤ normalizeWeights w has n f c ∧
      (has n c = true → 0 < normalizeWeights w has n f c) := by
  have h0 : ∀ c, 0 ≤ w f c * b2n ℝ (has n c) := fun c => by
    unfold b2n; split
    · simpa using (hw f c).le
    · simp
  have hs : 0 ≤ ∑ c', w f c' * b2n ℝ (has n c') := Finset.sum_nonneg fun c _ => h0 c
  refine ⟨div_nonneg (h0 c) hs, fun hc => ?_⟩
  have hc' : 0 < w f c * b2n ℝ (has n c) := by simp [b2n, hc, hw f c]
  exact div_pos hc' (lt_of_lt_of_le hc' (Finset.single_le_sum (fun c _ => h0 c) (Finset.mem_univ c)))

theorem lhIf_pos (hm : PositiveModel d w clusterEffect confEffect) (z : Fin K) (n : Fin N) (b : Bool) :
    0 < lhIf d w clusterEffect confEffect z n b := by
  unfold lhIf
  rw [prod_finRange]
  refine Finset.prod_pos fun f _ => ?_
  obtain ⟨c, g, hg⟩ := hm.covered n
  have hany : anyGroup (d.confGroups c) n = true := anyGroup_iff.mpr ⟨g, hg⟩
  refine Finset.sum_pos' (fun i _ => ?_) ⟨c.succ, Finset.mem_univ _, ?_⟩
  · refine mul_nonneg ?_ (normalizeWeights_pos hm.weights _ n f i).1
    refine Fin.cases ?_ (fun j => ?_) i
    · exact stateProb_nonneg hm z n f
    · exact (confLh_nonneg_pos hm n f j).1
  · exact mul_pos ((confLh_nonneg_pos hm n f c).2 hany)
      ((normalizeWeights_pos hm.weights _ n f _).2 hany)

theorem clusterPosterior_good (hm : PositiveModel d w clusterEffect confEffect) :
    GoodPost (clusterPosterior d w clusterEffect confEffect) := by
  refine ⟨?_, ?_, ?_⟩
  · intro x y z n; rw [clusterPosterior_eq, clusterPosterior_eq]
  · intro x z n; rw [clusterPosterior_eq]
    exact div_pos (lhIf_pos hm z n true) (add_pos (lhIf_pos hm z n false) (lhIf_pos hm z n true))
  · intro x z n; rw [clusterPosterior_eq]
    have h0 := lhIf_pos hm z n false
    have h1 := lhIf_pos hm z n true
    rw [div_lt_one (add_pos h0 h1)]; linarith

/-! ### The concrete source law -/

theorem componentLh_pos (hm : PositiveModel d w clusterEffect confEffect) {cl : Clus K N}
    (hd : DisjointGroups cl) (n : Fin N) (f : Fin F) (c : Fin (M + 1)) :
    0 ≤ componentLh d clusterEffect confEffect cl n f c ∧
      (hasComponents d cl n c = true → 0 < componentLh d clusterEffect confEffect cl n f c) := by
  refine Fin.cases ?_ (fun j => ?_) c
  · have hspec := C09_component_likelihood_is_specified d.features clusterEffect cl
      hd (List.finRange K) (fun g => List.mem_finRange g) (fun _ _ => 0)
    show 0 ≤ overwriteNA d.features _ n f ∧ (anyGroup cl n = true → 0 < overwriteNA d.features _ n f)
    rcases hm.onehot n f with hna | ⟨s, hs⟩
    · rw [hspec.missing n f hna]; exact ⟨zero_le_one, fun _ => zero_lt_one⟩
    · by_cases h : anyGroup cl n = true
      · obtain ⟨k, hk⟩ := anyGroup_iff.mp h
        have hpos := hm.cluster k n f s hs
        rw [hspec.member n f s k hs hk]; exact ⟨hpos.le, fun _ => hpos⟩
      · rw [hspec.outside n f s hs (anyGroup_false.mp (by simpa using h))]
        exact ⟨le_rfl, fun h' => absurd h' h⟩
  · exact confLh_nonneg_pos hm n f j

theorem sourcePosterior_law (hm : PositiveModel d w clusterEffect confEffect) (lo hi : ℕ) :
    SourceLaw (Valid lo hi) (sourcePosterior d w clusterEffect confEffect) := by
  have hx0 : ∀ cl : Clus K N, Valid lo hi cl → ∀ n f c, 0 ≤ componentLh d clusterEffect confEffect cl n f c *
      normalizeWeights w (hasComponents d cl) n f c := fun cl hv n f c =>
    mul_nonneg (componentLh_pos hm hv.disjoint n f c).1 (normalizeWeights_pos hm.weights _ n f c).1
  refine ⟨?_, ?_, ?_⟩
  · intro x hv n f c
    exact div_nonneg (hx0 x hv n f c) (Finset.sum_nonneg fun c _ => hx0 x hv n f c)
  · intro x hv n f
    unfold sourcePosterior
    dsimp only
    rw [← Finset.sum_div]
    apply div_self
    obtain ⟨c, g, hg⟩ := hm.covered n
    have hany : anyGroup (d.confGroups c) n = true := anyGroup_iff.mpr ⟨g, hg⟩
    refine (Finset.sum_pos' (fun i _ => hx0 x hv n f i) ⟨c.succ, Finset.mem_univ _, ?_⟩).ne'
    exact mul_pos ((componentLh_pos hm hv.disjoint n f c.succ).2 hany)
      ((normalizeWeights_pos hm.weights _ n f _).2 hany)
  · intro x y hx hy n hxy
    have hany : anyGroup x n = anyGroup y n := by unfold anyGroup; congr 1; funext k; exact hxy k
    have hhas : hasComponents d x n = hasComponents d y n := by unfold hasComponents; rw [hany]
    have hnw : normalizeWeights w (hasComponents d x) n = normalizeWeights w (hasComponents d y) n := by
      funext f c; unfold normalizeWeights; rw [hhas]
    have hc : ∀ f, componentLh d clusterEffect confEffect x n f = componentLh d clusterEffect confEffect y n f := by
      intro f
      unfold componentLh
      congr 1
      unfold overwriteNA
      congr 1
      by_cases h : ∃ k, x k n = true
      · obtain ⟨k, hk⟩ := h
        rw [compute_member hx.disjoint _ hk (List.mem_finRange k),
          compute_member hy.disjoint _ (hxy k ▸ hk) (List.mem_finRange k)]
      · have h' : ∀ k, x k n = false := by simpa using h
        rw [compute_outside _ h', compute_outside _ fun k => by rw [← hxy k]; exact h' k]
    funext f c
    unfold sourcePosterior
    dsimp only
    rw [hnw, hc f]

end positive

end SBayes.Clusters
