import Verif.Model.Postproc
import Verif.Spec.Postproc
import Mathlib.Data.List.GetD
import Mathlib.Data.List.Sort
import Mathlib.Data.Fintype.EquivFin
import Mathlib.Tactic.Ring
import Mathlib.Tactic.FieldSimp
import Mathlib.Tactic.NormNum
import Mathlib.Tactic.Linarith
/-
C70: the ranking of clusters. C71: the information criterion.
-/
namespace SBayes.Post

/-! ### `mapM` in `Option` -/

theorem mapM_get {α β : Type} {f : α → Option β} : ∀ {l : List α} {r : List β}, l.mapM f = some r →
    r.length = l.length ∧ ∀ i : ℕ, r[i]? = (l[i]?).bind f
  | [], r, h => by
    simp only [List.mapM_nil] at h
    cases h
    simp
  | a :: l, r, h => by
    rw [List.mapM_cons] at h
    cases hf : f a with
    | none => rw [hf] at h; cases h
    | some b =>
      cases hl : l.mapM f with
      | none => rw [hf, hl] at h; cases h
      | some r' =>
        rw [hf, hl] at h
        cases h
        obtain ⟨h1, h2⟩ := mapM_get hl
        refine ⟨by simp [h1], fun i => ?_⟩
        cases i with
        | zero => simp [hf]
        | succ i => simpa using h2 i

theorem mapM_exists {α β : Type} {f : α → Option β} : ∀ {l : List α}, (∀ a ∈ l, ∃ b, f a = some b) →
    ∃ r, l.mapM f = some r
  | [], _ => ⟨[], rfl⟩
  | a :: l, h => by
    obtain ⟨b, hb⟩ := h a (by simp)
    obtain ⟨r, hr⟩ := mapM_exists (l := l) (fun x hx => h x (by simp [hx]))
    exact ⟨b :: r, by rw [List.mapM_cons, hb, hr]; rfl⟩

/-! ### Ranking -/

/-- A permutation of `0 … K-1` as a list is one as a function. -/
theorem perm_of_list {K : ℕ} {r : List ℕ} (h : r.Perm (List.range K)) :
    ∃ σ : Equiv.Perm (Fin K), ∀ i : Fin K, r[(i : ℕ)]? = some (σ i : ℕ) := by
  have hlen : r.length = K := by rw [h.length_eq, List.length_range]
  have hnd : r.Nodup := h.nodup_iff.mpr List.nodup_range
  have hlt : ∀ (i : ℕ) (hi : i < r.length), r[i] < K := fun i hi =>
    List.mem_range.mp (h.mem_iff.mp (List.getElem_mem hi))
  let f : Fin K → Fin K := fun i => ⟨r[(i : ℕ)]'(by rw [hlen]; exact i.2), hlt _ _⟩
  have hinj : Function.Injective f := by
    intro a b hab
    have : r[(a : ℕ)]'(by rw [hlen]; exact a.2) = r[(b : ℕ)]'(by rw [hlen]; exact b.2) := congrArg Fin.val hab
    exact Fin.ext ((hnd.getElem_inj_iff).mp this)
  refine ⟨Equiv.ofBijective f (Finite.injective_iff_bijective.mp hinj), fun i => ?_⟩
  rw [Equiv.ofBijective_apply, List.getElem?_eq_getElem (by rw [hlen]; exact i.2)]

theorem gather_relabel {γ : Type} {K : ℕ} {ranked : List ℕ} {σ : Equiv.Perm (Fin K)} (hlen : ranked.length = K)
    (hσ : ∀ i : Fin K, ranked[(i : ℕ)]? = some (σ i : ℕ)) {old new : List (List γ)}
    (h : old.mapM (gather ranked) = some new) : RelabelledBy K σ old new := by
  obtain ⟨h1, h2⟩ := mapM_get h
  refine ⟨h1, fun s hs => ?_⟩
  have hs' : s < new.length := by omega
  have hg := h2 s
  rw [List.getElem?_eq_getElem hs, List.getElem?_eq_getElem hs', Option.bind_some] at hg
  obtain ⟨g1, g2⟩ := mapM_get hg.symm
  rw [List.getElem?_eq_getElem hs, List.getElem?_eq_getElem hs']
  refine ⟨by simp [g1, hlen], fun i => ?_⟩
  rw [Option.bind_some, Option.bind_some, g2 i, hσ i, Option.bind_some]

theorem gather_exists {γ : Type} {K : ℕ} {ranked : List ℕ} (h : ranked.Perm (List.range K)) {old : List (List γ)}
    (ho : ∀ r ∈ old, r.length = K) : ∃ new, old.mapM (gather ranked) = some new := by
  apply mapM_exists
  intro r hr
  apply mapM_exists
  intro a ha
  have : a < r.length := by rw [ho r hr]; exact List.mem_range.mp (h.mem_iff.mp ha)
  exact ⟨r[a], List.getElem?_eq_getElem this⟩

theorem applyRanking_some {α β : Type} {ranked : List ℕ} {s s' : Stats α β} (h : applyRanking ranked s = some s') :
    s.clusters.mapM (gather ranked) = some s'.clusters ∧ s.lh.mapM (gather ranked) = some s'.lh ∧
      s.prior.mapM (gather ranked) = some s'.prior ∧ s.posterior.mapM (gather ranked) = some s'.posterior ∧
      s.effect.mapM (gather ranked) = some s'.effect := by
  unfold applyRanking at h
  cases h1 : s.clusters.mapM (gather ranked) with
  | none => rw [h1] at h; cases h
  | some a =>
    cases h2 : s.lh.mapM (gather ranked) with
    | none => rw [h1, h2] at h; cases h
    | some b =>
      cases h3 : s.prior.mapM (gather ranked) with
      | none => rw [h1, h2, h3] at h; cases h
      | some c =>
        cases h4 : s.posterior.mapM (gather ranked) with
        | none => rw [h1, h2, h3, h4] at h; cases h
        | some d =>
          cases h5 : s.effect.mapM (gather ranked) with
          | none => rw [h1, h2, h3, h4, h5] at h; cases h
          | some e =>
            rw [h1, h2, h3, h4, h5] at h
            cases h
            exact ⟨rfl, rfl, rfl, rfl, rfl⟩

theorem clusterMeans_some {K : ℕ} {post : List (List ℝ)} (hne : post ≠ []) (h : ∀ r ∈ post, r.length = K) :
    clusterMeans post = some ((List.range K).map (meanAt post)) := by
  cases post with
  | nil => exact absurd rfl hne
  | cons row rest =>
    have hrow : row.length = K := h row (by simp)
    unfold clusterMeans
    have : rest.all (fun r => r.length == row.length) = true := by
      rw [List.all_eq_true]
      intro r hr
      rw [hrow, h r (by simp [hr])]
      simp
    show (if _ then _ else _) = _
    rw [if_pos this, hrow]
    congr 1
    apply List.map_congr_left
    intro k _
    unfold mean meanAt
    rw [List.length_map]

/-- Relabelling moves the means. -/
theorem meanAt_relabelled {K : ℕ} {σ : Equiv.Perm (Fin K)} {old new : List (List ℝ)} (h : RelabelledBy K σ old new)
    (i : Fin K) : meanAt new i = meanAt old (σ i) := by
  unfold meanAt
  rw [h.1]
  congr 2
  apply List.ext_getElem?
  intro s
  rw [List.getElem?_map, List.getElem?_map]
  by_cases hs : s < old.length
  · have hs' : s < new.length := by rw [h.1]; exact hs
    have := (h.2 s hs).2 i
    rw [List.getElem?_eq_getElem hs, List.getElem?_eq_getElem hs'] at this ⊢
    rw [Option.bind_some, Option.bind_some] at this
    simp only [Option.map_some, Option.some.injEq, List.getD_eq_getElem?_getD]
    rw [this]
  · rw [List.getElem?_eq_none (by rw [h.1]; omega), List.getElem?_eq_none (by omega)]
    rfl

/-- **C70** Ranking the clusters of a run gives every cluster one new number, the same in all samples and in all
five statistics: nothing else changes, and the mean contribution to the posterior does not increase with the
number. -/
theorem C70_rank {α β : Type} {K : ℕ} {s s' : Stats α β} (hne : s.posterior ≠ [])
    (hK : ∀ r ∈ s.posterior, r.length = K) (h : RankClusters s s') :
    ∃ σ : Equiv.Perm (Fin K), RelabelledBy K σ s.clusters s'.clusters ∧ RelabelledBy K σ s.lh s'.lh ∧
      RelabelledBy K σ s.prior s'.prior ∧ RelabelledBy K σ s.posterior s'.posterior ∧
      RelabelledBy K σ s.effect s'.effect ∧
      ∀ i j : Fin K, i ≤ j → meanAt s'.posterior j ≤ meanAt s'.posterior i := by
  obtain ⟨means, ranked, h1, ⟨h2, h3⟩, h4⟩ := h
  rw [clusterMeans_some hne hK] at h1
  cases h1
  simp only [List.length_map, List.length_range] at h2
  obtain ⟨σ, hσ⟩ := perm_of_list h2
  have hlen : ranked.length = K := by rw [h2.length_eq, List.length_range]
  obtain ⟨a1, a2, a3, a4, a5⟩ := applyRanking_some h4
  have r4 := gather_relabel hlen hσ a4
  refine ⟨σ, gather_relabel hlen hσ a1, gather_relabel hlen hσ a2, gather_relabel hlen hσ a3, r4,
    gather_relabel hlen hσ a5, fun i j hij => ?_⟩
  rw [meanAt_relabelled r4, meanAt_relabelled r4]
  rcases eq_or_lt_of_le hij with e | hlt
  · rw [e]
  · have hi : (i : ℕ) < ranked.length := by rw [hlen]; exact i.2
    have hj : (j : ℕ) < ranked.length := by rw [hlen]; exact j.2
    have := (List.pairwise_iff_getElem.mp h3) i j hi hj hlt
    have ei := hσ i
    have ej := hσ j
    rw [List.getElem?_eq_getElem hi, Option.some.injEq] at ei
    rw [List.getElem?_eq_getElem hj, Option.some.injEq] at ej
    rw [ei, ej] at this
    have key : ∀ k : Fin K, (((List.range K).map (meanAt s.posterior)).map (fun x => -x)).getD (k : ℕ) 0 =
        - meanAt s.posterior k := by
      intro k
      rw [List.getD_eq_getElem?_getD, List.getElem?_map, List.getElem?_map, List.getElem?_range k.2]
      rfl
    rw [key, key] at this
    linarith

/-- **C70** Ranking succeeds whenever the statistics are complete. -/
theorem C70_rank_exists {α β : Type} {K : ℕ} {s : Stats α β} (hne : s.posterior ≠ [])
    (h1 : ∀ r ∈ s.clusters, r.length = K) (h2 : ∀ r ∈ s.lh, r.length = K) (h3 : ∀ r ∈ s.prior, r.length = K)
    (h4 : ∀ r ∈ s.posterior, r.length = K) (h5 : ∀ r ∈ s.effect, r.length = K) : ∃ s', RankClusters s s' := by
  let keys := ((List.range K).map (meanAt s.posterior)).map (fun x => -x)
  let ranked := (List.range K).insertionSort (fun a b => keys.getD a 0 ≤ keys.getD b 0)
  have hp : ranked.Perm (List.range K) := List.perm_insertionSort _ _
  have : Std.Total (fun a b : ℕ => keys.getD a 0 ≤ keys.getD b 0) := ⟨fun a b => le_total _ _⟩
  have : IsTrans ℕ (fun a b : ℕ => keys.getD a 0 ≤ keys.getD b 0) := ⟨fun a b c h h' => le_trans h h'⟩
  have hs : ranked.Pairwise (fun a b => keys.getD a 0 ≤ keys.getD b 0) := List.pairwise_insertionSort _ _
  obtain ⟨a, ha⟩ := gather_exists hp h1
  obtain ⟨b, hb⟩ := gather_exists hp h2
  obtain ⟨c, hc⟩ := gather_exists hp h3
  obtain ⟨d, hd⟩ := gather_exists hp h4
  obtain ⟨e, he⟩ := gather_exists hp h5
  refine ⟨⟨a, b, c, d, e⟩, _, ranked, clusterMeans_some hne h4, ⟨?_, hs⟩, ?_⟩
  · simpa using hp
  · unfold applyRanking
    rw [ha, hb, hc, hd, he]
    rfl

/-- The hypotheses are met: one sample of two clusters, the second with the larger posterior. -/
example : ∃ s' : Stats String String, RankClusters ⟨[["a", "b"]], [[1, 2]], [[0, 0]], [[1, 2]], [["x", "y"]]⟩ s' :=
  C70_rank_exists (K := 2) (by simp) (by simp) (by simp) (by simp) (by simp) (by simp)

/-- **C70** Aligning the samples of several chains never succeeds: whatever samples are given, the call raises (the
permutations it computes are thrown away, and it then indexes an empty list with them). -/
theorem C70_match_clusters_false {β : Type} (best : List (List Bool) → List (List ℕ) → List ℕ)
    (s : Stats (List Bool) β) : matchClusters best s = none := by
  unfold matchClusters
  cases hs : s.clusters with
  | nil => rfl
  | cons c r =>
    simp only [List.zipIdx_cons, List.mapM_cons]
    rfl

/-! ### The information criterion -/

theorem foldl_max {r : List ℝ} {x : ℝ} : IsMax (x :: r) (r.foldl max x) := by
  induction r generalizing x with
  | nil => exact ⟨by simp, by simp⟩
  | cons y r ih =>
    obtain ⟨h1, h2⟩ := ih (x := max x y)
    rw [List.foldl_cons]
    refine ⟨?_, ?_⟩
    · rcases List.mem_cons.mp h1 with h | h
      · rw [h]
        rcases max_cases x y with ⟨e, _⟩ | ⟨e, _⟩ <;> rw [e] <;> simp
      · simp [h]
    · intro z hz
      have hm : max x y ≤ r.foldl max (max x y) := h2 _ (by simp)
      rcases List.mem_cons.mp hz with h | h
      · rw [h]; exact le_trans (le_max_left _ _) hm
      · rcases List.mem_cons.mp h with h | h
        · rw [h]; exact le_trans (le_max_right _ _) hm
        · exact h2 z (by simp [h])

theorem isMax_unique {l : List ℝ} {a b : ℝ} (ha : IsMax l a) (hb : IsMax l b) : a = b :=
  le_antisymm (hb.2 a ha.1) (ha.2 b hb.1)

theorem sum_deviance (l : List ℝ) : (l.map deviance).sum = -2 * l.sum := by
  induction l with
  | nil => simp
  | cons x l ih => rw [List.map_cons, List.sum_cons, List.sum_cons, ih]; unfold deviance; ring

/-- **C71** What is reported instead of the criterion: the sign of the deviance at the best sample is wrong, so the
result is the criterion minus four times the largest log-likelihood. The number of samples dropped is right, and no
other sample matters. Missing from the full claim: that the result *is* the criterion (see
`C71_dic_false`). -/
theorem C71_dic_partial (lh : List ℝ) (burnIn best : ℝ) (h : IsMax (lh.drop ⌈(lh.length : ℝ) * burnIn⌉₊) best) :
    computeDic lh burnIn = some (dic (lh.drop ⌈(lh.length : ℝ) * burnIn⌉₊) best - 4 * best) := by
  unfold computeDic dropCeil
  cases hl : lh.drop ⌈(lh.length : ℝ) * burnIn⌉₊ with
  | nil =>
    rw [hl] at h
    exact absurd h.1 (by simp)
  | cons x r =>
    rw [hl] at h
    have hb : r.foldl max x = best := isMax_unique foldl_max h
    simp only [Option.some.injEq]
    unfold dic mean
    rw [sum_deviance, hb]
    unfold deviance
    ring

/-- **C71** The criterion is refused exactly when the burn-in leaves no sample. -/
theorem C71_dic_none (lh : List ℝ) (burnIn : ℝ) :
    computeDic lh burnIn = none ↔ lh.length ≤ ⌈(lh.length : ℝ) * burnIn⌉₊ := by
  unfold computeDic dropCeil
  rw [← List.drop_eq_nil_iff]
  cases lh.drop ⌈(lh.length : ℝ) * burnIn⌉₊ with
  | nil => simp
  | cons x r => simp

/-- **C71** Two models whose best retained samples are equally likely are put in the right order. -/
theorem C71_dic_order (lh lh' : List ℝ) (burnIn best : ℝ) {x x' : ℝ}
    (h : IsMax (lh.drop ⌈(lh.length : ℝ) * burnIn⌉₊) best) (h' : IsMax (lh'.drop ⌈(lh'.length : ℝ) * burnIn⌉₊) best)
    (hx : computeDic lh burnIn = some x) (hx' : computeDic lh' burnIn = some x') :
    x ≤ x' ↔ dic (lh.drop ⌈(lh.length : ℝ) * burnIn⌉₊) best ≤ dic (lh'.drop ⌈(lh'.length : ℝ) * burnIn⌉₊) best := by
  rw [C71_dic_partial lh burnIn best h, Option.some.injEq] at hx
  rw [C71_dic_partial lh' burnIn best h', Option.some.injEq] at hx'
  rw [← hx, ← hx']
  constructor <;> intro h <;> linarith

example : IsMax (([-1, -3] : List ℝ).drop ⌈(([-1, -3] : List ℝ).length : ℝ) * 0⌉₊) (-1) := by
  simp only [List.length_cons, List.length_nil, mul_zero, Nat.ceil_zero, List.drop_zero]
  refine ⟨by simp, fun x hx => ?_⟩
  simp only [List.mem_cons, List.not_mem_nil, or_false] at hx
  rcases hx with rfl | rfl <;> norm_num

/-- **C71** The full claim is false, and model selection is affected: for these two runs the criterion prefers the
first (20 against 30), the reported numbers prefer the second (60 against 34). -/
theorem C71_dic_false : dic [-10, -10] (-10) = 20 ∧ dic [-1, -15] (-1) = 30 ∧
    computeDic [-10, -10] 0 = some 60 ∧ computeDic [-1, -15] 0 = some 34 := by
  refine ⟨?_, ?_, ?_, ?_⟩
  · unfold dic deviance; norm_num
  · unfold dic deviance; norm_num
  · unfold computeDic dropCeil mean; norm_num
  · unfold computeDic dropCeil mean; norm_num

end SBayes.Post
