import Verif.Lemmas.Prior
import Mathlib.Tactic.NormNum
import Mathlib.Tactic.FinCases
import Mathlib.Analysis.SpecialFunctions.Exp
/- Theorems C12 (prior part), C13, C14, C15. -/
namespace SBayes.Prior
open scoped BigOperators
set_option linter.unusedSectionVars false
variable {K N : ℕ}

/-! ### C13 -/

/-- **C13.** `exp(log_multinom(N, sizes))` is the number of ways to place pairwise disjoint clusters
of the given sizes among `N` objects. -/
theorem C13_multinom_counts_placements (sizes : Fin K → ℕ) (h : ∑ k, sizes k ≤ N) :
    Real.exp (logMultinom N (List.ofFn sizes)) = (placements N sizes).card := by
  have hs : (List.ofFn sizes).sum = ∑ k, sizes k := List.sum_ofFn
  have hp : ((List.ofFn sizes).map Nat.factorial).prod = ∏ k, (sizes k).factorial := by
    rw [List.map_ofFn, List.prod_ofFn]; rfl
  have h1 := exp_logMultinom N (List.ofFn sizes) (by rw [hs]; exact h)
  have h2 := card_fams (Finset.univ : Finset (Fin N)) sizes (by simpa using h)
  rw [hs, hp] at h1
  rw [card_placements]
  simp only [Finset.card_univ, Fintype.card_fin] at h2
  rw [← h2] at h1
  have hpos : ((∏ k, (sizes k).factorial) * (N - ∑ k, sizes k).factorial : ℕ) ≠ 0 :=
    Nat.mul_ne_zero (Finset.prod_ne_zero_iff.mpr fun i _ => Nat.factorial_ne_zero _)
      (Nat.factorial_ne_zero _)
  rw [Nat.cast_mul (fams _ _).card] at h1
  exact mul_right_cancel₀ (by exact_mod_cast hpos) h1

/-- **C13**, factorial form. -/
theorem C13_multinom_factorials (n : ℕ) (ks : List ℕ) (h : ks.sum ≤ n) :
    Real.exp (logMultinom n ks) =
      n.factorial / ((ks.map Nat.factorial).prod * (n - ks.sum).factorial : ℕ) := by
  rw [← exp_logMultinom n ks h]
  have : ((ks.map Nat.factorial).prod * (n - ks.sum).factorial : ℕ) ≠ 0 := by
    refine Nat.mul_ne_zero (List.prod_ne_zero ?_) (Nat.factorial_ne_zero _)
    intro h0; obtain ⟨x, hx, he⟩ := List.mem_map.mp h0; exact Nat.factorial_ne_zero x he
  have h' : (((ks.map Nat.factorial).prod * (n - ks.sum).factorial : ℕ) : ℝ) ≠ 0 := by
    exact_mod_cast this
  rw [mul_div_assoc, div_self h', mul_one]

/-- **C13**, symmetry in the sizes. -/
theorem C13_multinom_symmetric (n : ℕ) (ks ks' : List ℕ) (h : ks.Perm ks') :
    logMultinom n ks = logMultinom n ks' := by
  have hf : (ks.filter (0 < ·)).Perm (ks'.filter (0 < ·)) := h.filter _
  unfold logMultinom
  simp only [h.sum_eq, hf.sum_eq, (hf.map _).sum_eq]

/-- **C13**, two-class case: `log_binom` is the logarithm of the binomial coefficient and agrees with
`log_multinom` of a single sample. -/
theorem C13_binom (n k : ℕ) (h : k ≤ n) :
    Real.exp (logBinom n k) = n.choose k ∧ logBinom n k = logMultinom n [k] := by
  have key : Real.exp (logBinom n k) = n.choose k := by
    unfold logBinom betaln
    have e1 : (1 + (n : ℝ) - k) = ((n - k : ℕ) : ℝ) + 1 := by rw [Nat.cast_sub h]; ring
    have e2 : (1 + (k : ℝ)) = (k : ℝ) + 1 := by ring
    have e3 : (((n - k : ℕ) : ℝ) + 1) + ((k : ℝ) + 1) = ((n + 1 : ℕ) : ℝ) + 1 := by
      rw [Nat.cast_sub h]; push_cast; ring
    rw [e1, e2, e3, Real.Gamma_nat_eq_factorial, Real.Gamma_nat_eq_factorial,
      Real.Gamma_nat_eq_factorial, Real.exp_sub, Real.exp_neg, Real.exp_log (by positivity),
      Real.exp_log (by positivity), Nat.cast_choose ℝ h, Nat.factorial_succ]
    push_cast
    have h1 : ((n - k).factorial : ℝ) ≠ 0 := by positivity
    have h2 : (k.factorial : ℝ) ≠ 0 := by positivity
    have h3 : ((n : ℝ) + 1) ≠ 0 := by positivity
    field_simp
  refine ⟨key, Real.exp_injective ?_⟩
  have h2 := exp_logMultinom n [k] (by simpa using h)
  rw [key, Nat.cast_choose ℝ h]
  simp only [List.sum_singleton, List.map_cons, List.map_nil, List.prod_singleton] at h2
  rw [← h2]
  push_cast
  have h1 : ((n - k).factorial : ℝ) ≠ 0 := by positivity
  have h2 : (k.factorial : ℝ) ≠ 0 := by positivity
  field_simp

/-- Non-vacuity: two clusters of sizes 2 and 1 among 5 objects. -/
example : ∑ k, (![2, 1] : Fin 2 → ℕ) k ≤ 5 := by decide

/-! ### C14 -/

/-- **C14.** Under `uniform_size`, for every size vector that fits the prior mass of all placements
of clusters with these sizes is 1: every size vector has the same total mass. -/
theorem C14_uniform_size_prior (sizes : Fin K → ℕ) (h : ∑ k, sizes k ≤ N) :
    ∑ cl ∈ placements N sizes, Real.exp (sizePrior .uniformSize cl) = 1 := by
  have hc : ∀ cl ∈ placements N sizes, Real.exp (sizePrior .uniformSize cl) =
      ((placements N sizes).card : ℝ)⁻¹ := by
    intro cl hcl
    have hcl' := (Finset.mem_filter.mp hcl).2
    have : ((List.finRange K).map fun k => clusterSize (cl k)) = List.ofFn sizes := by
      rw [List.ofFn_eq_map]
      refine List.map_congr_left fun k _ => ?_
      rw [clusterSize_eq, hcl'.2 k]
    simp only [sizePrior, this]
    rw [Real.exp_neg, C13_multinom_counts_placements sizes h]
  rw [Finset.sum_congr rfl hc, Finset.sum_const, nsmul_eq_mul]
  refine mul_inv_cancel₀ ?_
  rw [← C13_multinom_counts_placements sizes h]
  exact (Real.exp_pos _).ne'

/-- **C14**, consequence: summed over all admissible clusterings with sizes between `lo` and `hi`,
the (unnormalised) prior gives each admissible size vector weight one, so that the total mass is the
number of admissible size vectors. -/
theorem C14_total_mass (S : Finset (Fin K → ℕ)) (hS : ∀ s ∈ S, ∑ k, s k ≤ N) :
    ∑ s ∈ S, ∑ cl ∈ placements N s, Real.exp (sizePrior .uniformSize cl) = S.card := by
  rw [Finset.sum_congr rfl fun s hs => C14_uniform_size_prior s (hS s hs)]
  simp

/-! ### C12, prior part -/

/-- **C12** (size prior). Relabelling the clusters does not change the size prior, for any type. -/
theorem C12_size_prior_is_exchangeable (type : SizePriorType) (cl : Fin K → Fin N → Bool)
    (σ : Equiv.Perm (Fin K)) : sizePrior type (fun k => cl (σ k)) = sizePrior type cl := by
  have hp : ((List.finRange K).map fun k => clusterSize (cl (σ k))).Perm
      ((List.finRange K).map fun k => clusterSize (cl k)) := by
    rw [show ((List.finRange K).map fun k => clusterSize (cl (σ k))) =
      ((List.finRange K).map σ).map fun k => clusterSize (cl k) by rw [List.map_map]; rfl]
    exact List.Perm.map _ (by
      rw [List.perm_ext_iff_of_nodup ((List.nodup_finRange K).map σ.injective) (List.nodup_finRange K)]
      intro a
      simp only [List.mem_map, List.mem_finRange, true_and, iff_true]
      exact ⟨σ.symm a, by simp⟩)
  cases type with
  | uniformSize => simp only [sizePrior]; rw [C13_multinom_symmetric N _ _ hp]
  | quadraticSize => simp only [sizePrior]; rw [(hp.map _).sum_eq]
  | uniformArea => rfl

/-- **C12** (geo-prior). Relabelling the clusters does not change the cost-based geo-prior. -/
theorem C12_geo_prior_is_exchangeable (agg : Agg) (f : ProbFn) (scale : ℝ)
    (cost : Fin N → Fin N → ℝ) (mst : (z : Fin N → Bool) → SimpleGraph (Members z))
    (cl : Fin K → Fin N → Bool) (σ : Equiv.Perm (Fin K)) :
    geoPrior agg f scale cost mst (fun k => cl (σ k)) = geoPrior agg f scale cost mst cl := by
  have hall : (∀ k, 1 < clusterSize (cl (σ k))) ↔ ∀ k, 1 < clusterSize (cl k) :=
    ⟨fun h k => by simpa using h (σ.symm k), fun h k => h _⟩
  unfold geoPrior
  by_cases h : ∀ k, 1 < clusterSize (cl k)
  · rw [if_pos h, if_pos (hall.mpr h)]
    congr 1
    exact Equiv.sum_comp σ (fun k => f.eval scale (agg.eval
      (distances (fun i j : Members (cl k) => cost i j) (mst (cl k)))))
  · rw [if_neg h, if_neg (fun h' => h (hall.mp h'))]

/-! ### C15 -/

/-- **C15** (distance to probability). Each probability function maps 0 to log-probability 0, is
strictly decreasing, and hence not positive for non-negative costs. -/
theorem C15_probability_functions (f : ProbFn) (scale : ℝ) (hs : 0 < scale) :
    f.eval scale 0 = 0 ∧ StrictAnti (f.eval scale) ∧ ∀ x, 0 ≤ x → f.eval scale x ≤ 0 := by
  have h0 : f.eval scale 0 = 0 := by
    cases f with
    | exponential => simp [ProbFn.eval]
    | sigmoid x0 => simp [ProbFn.eval]
  have hanti : StrictAnti (f.eval scale) := by
    intro x y hxy
    cases f with
    | exponential =>
      simp only [ProbFn.eval]
      exact div_lt_div_of_pos_right (by linarith) hs
    | sigmoid x0 =>
      simp only [ProbFn.eval]
      apply sub_lt_sub_right
      unfold logExpit
      apply Real.log_lt_log (by positivity)
      apply one_div_lt_one_div_of_lt (by positivity)
      apply add_lt_add_right
      apply Real.exp_lt_exp.mpr
      rw [neg_div, neg_div, neg_neg, neg_neg]
      exact div_lt_div_of_pos_right (by linarith) hs
  refine ⟨h0, hanti, fun x hx => ?_⟩
  rw [← h0]; exact hanti.antitone hx

section Trees
open Classical
variable {V : Type} [Fintype V]

/-- A minimum spanning tree exists (so the statements about it are not vacuous). -/
theorem exists_mst [Nonempty V] (cost : V → V → ℝ) : ∃ T, IsMST cost T := by
  have hconn : (⊤ : SimpleGraph V).Connected := by
    exact SimpleGraph.connected_top
  obtain ⟨T0, -, hT0⟩ := hconn.exists_isTree_le
  obtain ⟨T, hT, hmin⟩ := Set.exists_min_image {T : SimpleGraph V | T.IsTree}
    (fun T => ∑ e ∈ T.edgeFinset, edgeCost cost e) (Set.toFinite _) ⟨T0, hT0⟩
  exact ⟨T, hT, fun T' hT' => hmin T' hT'⟩

theorem edgeCost_mono {c c' : V → V → ℝ} (h : ∀ i j, c i j ≤ c' i j) (e : Sym2 V) :
    edgeCost c e ≤ edgeCost c' e := by
  induction e using Sym2.ind with
  | _ u v => exact min_le_min (h u v) (h v u)

theorem edgeCost_nonneg {c : V → V → ℝ} (h : ∀ i j, 0 ≤ c i j) (e : Sym2 V) :
    0 ≤ edgeCost c e := by
  induction e using Sym2.ind with
  | _ u v => exact le_min (h u v) (h v u)

theorem distances_sum (c : V → V → ℝ) (T : SimpleGraph V) :
    (distances c T).sum = ∑ e ∈ T.edgeFinset, edgeCost c e := by
  have hz : ∀ m : Multiset ℝ, (m.filter (· ≠ 0)).sum = m.sum := by
    intro m
    induction m using Multiset.induction with
    | empty => rfl
    | cons a m ih =>
      by_cases ha : a = 0
      · subst ha; simp at ih ⊢; exact ih
      · rw [Multiset.filter_cons_of_pos (p := (· ≠ 0)) m ha, Multiset.sum_cons, ih, Multiset.sum_cons]
  unfold distances
  simp only
  split
  · rename_i h
    have := hz (T.edgeFinset.val.map (edgeCost c))
    rw [h] at this
    rw [Multiset.sum_singleton, Finset.sum_eq_multiset_sum, ← this, Multiset.sum_zero]
  · rw [hz]; rfl

theorem distances_ne_zero (c : V → V → ℝ) (T : SimpleGraph V) : distances c T ≠ 0 := by
  unfold distances; simp only; split
  · simp
  · assumption

theorem mem_distances {c : V → V → ℝ} {T : SimpleGraph V} {x : ℝ} (h : x ∈ distances c T) :
    x = 0 ∨ ∃ e ∈ T.edgeSet, x = edgeCost c e := by
  unfold distances at h
  simp only at h
  split at h
  · left; simpa using h
  · right
    obtain ⟨hx, -⟩ := Multiset.mem_filter.mp h
    obtain ⟨e, he, rfl⟩ := Multiset.mem_map.mp hx
    exact ⟨e, SimpleGraph.mem_edgeFinset.mp he, rfl⟩

theorem edge_mem_distances {c : V → V → ℝ} {T : SimpleGraph V} {e : Sym2 V} (he : e ∈ T.edgeSet)
    (h0 : edgeCost c e ≠ 0) : edgeCost c e ∈ distances c T := by
  have : edgeCost c e ∈ (T.edgeFinset.val.map (edgeCost c)).filter (· ≠ 0) :=
    Multiset.mem_filter.mpr ⟨Multiset.mem_map.mpr ⟨e, SimpleGraph.mem_edgeFinset.mpr he, rfl⟩, h0⟩
  unfold distances; simp only
  rw [if_neg (fun hh => by rw [hh] at this; simp at this)]
  exact this

theorem distances_nonneg {c : V → V → ℝ} (hc : ∀ i j, 0 ≤ c i j) {T : SimpleGraph V} {x : ℝ}
    (h : x ∈ distances c T) : 0 ≤ x := by
  rcases mem_distances h with rfl | ⟨e, -, rfl⟩
  · exact le_refl _
  · exact edgeCost_nonneg hc e

theorem bddAbove_mem (m : Multiset ℝ) : BddAbove {x | x ∈ m} := by
  have : {x | x ∈ m} = (m.toFinset : Set ℝ) := by ext; simp
  rw [this]; exact m.toFinset.bddAbove

/-- The largest edge of a minimum spanning tree is at most the largest edge of any spanning tree. -/
theorem mst_bottleneck {c : V → V → ℝ} {T T' : SimpleGraph V} (hT : IsMST c T) (hT' : T'.Connected)
    {e : Sym2 V} (he : e ∈ T.edgeSet) : ∃ f ∈ T'.edgeSet, edgeCost c e ≤ edgeCost c f := by
  obtain ⟨f, hf, hnot, U, hU, hUe⟩ := exists_exchange hT.1 hT' he
  refine ⟨f, hf, ?_⟩
  have hUf : U.edgeFinset = insert f (T.edgeFinset \ {e}) := by
    ext x; rw [SimpleGraph.mem_edgeFinset, hUe]; simp
  have hsum := hT.2 U hU
  have hnf : f ∉ T.edgeFinset \ {e} := by simpa using hnot
  have hef : e ∈ T.edgeFinset := SimpleGraph.mem_edgeFinset.mpr he
  rw [hUf, Finset.sum_insert hnf, ← Finset.add_sum_erase _ _ hef, ← Finset.sdiff_singleton_eq_erase] at hsum
  linarith

/-- The aggregated cost of a cluster is monotone in the costs for `sum` and `max`. -/
theorem agg_mono {c c' : V → V → ℝ} (hc : ∀ i j, 0 ≤ c i j) (h : ∀ i j, c i j ≤ c' i j)
    {T T' : SimpleGraph V} (hT : IsMST c T) (hT' : IsMST c' T') (agg : Agg) (ha : agg ≠ .mean) :
    agg.eval (distances c T) ≤ agg.eval (distances c' T') := by
  have hc' : ∀ i j, 0 ≤ c' i j := fun i j => (hc i j).trans (h i j)
  cases agg with
  | mean => exact absurd rfl ha
  | sum =>
    simp only [Agg.eval, distances_sum]
    exact (hT.2 T' hT'.1).trans (Finset.sum_le_sum fun e _ => edgeCost_mono h e)
  | max =>
    simp only [Agg.eval]
    obtain ⟨y0, hy0⟩ := Multiset.exists_mem_of_ne_zero (distances_ne_zero c' T')
    have hge : ∀ y ∈ distances c' T', y ≤ sSup {x | x ∈ distances c' T'} :=
      fun y hy => le_csSup (bddAbove_mem _) hy
    have h0 : 0 ≤ sSup {x | x ∈ distances c' T'} := (distances_nonneg hc' hy0).trans (hge y0 hy0)
    apply csSup_le
    · exact Multiset.exists_mem_of_ne_zero (distances_ne_zero c T)
    · intro x hx
      rcases mem_distances hx with rfl | ⟨e, he, rfl⟩
      · exact h0
      · obtain ⟨f, hf, hle⟩ := mst_bottleneck hT hT'.1.connected he
        have hle' := hle.trans (edgeCost_mono h f)
        by_cases hz : edgeCost c' f = 0
        · exact (hle'.trans hz.le).trans h0
        · exact hle'.trans (hge _ (edge_mem_distances hf hz))

theorem distances_of_pos [Nontrivial V] {c : V → V → ℝ} (hc : ∀ i j, i ≠ j → 0 < c i j)
    {T : SimpleGraph V} (hT : T.IsTree) :
    (distances c T).card = Fintype.card V - 1 := by
  have hpos : ∀ e ∈ T.edgeSet, edgeCost c e ≠ 0 := by
    intro e
    induction e using Sym2.ind with
    | _ u v =>
      intro huv
      exact (lt_min (hc u v huv.ne) (hc v u huv.ne.symm)).ne'
  have hcard := hT.card_edgeFinset
  have hnz : ((T.edgeFinset.val.map (edgeCost c)).filter (· ≠ 0)) = T.edgeFinset.val.map (edgeCost c) := by
    apply Multiset.filter_eq_self.mpr
    intro x hx
    obtain ⟨e, he, rfl⟩ := Multiset.mem_map.mp hx
    exact hpos e (SimpleGraph.mem_edgeFinset.mp he)
  have h1 : 1 < Fintype.card V := Fintype.one_lt_card
  have hc2 : T.edgeFinset.card = Fintype.card V - 1 := by omega
  unfold distances; simp only; rw [hnz]
  rw [if_neg]
  · rw [Multiset.card_map]; exact hc2
  · intro h0
    have := congrArg Multiset.card h0
    rw [Multiset.card_map] at this
    have h2 : T.edgeFinset.card = 0 := this
    omega

/-- `mean` is monotone if all costs between different objects are positive. -/
theorem mean_mono [Nontrivial V] {c c' : V → V → ℝ} (hc : ∀ i j, i ≠ j → 0 < c i j)
    (h : ∀ i j, c i j ≤ c' i j)
    {T T' : SimpleGraph V} (hT : IsMST c T) (hT' : IsMST c' T') :
    Agg.mean.eval (distances c T) ≤ Agg.mean.eval (distances c' T') := by
  simp only [Agg.eval]
  rw [distances_of_pos hc hT.1, distances_of_pos (fun i j hij => (hc i j hij).trans_le (h i j)) hT'.1,
    distances_sum, distances_sum]
  apply div_le_div_of_nonneg_right _ (Nat.cast_nonneg _)
  exact (hT.2 T' hT'.1).trans (Finset.sum_le_sum fun e _ => edgeCost_mono h e)

/-- All minimum spanning trees have the same edge costs, as often. -/
theorem mst_costs_unique {c : V → V → ℝ} {T' : SimpleGraph V} (hT' : IsMST c T') : ∀ (n : ℕ) (T : SimpleGraph V),
    (T.edgeFinset \ T'.edgeFinset).card = n → IsMST c T →
    T.edgeFinset.val.map (edgeCost c) = T'.edgeFinset.val.map (edgeCost c) := by
  intro n
  induction n with
  | zero =>
    intro T h0 hT
    have hsub : T.edgeFinset ⊆ T'.edgeFinset := by
      rw [← Finset.sdiff_eq_empty_iff_subset, ← Finset.card_eq_zero, h0]
    have hc1 := hT.1.card_edgeFinset
    have hc2 := hT'.1.card_edgeFinset
    rw [Finset.eq_of_subset_of_card_le hsub (by omega)]
  | succ n ih =>
    intro T hn hT
    -- an edge of largest cost on each side
    have hcross : ∀ {A B : SimpleGraph V}, IsMST c A → IsMST c B → ∀ e ∈ A.edgeFinset \ B.edgeFinset,
        ∃ f ∈ B.edgeFinset \ A.edgeFinset, edgeCost c e ≤ edgeCost c f ∧
          ∃ U : SimpleGraph V, U.IsTree ∧ U.edgeFinset = insert f (A.edgeFinset \ {e}) := by
      intro A B hA hB e he
      rw [Finset.mem_sdiff, SimpleGraph.mem_edgeFinset, SimpleGraph.mem_edgeFinset] at he
      obtain ⟨f, hf, hnot, U, hU, hUe⟩ := exists_exchange hA.1 hB.1.connected he.1
      have hUf : U.edgeFinset = insert f (A.edgeFinset \ {e}) := by
        ext x; rw [SimpleGraph.mem_edgeFinset, hUe]; simp
      have hfe : f ≠ e := fun h => he.2 (h ▸ hf)
      have hfA : f ∉ A.edgeSet := fun h => hnot ⟨h, hfe⟩
      refine ⟨f, ?_, ?_, U, hU, hUf⟩
      · rw [Finset.mem_sdiff, SimpleGraph.mem_edgeFinset, SimpleGraph.mem_edgeFinset]
        exact ⟨hf, hfA⟩
      · have hsum := hA.2 U hU
        have hnf : f ∉ A.edgeFinset \ {e} := by simpa using hnot
        have hef : e ∈ A.edgeFinset := SimpleGraph.mem_edgeFinset.mpr he.1
        rw [hUf, Finset.sum_insert hnf, ← Finset.add_sum_erase _ _ hef, ← Finset.sdiff_singleton_eq_erase] at hsum
        linarith
    have hne : (T.edgeFinset \ T'.edgeFinset).Nonempty := by
      rw [← Finset.card_pos]; omega
    obtain ⟨e, he, hmax⟩ := Finset.exists_max_image _ (edgeCost c) hne
    obtain ⟨f, hf, hef, U, hU, hUf⟩ := hcross hT hT' e he
    obtain ⟨g, hg, hfg, -⟩ := hcross hT' hT f hf
    have heq : edgeCost c e = edgeCost c f := le_antisymm hef (hfg.trans (hmax g hg))
    rw [Finset.mem_sdiff] at he hf
    have hfn : f ∉ T.edgeFinset \ {e} := fun h => hf.2 (Finset.mem_sdiff.1 h).1
    have hmap : U.edgeFinset.val.map (edgeCost c) = T.edgeFinset.val.map (edgeCost c) := by
      have hT2 : T.edgeFinset = insert e (T.edgeFinset \ {e}) := by
        rw [Finset.sdiff_singleton_eq_erase, Finset.insert_erase he.1]
      rw [hUf, hT2, Finset.insert_val_of_notMem (by rw [← hT2]; exact hfn), Finset.insert_val_of_notMem (by simp), Multiset.map_cons, Multiset.map_cons,
        heq, ← hT2]
    have hUm : IsMST c U := by
      refine ⟨hU, fun W hW => le_trans (le_of_eq ?_) (hT.2 W hW)⟩
      rw [Finset.sum_eq_multiset_sum, Finset.sum_eq_multiset_sum, hmap]
    rw [← hmap]
    refine ih U ?_ hUm
    have h1 : U.edgeFinset \ T'.edgeFinset = (T.edgeFinset \ T'.edgeFinset).erase e := by
      ext x
      rw [hUf]
      simp only [Finset.mem_sdiff, Finset.mem_insert, Finset.mem_singleton, Finset.mem_erase]
      constructor
      · rintro ⟨rfl | ⟨h1, h2⟩, h3⟩
        · exact absurd hf.1 h3
        · exact ⟨h2, h1, h3⟩
      · rintro ⟨h1, h2, h3⟩
        exact ⟨Or.inr ⟨h2, h1⟩, h3⟩
    rw [h1, Finset.card_erase_of_mem (Finset.mem_sdiff.2 he), hn]
    rfl

end Trees

theorem members_nontrivial {z : Fin N → Bool} (h : 1 < clusterSize z) : Nontrivial (Members z) := by
  rw [clusterSize_eq] at h
  obtain ⟨a, ha, b, hb, hab⟩ := Finset.one_lt_card.mp h
  simp only [Finset.mem_filter, Finset.mem_univ, true_and] at ha hb
  exact ⟨⟨a, ha⟩, ⟨b, hb⟩, fun he => hab (congrArg Subtype.val he)⟩

/-- **C15** (monotonicity, `sum` and `max`). If no cost decreases, the geo-prior of any clusters does
not increase — whichever minimum spanning trees the library picks; and the prior is defined
(all clusters have at least two objects) in the same cases. -/
theorem C15_geo_prior_decreases_with_cost (agg : Agg) (ha : agg ≠ .mean) (f : ProbFn) (scale : ℝ)
    (hs : 0 < scale) (cost cost' : Fin N → Fin N → ℝ) (h0 : ∀ i j, 0 ≤ cost i j)
    (hle : ∀ i j, cost i j ≤ cost' i j) (mst mst' : (z : Fin N → Bool) → SimpleGraph (Members z))
    (cl : Fin K → Fin N → Bool)
    (hm : ∀ k, IsMST (fun i j : Members (cl k) => cost i j) (mst (cl k)))
    (hm' : ∀ k, IsMST (fun i j : Members (cl k) => cost' i j) (mst' (cl k))) :
    (∃ x y, geoPrior agg f scale cost mst cl = some x ∧ geoPrior agg f scale cost' mst' cl = some y ∧
      y ≤ x) ∨
    (geoPrior agg f scale cost mst cl = none ∧ geoPrior agg f scale cost' mst' cl = none ∧
      ∃ k, clusterSize (cl k) ≤ 1) := by
  unfold geoPrior
  by_cases h : ∀ k, 1 < clusterSize (cl k)
  · left
    rw [if_pos h, if_pos h]
    refine ⟨_, _, rfl, rfl, Finset.sum_le_sum fun k _ => ?_⟩
    refine (C15_probability_functions f scale hs).2.1.antitone ?_
    exact agg_mono (c := fun i j : Members (cl k) => cost i j)
      (c' := fun i j : Members (cl k) => cost' i j)
      (fun i j => h0 i j) (fun i j => hle i j) (hm k) (hm' k) agg ha
  · right
    rw [if_neg h, if_neg h]
    push Not at h
    exact ⟨rfl, rfl, h⟩

/-- **C15** (monotonicity, `mean`), partial: holds if all costs between different objects are
positive. -/
theorem C15_geo_prior_mean_decreases_with_cost_partial (f : ProbFn) (scale : ℝ)
    (hs : 0 < scale) (cost cost' : Fin N → Fin N → ℝ) (h0 : ∀ i j, i ≠ j → 0 < cost i j)
    (hle : ∀ i j, cost i j ≤ cost' i j) (mst mst' : (z : Fin N → Bool) → SimpleGraph (Members z))
    (cl : Fin K → Fin N → Bool) (hsize : ∀ k, 1 < clusterSize (cl k))
    (hm : ∀ k, IsMST (fun i j : Members (cl k) => cost i j) (mst (cl k)))
    (hm' : ∀ k, IsMST (fun i j : Members (cl k) => cost' i j) (mst' (cl k))) :
    ∃ x y, geoPrior .mean f scale cost mst cl = some x ∧
      geoPrior .mean f scale cost' mst' cl = some y ∧ y ≤ x := by
  unfold geoPrior
  rw [if_pos hsize, if_pos hsize]
  refine ⟨_, _, rfl, rfl, Finset.sum_le_sum fun k _ => ?_⟩
  refine (C15_probability_functions f scale hs).2.1.antitone ?_
  have := members_nontrivial (hsize k)
  exact mean_mono (c := fun i j : Members (cl k) => cost i j)
    (c' := fun i j : Members (cl k) => cost' i j) (fun i j hij => h0 i j (fun he => hij (Subtype.ext he)))
    (fun i j => hle i j) (hm k) (hm' k)

/-- **C15** The geo-prior is well defined: it does not depend on which minimum spanning trees the library picks, for every
aggregation. -/
theorem C15_any_minimum_spanning_tree (agg : Agg) (f : ProbFn) (scale : ℝ) (cost : Fin N → Fin N → ℝ)
    (mst mst' : (z : Fin N → Bool) → SimpleGraph (Members z)) (cl : Fin K → Fin N → Bool)
    (hm : ∀ k, IsMST (fun i j : Members (cl k) => cost i j) (mst (cl k)))
    (hm' : ∀ k, IsMST (fun i j : Members (cl k) => cost i j) (mst' (cl k))) :
    geoPrior agg f scale cost mst cl = geoPrior agg f scale cost mst' cl := by
  have h : ∀ k, distances (fun i j : Members (cl k) => cost i j) (mst (cl k)) =
      distances (fun i j : Members (cl k) => cost i j) (mst' (cl k)) := by
    intro k
    unfold distances
    rw [mst_costs_unique (hm' k) _ _ rfl (hm k)]
  unfold geoPrior
  simp only [h]

/-- The star of three objects with centre `a`. -/
def starGraph (a : Fin 3) : SimpleGraph (Fin 3) :=
  ⟨fun i j => i ≠ j ∧ (i = a ∨ j = a), ⟨fun _ _ h => ⟨h.1.symm, h.2.symm⟩⟩, ⟨fun _ h => h.1 rfl⟩⟩

instance (a : Fin 3) : DecidableRel (starGraph a).Adj := fun i j => by unfold starGraph; infer_instance

theorem starGraph_isTree (a : Fin 3) : (starGraph a).IsTree := by
  rw [SimpleGraph.isTree_iff_connected_and_card]
  refine ⟨?_, ?_⟩
  · rw [SimpleGraph.connected_iff_exists_forall_reachable]
    refine ⟨a, fun w => ?_⟩
    by_cases h : a = w
    · subst h; exact SimpleGraph.Reachable.refl _
    · exact SimpleGraph.Adj.reachable ⟨h, Or.inl rfl⟩
  · rw [Nat.card_eq_fintype_card, Nat.card_eq_fintype_card]
    revert a
    decide

/-- The hypotheses are met by different trees: with equal costs of three objects, two different stars. -/
example : ∃ T T' : SimpleGraph (Fin 3), IsMST (fun _ _ => (1 : ℝ)) T ∧ IsMST (fun _ _ => (1 : ℝ)) T' ∧ T ≠ T' := by
  classical
  have hcost : ∀ T : SimpleGraph (Fin 3), T.IsTree → IsMST (fun _ _ => (1 : ℝ)) T := by
    intro T hT
    refine ⟨hT, fun T' hT' => ?_⟩
    have he : ∀ e : Sym2 (Fin 3), edgeCost (fun _ _ => (1 : ℝ)) e = 1 := by
      intro e
      induction e using Sym2.ind with
      | _ u v => simp [edgeCost]
    simp only [he, Finset.sum_const, nsmul_eq_mul, mul_one]
    have h1 := hT.card_edgeFinset
    have h2 := hT'.card_edgeFinset
    exact_mod_cast (by omega : _ ≤ _)
  refine ⟨starGraph 0, starGraph 1, hcost _ (starGraph_isTree 0), hcost _ (starGraph_isTree 1), fun h => ?_⟩
  have h1 : (starGraph 1).Adj 0 2 := h ▸ (⟨by decide, Or.inl rfl⟩ : (starGraph 0).Adj 0 2)
  revert h1
  decide

/-- **C15** (sign). For non-negative costs the geo-prior is never positive; if all costs are zero it
is zero, for every aggregation. -/
theorem C15_geo_prior_sign (agg : Agg) (f : ProbFn) (scale : ℝ) (hs : 0 < scale)
    (cost : Fin N → Fin N → ℝ) (h0 : ∀ i j, 0 ≤ cost i j)
    (mst : (z : Fin N → Bool) → SimpleGraph (Members z)) (cl : Fin K → Fin N → Bool) (x : ℝ)
    (hx : geoPrior agg f scale cost mst cl = some x) :
    x ≤ 0 ∧ ((∀ i j, cost i j = 0) → x = 0) := by
  unfold geoPrior at hx
  split at hx
  · cases hx
    obtain ⟨hz, -, hneg⟩ := C15_probability_functions f scale hs
    constructor
    · refine Finset.sum_nonpos fun k _ => hneg _ ?_
      set D := distances (fun i j : Members (cl k) => cost i j) (mst (cl k))
      have hD : ∀ y ∈ D, 0 ≤ y := fun y hy =>
        distances_nonneg (c := fun i j : Members (cl k) => cost i j) (fun i j => h0 i j) hy
      cases agg with
      | mean => exact div_nonneg (Multiset.sum_nonneg hD) (Nat.cast_nonneg _)
      | sum => exact Multiset.sum_nonneg hD
      | max =>
        obtain ⟨y, hy⟩ := Multiset.exists_mem_of_ne_zero
          (distances_ne_zero (fun i j : Members (cl k) => cost i j) (mst (cl k)))
        exact (hD y hy).trans (le_csSup (bddAbove_mem _) hy)
    · intro hcz
      refine Finset.sum_eq_zero fun k _ => ?_
      set D := distances (fun i j : Members (cl k) => cost i j) (mst (cl k)) with hDdef
      have hD : ∀ y ∈ D, y = 0 := by
        intro y hy
        rcases mem_distances (c := fun i j : Members (cl k) => cost i j) hy with rfl | ⟨e, -, rfl⟩
        · rfl
        · induction e using Sym2.ind with
          | _ u v => simp [edgeCost, hcz]
      have hs0 : D.sum = 0 := Multiset.sum_eq_zero hD
      rw [show agg.eval D = 0 from ?_, hz]
      cases agg with
      | mean => simp [Agg.eval, hs0]
      | sum => exact hs0
      | max =>
        obtain ⟨y, hy⟩ := Multiset.exists_mem_of_ne_zero
          (distances_ne_zero (fun i j : Members (cl k) => cost i j) (mst (cl k)))
        have : {x | x ∈ D} = {0} := by
          ext w; constructor
          · intro hw; exact hD w hw
          · intro hw; rw [Set.mem_singleton_iff.mp hw, ← hD y hy]; exact hy
        simp [Agg.eval, this]
  · cases hx

/-- Non-vacuity of the C15 statements: minimum spanning trees exist for every cluster with two or
more objects. -/
example (cost : Fin 4 → Fin 4 → ℝ) : ∃ T : SimpleGraph (Members (fun _ : Fin 4 => true)),
    IsMST (fun i j : Members (fun _ : Fin 4 => true) => cost i j) T ∧
    1 < clusterSize (fun _ : Fin 4 => true) := by
  have : Nonempty (Members (fun _ : Fin 4 => true)) := ⟨⟨0, rfl⟩⟩
  obtain ⟨T, hT⟩ := exists_mst (fun i j : Members (fun _ : Fin 4 => true) => cost i j)
  exact ⟨T, hT, by decide⟩

/-! ### `mean` is not monotone -/

/-- Costs of the counterexample: object 2 is at distance 10 from the objects 0 and 1, which are at
distance `a` from each other. -/
def cexCost (a : ℝ) (i j : Fin 3) : ℝ := if i = j then 0 else if i = 2 ∨ j = 2 then 10 else a

/-- The cluster of the counterexample: all three objects. -/
abbrev cexZ : Fin 3 → Bool := fun _ => true

section Cex
open Classical

/-- Costs between the members. -/
abbrev cexC (a : ℝ) : Members cexZ → Members cexZ → ℝ := fun i j => cexCost a i j

theorem cexC_nonneg {a : ℝ} (ha : 0 ≤ a) (i j) : 0 ≤ cexC a i j := by
  simp only [cexC, cexCost]; split
  · exact le_refl _
  · split
    · norm_num
    · exact ha

theorem cex_edge {a : ℝ} {u v : Members cexZ} (h : u ≠ v) :
    edgeCost (cexC a) s(u, v) = if u.1 = 2 ∨ v.1 = 2 then 10 else a := by
  have hv : u.1 ≠ v.1 := fun he => h (Subtype.ext he)
  simp only [edgeCost, Sym2.lift_mk, cexC, cexCost, hv, hv.symm, if_false]
  by_cases h2 : u.1 = 2 ∨ v.1 = 2
  · rw [if_pos h2, if_pos h2.symm]; simp
  · rw [if_neg h2, if_neg (fun hh => h2 hh.symm)]; simp

theorem cex_total {a : ℝ} (ha : 0 ≤ a) (ha' : a ≤ 10) {T : SimpleGraph (Members cexZ)}
    (hT : IsMST (cexC a) T) : ∑ e ∈ T.edgeFinset, edgeCost (cexC a) e = 10 + a := by
  have : Nonempty (Members cexZ) := ⟨⟨0, rfl⟩⟩
  have hcard : Fintype.card (Members cexZ) = 3 := by
    rw [Fintype.card_subtype]; rfl
  apply le_antisymm
  · -- the path 0 - 1 - 2
    let P : SimpleGraph (Members cexZ) :=
      { Adj := fun i j => i ≠ j ∧ (i.1 = 1 ∨ j.1 = 1)
        symm := ⟨fun i j h => ⟨h.1.symm, h.2.symm⟩⟩
        loopless := ⟨fun i h => h.1 rfl⟩ }
    have hP : P.Connected := by
      have h1 : ∀ i, P.Reachable i ⟨1, rfl⟩ := by
        intro i
        by_cases hi : i = ⟨1, rfl⟩
        · rw [hi]
        · exact SimpleGraph.Adj.reachable (G := P) ⟨hi, .inr rfl⟩
      exact ⟨fun i j => (h1 i).trans (h1 j).symm⟩
    obtain ⟨T0, hle, hT0⟩ := hP.exists_isTree_le
    refine (hT.2 T0 hT0).trans ?_
    have hsub : T0.edgeFinset ⊆ {s(⟨0, rfl⟩, ⟨1, rfl⟩), s(⟨1, rfl⟩, ⟨2, rfl⟩)} := by
      intro e he
      have he' : e ∈ P.edgeSet := SimpleGraph.edgeSet_mono hle (SimpleGraph.mem_edgeFinset.mp he)
      revert he'
      clear he
      induction e using Sym2.ind with
      | _ u v =>
        intro huv
        obtain ⟨hne, h1⟩ : u ≠ v ∧ (u.1 = 1 ∨ v.1 = 1) := huv
        obtain ⟨u, hu⟩ := u
        obtain ⟨v, hv⟩ := v
        simp only at h1
        fin_cases u <;> fin_cases v <;> simp_all
    refine (Finset.sum_le_sum_of_subset_of_nonneg hsub
      (fun e _ _ => edgeCost_nonneg (cexC_nonneg ha) e)).trans ?_
    rw [Finset.sum_insert (by simp), Finset.sum_singleton, cex_edge (by simp),
      cex_edge (by simp)]
    simp [add_comm]
  · have hconn := hT.1.connected
    have hcards : T.edgeFinset.card = 2 := by
      have := hT.1.card_edgeFinset; omega
    -- an edge at 2
    obtain ⟨w⟩ := hconn.preconnected ⟨2, rfl⟩ ⟨0, rfl⟩
    obtain ⟨u, hu⟩ : ∃ u, T.Adj ⟨2, rfl⟩ u := by
      cases w with
      | cons h _ => exact ⟨_, h⟩
    have hmem : s(⟨2, rfl⟩, u) ∈ T.edgeFinset := SimpleGraph.mem_edgeFinset.mpr hu
    rw [← Finset.add_sum_erase _ _ hmem, cex_edge hu.ne, if_pos (.inl rfl)]
    have hc1 : (T.edgeFinset.erase s(⟨2, rfl⟩, u)).card = 1 := by
      rw [Finset.card_erase_of_mem hmem, hcards]
    obtain ⟨f, hf⟩ := Finset.card_eq_one.mp hc1
    rw [hf, Finset.sum_singleton]
    have hfT : f ∈ T.edgeFinset := Finset.mem_of_mem_erase (hf ▸ Finset.mem_singleton_self f)
    revert hfT
    clear hf
    induction f using Sym2.ind with
    | _ x y =>
      intro hfT
      have hxy : T.Adj x y := SimpleGraph.mem_edgeFinset.mp hfT
      rw [cex_edge hxy.ne]
      split <;> linarith

theorem cex_mean0 {T : SimpleGraph (Members cexZ)} (hT : IsMST (cexC 0) T) :
    Agg.mean.eval (distances (cexC 0) T) = 10 := by
  have hsum : (distances (cexC 0) T).sum = 10 := by
    rw [distances_sum, cex_total (le_refl _) (by norm_num) hT]; norm_num
  have hall : ∀ x ∈ distances (cexC 0) T, x = 10 := by
    intro x hx
    unfold distances at hx hsum
    simp only at hx hsum
    split at hx
    · rename_i h0; rw [if_pos h0] at hsum; norm_num at hsum
    · obtain ⟨hx, hne⟩ := Multiset.mem_filter.mp hx
      obtain ⟨e, he, rfl⟩ := Multiset.mem_map.mp hx
      have he' : e ∈ T.edgeSet := SimpleGraph.mem_edgeFinset.mp he
      revert he' hne
      clear hx he
      induction e using Sym2.ind with
      | _ u v =>
        intro hne he'
        rw [cex_edge (SimpleGraph.Adj.ne he')] at hne ⊢
        split
        · rfl
        · rename_i h2; rw [if_neg h2] at hne; exact absurd rfl hne
  have hrep := Multiset.eq_replicate_card.mpr hall
  rw [hrep, Multiset.sum_replicate] at hsum
  have hc : ((Multiset.card (distances (cexC 0) T) : ℕ) : ℝ) = 1 := by
    rw [nsmul_eq_mul] at hsum; linarith
  simp only [Agg.eval]
  rw [hc, hrep, Multiset.sum_replicate, nsmul_eq_mul, hc]; norm_num

theorem cex_mean1 {T : SimpleGraph (Members cexZ)} (hT : IsMST (cexC 1) T) :
    Agg.mean.eval (distances (cexC 1) T) = 11 / 2 := by
  have : Nontrivial (Members cexZ) := members_nontrivial (by decide)
  have hcard : Fintype.card (Members cexZ) = 3 := by rw [Fintype.card_subtype]; rfl
  have hpos : ∀ i j : Members cexZ, i ≠ j → 0 < cexC 1 i j := by
    intro i j hij
    have hv : i.1 ≠ j.1 := fun he => hij (Subtype.ext he)
    simp only [cexC, cexCost, hv, if_false]; split <;> norm_num
  simp only [Agg.eval]
  rw [distances_of_pos hpos hT.1, hcard, distances_sum, cex_total (by norm_num) (by norm_num) hT]
  norm_num

end Cex

/-- **C15 is false of the code for `mean`.** Raising one cost from 0 to 1 (symmetrically) raises the
geo-prior from -10 to -5.5, for every choice of minimum spanning trees: scipy's tree does not store
zero-cost edges, so the mean is taken over fewer edges. -/
theorem C15_mean_false : ∃ (cost cost' : Fin 3 → Fin 3 → ℝ) (cl : Fin 1 → Fin 3 → Bool),
    (∀ i j, 0 ≤ cost i j) ∧ (∀ i j, cost i j = cost j i) ∧ (∀ i j, cost' i j = cost' j i) ∧
    (∀ i j, cost i j ≤ cost' i j) ∧
    ∀ mst mst' : (z : Fin 3 → Bool) → SimpleGraph (Members z),
      (∀ k, IsMST (fun i j : Members (cl k) => cost i j) (mst (cl k))) →
      (∀ k, IsMST (fun i j : Members (cl k) => cost' i j) (mst' (cl k))) →
      ∃ x y, geoPrior .mean .exponential 1 cost mst cl = some x ∧
        geoPrior .mean .exponential 1 cost' mst' cl = some y ∧ x < y := by
  refine ⟨cexCost 0, cexCost 1, fun _ => cexZ, ?_, ?_, ?_, ?_, ?_⟩
  · intro i j; simp only [cexCost]; split
    · exact le_refl _
    · split <;> norm_num
  · intro i j; simp only [cexCost, eq_comm (a := i) (b := j), or_comm (a := i = 2)]
  · intro i j; simp only [cexCost, eq_comm (a := i) (b := j), or_comm (a := i = 2)]
  · intro i j; simp only [cexCost]; split
    · exact le_refl _
    · split <;> norm_num
  · intro mst mst' h h'
    have hs : ∀ k : Fin 1, 1 < clusterSize ((fun _ => cexZ : Fin 1 → Fin 3 → Bool) k) := by
      intro k; show 1 < clusterSize cexZ; decide
    refine ⟨_, _, by rw [geoPrior, if_pos hs], by rw [geoPrior, if_pos hs], ?_⟩
    simp only [Fin.sum_univ_one, ProbFn.eval]
    rw [cex_mean0 (h 0), cex_mean1 (h' 0)]
    norm_num

end SBayes.Prior
