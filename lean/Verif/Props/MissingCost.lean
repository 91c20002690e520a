import Verif.Spec.MissingCost
import Verif.Props.Prior
import Verif.Props.Data
/- Property C108: geographical costs that are missing or infinite. -/
namespace SBayes.Missing
open SBayes.Data SBayes.Prior

variable {K N : ℕ} {V : Type} [Fintype V]

omit [Fintype V] in
theorem graph_fin (cost : V → V → ℝ) : graph (fun i j => Cost.fin (cost i j)) = ⊤ := by
  unfold graph
  ext i j
  simp [SimpleGraph.fromRel_adj, Cost.edge]

omit [Fintype V] in
theorem edgeCost_fin (cost : V → V → ℝ) : edgeCost (fun i j => Cost.fin (cost i j)) = Prior.edgeCost cost := by
  funext e
  induction e using Sym2.ind with
  | _ x y => rfl

/-- **C108.** If all costs are given, the forest is a minimum spanning tree, and all of property C15 applies: reading and the geo-prior are the same. -/
theorem C108_given_costs_partial [Nonempty V] (cost : V → V → ℝ) (T : SimpleGraph V) :
    (IsMinForest (fun i j => Cost.fin (cost i j)) T ↔ IsMST cost T) ∧
    distances (fun i j => Cost.fin (cost i j)) T = Prior.distances cost T := by
  classical
  have htree : ∀ T : SimpleGraph V, (T ≤ graph (fun i j => Cost.fin (cost i j)) ∧ T.IsAcyclic ∧
      ∀ u v, (graph (fun i j => Cost.fin (cost i j))).Reachable u v → T.Reachable u v) ↔ T.IsTree := by
    intro T
    rw [graph_fin]
    constructor
    · rintro ⟨-, h2, h3⟩
      exact ⟨⟨fun u v => h3 u v (SimpleGraph.connected_top.preconnected u v)⟩, h2⟩
    · intro h
      exact ⟨le_top, h.isAcyclic, fun u v _ => h.connected.preconnected u v⟩
  constructor
  · unfold IsMinForest IsMST
    rw [htree, edgeCost_fin]
    refine and_congr_right fun _ => ⟨fun h T' hT' => ?_, fun h T' h1 h2 h3 => ?_⟩
    · obtain ⟨a, b, c⟩ := (htree T').mpr hT'
      exact h T' a b c
    · exact h T' ((htree T').mp ⟨h1, h2, h3⟩)
  · unfold distances Prior.distances
    rw [edgeCost_fin]

theorem geoPrior_fin (agg : Agg) (f : ProbFn) (scale : ℝ) (cost : Fin N → Fin N → ℝ)
    (mst : (z : Fin N → Bool) → SimpleGraph (Members z)) (clusters : Fin K → Fin N → Bool) :
    geoPrior agg f scale (fun i j => Cost.fin (cost i j)) mst clusters = Prior.geoPrior agg f scale cost mst clusters := by
  unfold geoPrior Prior.geoPrior
  refine if_congr Iff.rfl ?_ rfl
  congr 1

/-- **C108.** A file with a number in every cell is read as in property C41. -/
theorem C108_given_costs_are_read (names : List Str) (f : CostFile) :
    readGeoCostMatrix names ⟨f.index, f.columns, fun i j => .fin (f.entry i j)⟩ =
      (Data.readGeoCostMatrix names f).map fun m i j => .fin (m i j) := by
  unfold readGeoCostMatrix Data.readGeoCostMatrix sortedCosts
  dsimp only
  by_cases h1 : (∀ x ∈ f.columns, x ∈ names) ∧ ∀ x ∈ names, x ∈ f.columns
  · rw [if_pos h1, if_pos h1]
    by_cases h2 : ∀ x ∈ names, f.index.count x = 1 ∧ x ∈ f.columns
    · rw [if_pos h2, if_pos h2]
      dsimp only
      by_cases h3 : Allclose names.length fun i j =>
          f.entry (f.index.idxOf (names.getD i [])) (f.columns.idxOf (names.getD j []))
      · rw [if_neg (not_not.mpr h3)]
        exact if_pos h3
      · rw [if_pos h3]
        exact if_neg h3
    · rw [if_neg h2, if_neg h2]
      rfl
  · rw [if_neg h1, if_neg h1]
    rfl

/-- **C108**, finding: empty cells are accepted without notice: whether the file is read depends on the names only, and the cost of a pair is missing
if and only if one of its two cells is empty or infinite. -/
theorem C108_missing_cells_are_accepted (names : List Str) (f : File) :
    ((∃ m, readGeoCostMatrix names f = some m) ↔ (∀ x, x ∈ f.columns ↔ x ∈ names) ∧ ∀ x ∈ names, f.index.count x = 1) ∧
    ∀ m, readGeoCostMatrix names f = some m → ∀ i < names.length, ∀ j < names.length,
      ((m i j).edge = none ↔
        (f.entry (f.index.idxOf (names.getD i [])) (f.columns.idxOf (names.getD j []))).edge = none ∨
        (f.entry (f.index.idxOf (names.getD j [])) (f.columns.idxOf (names.getD i []))).edge = none) := by
  unfold readGeoCostMatrix
  dsimp only
  refine ⟨⟨?_, ?_⟩, ?_⟩
  · rintro ⟨m, h⟩
    split_ifs at h with h1 h2 h3
    all_goals exact ⟨fun x => ⟨h1.1 x, h1.2 x⟩, fun x hx => (h2 x hx).1⟩
  · rintro ⟨h1, h2⟩
    rw [if_pos ⟨fun x => (h1 x).1, fun x => (h1 x).2⟩, if_pos fun x hx => ⟨h2 x hx, (h1 x).2 hx⟩]
    split_ifs
    · exact ⟨_, rfl⟩
    · exact ⟨_, rfl⟩
  · intro m h i hi j hj
    split_ifs at h with h1 h2 h3
    · have := h3 i hi j hj
      have h := Option.some.inj h
      subst h
      dsimp only
      revert this
      generalize f.entry (f.index.idxOf (names.getD i [])) (f.columns.idxOf (names.getD j [])) = a
      generalize f.entry (f.index.idxOf (names.getD j [])) (f.columns.idxOf (names.getD i [])) = b
      intro this
      cases a <;> cases b <;> simp_all [Cost.Close, Cost.edge]
    · have h := Option.some.inj h
      subst h
      dsimp only
      generalize f.entry (f.index.idxOf (names.getD i [])) (f.columns.idxOf (names.getD j [])) = a
      generalize f.entry (f.index.idxOf (names.getD j [])) (f.columns.idxOf (names.getD i [])) = b
      cases a <;> cases b <;> simp [Cost.avg, Cost.edge]

/-- If the pairs with a cost form a forest, it is the only spanning forest. -/
theorem minForest_of_acyclic {cost : V → V → Cost} (ha : (graph cost).IsAcyclic) {T : SimpleGraph V} (hT : IsMinForest cost T) :
    T = graph cost := by
  obtain ⟨⟨hle, -, hr⟩, -⟩ := hT
  refine le_antisymm hle fun u v huv => ?_
  by_contra hn
  have hb := SimpleGraph.isAcyclic_iff_forall_adj_isBridge.mp ha huv
  rw [SimpleGraph.isBridge_iff] at hb
  refine hb ((hr u v huv.reachable).mono ?_)
  intro a b hab
  rw [SimpleGraph.deleteEdges_adj]
  refine ⟨hle hab, fun h => hn ?_⟩
  rw [Set.mem_singleton_iff, Sym2.eq_iff] at h
  rcases h with ⟨rfl, rfl⟩ | ⟨rfl, rfl⟩
  · exact hab
  · exact hab.symm

open Classical in
/-- **C108**, finding: a pair without a cost contributes nothing. If the pairs of a cluster with a cost form a forest, what is
aggregated are the costs of these pairs, and no others (0 if there are none). -/
theorem C108_missing_pairs_contribute_nothing {cost : V → V → Cost} (ha : (graph cost).IsAcyclic) {T : SimpleGraph V}
    (hT : IsMinForest cost T) :
    T.edgeSet = {e | ∃ i j, e = s(i, j) ∧ i ≠ j ∧ ((cost i j).edge.isSome = true ∨ (cost j i).edge.isSome = true)} ∧
    (distances cost T).sum = ∑ e ∈ (graph cost).edgeFinset, edgeCost cost e := by
  rw [minForest_of_acyclic ha hT]
  constructor
  · ext e
    induction e using Sym2.ind with
    | _ x y =>
      rw [SimpleGraph.mem_edgeSet]
      unfold graph
      rw [SimpleGraph.fromRel_adj]
      constructor
      · intro h
        exact ⟨x, y, rfl, h⟩
      · rintro ⟨i, j, e, h⟩
        rcases Sym2.eq_iff.mp e with ⟨rfl, rfl⟩ | ⟨rfl, rfl⟩
        · exact h
        · exact ⟨h.1.symm, h.2.symm⟩
  · have hz : ∀ m : Multiset ℝ, (m.filter (· ≠ 0)).sum = m.sum := by
      intro m
      induction m using Multiset.induction with
      | empty => rfl
      | cons a m ih =>
        by_cases ha : a = 0
        · subst ha; simp at ih ⊢; exact ih
        · rw [Multiset.filter_cons_of_pos (p := (· ≠ 0)) m ha, Multiset.sum_cons, ih, Multiset.sum_cons]
    unfold distances
    dsimp only
    split
    · rename_i h
      have := hz ((graph cost).edgeFinset.val.map (edgeCost cost))
      rw [h] at this
      rw [Multiset.sum_singleton, Finset.sum_eq_multiset_sum, ← this, Multiset.sum_zero]
    · rw [hz]; rfl

/-- **C108**, finding: a cluster of objects between which no cost is given, or all are infinite, has log-prior 0 (per cluster), which no
cluster with nonnegative costs exceeds. -/
theorem C108_unreachable_objects_are_free {cost : V → V → Cost} (hc : ∀ i j, i ≠ j → (cost i j).edge = none) {T : SimpleGraph V}
    (hT : IsMinForest cost T) (agg : Agg) (f : ProbFn) {scale : ℝ} (hs : 0 < scale) :
    f.eval scale (agg.eval (distances cost T)) = 0 ∧ ∀ x, 0 ≤ x → f.eval scale x ≤ 0 := by
  classical
  obtain ⟨h0, -, h1⟩ := C15_probability_functions f scale hs
  refine ⟨?_, h1⟩
  have hg : graph cost = ⊥ := by
    ext i j
    unfold graph
    rw [SimpleGraph.fromRel_adj, SimpleGraph.bot_adj]
    constructor
    · rintro ⟨hne, h | h⟩
      · rw [hc i j hne] at h; cases h
      · rw [hc j i hne.symm] at h; cases h
    · exact False.elim
  have hT' : T = ⊥ := le_bot_iff.mp (hg ▸ hT.1.1)
  have hd : distances cost T = {0} := by
    unfold distances
    dsimp only
    rw [if_pos]
    subst hT'
    simp
  rw [hd]
  have : agg.eval {0} = 0 := by
    cases agg with
    | mean => simp [Agg.eval]
    | sum => simp [Agg.eval]
    | max =>
      show sSup {x : ℝ | x ∈ ({0} : Multiset ℝ)} = 0
      rw [show {x : ℝ | x ∈ ({0} : Multiset ℝ)} = {0} by ext; simp]
      exact csSup_singleton 0
  rw [this, h0]

/-! ### An object that cannot be reached -/

omit [Fintype V] in
theorem reachable_map {U : Type} (f : U ↪ V) (H : SimpleGraph U) {a : U} {y : V} (h : (H.map f).Reachable (f a) y) :
    ∃ b, y = f b ∧ H.Reachable a b := by
  rw [SimpleGraph.reachable_iff_reflTransGen] at h
  induction h with
  | refl => exact ⟨a, rfl, SimpleGraph.Reachable.refl _⟩
  | tail _ hadj ih =>
    obtain ⟨b, rfl, hb⟩ := ih
    obtain ⟨b', c, hbc, e1, e2⟩ := (SimpleGraph.map_adj f H _ _).mp hadj
    rw [f.injective.eq_iff] at e1
    subst e1
    exact ⟨c, e2.symm, hb.trans hbc.reachable⟩

omit [Fintype V] in
theorem acyclic_map {U : Type} (f : U ↪ V) {H : SimpleGraph U} (h : H.IsAcyclic) : (H.map f).IsAcyclic := by
  rw [SimpleGraph.isAcyclic_iff_forall_adj_isBridge]
  intro v w hvw
  obtain ⟨a, b, hab, rfl, rfl⟩ := (SimpleGraph.map_adj f H _ _).mp hvw
  have hb := SimpleGraph.isAcyclic_iff_forall_adj_isBridge.mp h hab
  rw [SimpleGraph.isBridge_iff] at hb ⊢
  intro hr
  have hle : (H.map f).deleteEdges {s(f a, f b)} ≤ (H.deleteEdges {s(a, b)}).map f := by
    intro x y hxy
    rw [SimpleGraph.deleteEdges_adj] at hxy
    obtain ⟨hxy, hn⟩ := hxy
    obtain ⟨c, d, hcd, rfl, rfl⟩ := (SimpleGraph.map_adj f H _ _).mp hxy
    refine (SimpleGraph.map_adj f _ _ _).mpr ⟨c, d, ?_, rfl, rfl⟩
    rw [SimpleGraph.deleteEdges_adj]
    refine ⟨hcd, fun h => hn ?_⟩
    rw [Set.mem_singleton_iff, Sym2.eq_iff] at h ⊢
    rcases h with ⟨rfl, rfl⟩ | ⟨rfl, rfl⟩
    · exact Or.inl ⟨rfl, rfl⟩
    · exact Or.inr ⟨rfl, rfl⟩
  obtain ⟨b', e, hb'⟩ := reachable_map f _ (hr.mono hle)
  rw [f.injective.eq_iff] at e
  subst e
  exact hb hb'

/-- The objects other than `o`. -/
abbrev Others (o : V) := {v : V // v ≠ o}

omit [Fintype V] in
theorem edges_map {U : Type} (f : U ↪ V) (cost : V → V → Cost) (H : SimpleGraph U) (G : SimpleGraph V) (hG : G = H.map f)
    [Fintype G.edgeSet] [Fintype H.edgeSet] :
    G.edgeFinset.val.map (edgeCost cost) = H.edgeFinset.val.map (edgeCost fun i j : U => cost (f i) (f j)) := by
  have e : G.edgeFinset = H.edgeFinset.map f.sym2Map := by
    ext x
    rw [SimpleGraph.mem_edgeFinset, Finset.mem_map, hG, SimpleGraph.edgeSet_map]
    simp only [Set.mem_image, SimpleGraph.mem_edgeFinset]
  rw [e, Finset.map_val, Multiset.map_map]
  refine Multiset.map_congr rfl fun x _ => ?_
  induction x using Sym2.ind with
  | _ a b => rfl

open Classical in
/-- **C108**, finding: an object without a cost to any other one does not change the costs that are aggregated: they are those of a minimum forest of
the other objects. -/
theorem C108_unreachable_object_is_free {cost : V → V → Cost} (o : V) (ho : ∀ v, v ≠ o → (cost o v).edge = none ∧ (cost v o).edge = none)
    {T : SimpleGraph V} (hT : IsMinForest cost T) :
    ∃ T' : SimpleGraph (Others o), IsMinForest (fun i j : Others o => cost i j) T' ∧
      distances cost T = distances (fun i j : Others o => cost i j) T' := by
  let f : Others o ↪ V := Function.Embedding.subtype _
  obtain ⟨⟨hle, hac, hr⟩, hmin⟩ := hT
  have hiso : ∀ v, ¬ (graph cost).Adj o v := by
    intro v h
    unfold graph at h
    rw [SimpleGraph.fromRel_adj] at h
    obtain ⟨hne, h | h⟩ := h
    · rw [(ho v hne.symm).1] at h; cases h
    · rw [(ho v hne.symm).2] at h; cases h
  have hgr : ∀ i j : Others o, (graph fun i j : Others o => cost i j).Adj i j ↔ (graph cost).Adj i j := by
    intro i j
    unfold graph
    rw [SimpleGraph.fromRel_adj, SimpleGraph.fromRel_adj]
    simp only [Ne, Subtype.ext_iff]
  have hgm : graph cost = (graph fun i j : Others o => cost i j).map f := by
    ext i j
    rw [SimpleGraph.map_adj]
    constructor
    · intro h
      have hi : i ≠ o := by rintro rfl; exact hiso _ h
      have hj : j ≠ o := by rintro rfl; exact hiso _ h.symm
      exact ⟨⟨i, hi⟩, ⟨j, hj⟩, (hgr _ _).mpr h, rfl, rfl⟩
    · rintro ⟨a, b, hab, rfl, rfl⟩
      exact (hgr _ _).mp hab
  have hTm : T = (T.comap f).map f := by
    ext i j
    rw [SimpleGraph.map_adj]
    constructor
    · intro h
      have hi : i ≠ o := by rintro rfl; exact hiso _ (hle h)
      have hj : j ≠ o := by rintro rfl; exact hiso _ (hle h.symm)
      exact ⟨⟨i, hi⟩, ⟨j, hj⟩, h, rfl, rfl⟩
    · rintro ⟨a, b, hab, rfl, rfl⟩
      exact hab
  have hval : T.edgeFinset.val.map (edgeCost cost) = (T.comap f).edgeFinset.val.map (edgeCost fun i j : Others o => cost i j) :=
    edges_map f cost (T.comap f) T hTm
  refine ⟨T.comap f, ⟨⟨fun i j h => (hgr i j).mpr (hle h), hac.of_comap f, fun u v h => ?_⟩, fun T' h1 h2 h3 => ?_⟩, ?_⟩
  · have h' : (graph cost).Reachable (f u) (f v) := by rw [hgm]; exact h.map (SimpleGraph.Embedding.map f _).toHom
    have := hr _ _ h'
    rw [hTm] at this
    obtain ⟨b, e, hb⟩ := reachable_map f _ this
    rw [f.injective.eq_iff] at e
    rw [e]; exact hb
  · obtain ⟨G, hG⟩ : ∃ G, G = T'.map f := ⟨_, rfl⟩
    have := hmin G (by rw [hgm, hG]; exact SimpleGraph.map_monotone f h1) (hG ▸ acyclic_map f h2) (fun u v huv => by
      rw [hG]
      by_cases huo : u = o
      · subst huo
        rw [SimpleGraph.reachable_iff_reflTransGen] at huv
        rcases Relation.ReflTransGen.cases_head huv with rfl | ⟨w, hw, -⟩
        · exact SimpleGraph.Reachable.refl _
        · exact absurd hw (hiso w)
      · rw [hgm] at huv
        obtain ⟨b, rfl, hb⟩ := reachable_map f _ (a := ⟨u, huo⟩) huv
        exact (h3 _ _ hb).map (SimpleGraph.Embedding.map f _).toHom)
    rw [Finset.sum_eq_multiset_sum, Finset.sum_eq_multiset_sum, hval, edges_map f cost T' G hG] at this
    exact this
  · unfold distances
    simp only [hval]
    congr!

/-- **C108**, the full claim is false: raising the cost between two objects from 1000 to infinity raises the log-prior from -1000 to 0, whatever
forests are returned. -/
theorem C108_infinite_cost_is_preferred_false (forest forest' : (z : Fin 2 → Bool) → SimpleGraph (Members z))
    (h : ∀ z, IsMinForest (fun i j : Members z => if i = j then .fin 0 else .fin 1000) (forest z))
    (h' : ∀ z, IsMinForest (fun i j : Members z => if i = j then .fin 0 else .inf) (forest' z)) :
    (∀ i j : Fin 2, Cost.le (if i = j then .fin 0 else .fin 1000) (if i = j then .fin 0 else .inf)) ∧
    geoPrior .sum .exponential 1 (fun i j : Fin 2 => if i = j then .fin 0 else .fin 1000) forest (fun (_ : Fin 1) _ => true) = some (-1000) ∧
    geoPrior .sum .exponential 1 (fun i j : Fin 2 => if i = j then .fin 0 else .inf) forest' (fun (_ : Fin 1) _ => true) = some 0 := by
  classical
  refine ⟨fun i j => ?_, ?_, ?_⟩
  · by_cases e : i = j
    · rw [if_pos e, if_pos e]; exact le_refl (0 : ℝ)
    · rw [if_neg e, if_neg e]; trivial
  · unfold geoPrior
    rw [if_pos (fun _ => by simp [clusterSize]), Fin.sum_univ_one]
    have hT := h fun _ => true
    generalize forest (fun _ => true) = T at hT
    have hc : (fun i j : Members (fun _ : Fin 2 => true) => if i = j then Cost.fin 0 else Cost.fin 1000) =
        fun i j => Cost.fin (if i = j then 0 else 1000) := by
      funext i j; split_ifs <;> rfl
    have hc' : (fun i j : Members (fun _ : Fin 2 => true) => if (i : Fin 2) = j then Cost.fin 0 else Cost.fin 1000) =
        fun i j => Cost.fin (if i = j then 0 else 1000) := by
      funext i j
      by_cases e : i = j
      · rw [if_pos e, if_pos (by rw [e])]
      · rw [if_neg e, if_neg fun h => e (Subtype.ext h)]
    rw [hc] at hT
    have : Nonempty (Members fun _ : Fin 2 => true) := ⟨⟨0, rfl⟩⟩
    obtain ⟨h1, h2⟩ := C108_given_costs_partial (fun i j : Members (fun _ : Fin 2 => true) => if i = j then (0 : ℝ) else 1000) T
    have hM := h1.mp hT
    have hs : (distances (fun i j : Members (fun _ : Fin 2 => true) => if (i : Fin 2) = j then Cost.fin 0 else Cost.fin 1000) T).sum = 1000 := by
      rw [hc', h2, distances_sum]
      have hcard := hM.1.card_edgeFinset
      have hV : Fintype.card (Members fun _ : Fin 2 => true) = 2 := by decide
      rw [Finset.sum_congr rfl (g := fun _ => (1000 : ℝ)), Finset.sum_const, show T.edgeFinset.card = 1 by omega]
      · norm_num
      · intro e he
        induction e using Sym2.ind with
        | _ a b =>
          have hne : a ≠ b := (SimpleGraph.mem_edgeSet T |>.mp (SimpleGraph.mem_edgeFinset.mp he)).ne
          show min (if a = b then (0 : ℝ) else 1000) (if b = a then (0 : ℝ) else 1000) = 1000
          rw [if_neg hne, if_neg hne.symm, min_self]
    show some (ProbFn.exponential.eval 1 (distances _ T).sum) = _
    rw [hs]
    simp [ProbFn.eval]
  · unfold geoPrior
    rw [if_pos (fun _ => by simp [clusterSize]), Fin.sum_univ_one]
    have hT := h' fun _ => true
    have hc' : (fun i j : Members (fun _ : Fin 2 => true) => if (i : Fin 2) = j then Cost.fin 0 else Cost.inf) =
        fun i j => if i = j then Cost.fin 0 else Cost.inf := by
      funext i j
      by_cases e : i = j
      · rw [if_pos e, if_pos (by rw [e])]
      · rw [if_neg e, if_neg fun h => e (Subtype.ext h)]
    rw [hc', (C108_unreachable_objects_are_free (fun i j hij => by rw [if_neg hij]; rfl) hT .sum .exponential one_pos).1]

/-- A minimum spanning forest exists, whatever costs are missing (so the statements about it are not vacuous). -/
theorem exists_minForest (cost : V → V → Cost) : ∃ T, IsMinForest cost T := by
  classical
  obtain ⟨T0, h0, h1, h2⟩ : ∃ T0 : SimpleGraph V, T0 ≤ graph cost ∧ T0.IsAcyclic ∧ ∀ u v, (graph cost).Reachable u v → T0.Reachable u v := by
    obtain ⟨F, hF, hA, hR⟩ := (graph cost).exists_isAcyclic_reachable_eq_le
    exact ⟨F, hF, hA, fun u v h => hR ▸ h⟩
  obtain ⟨T, hT, hmin⟩ := Set.exists_min_image
    {T : SimpleGraph V | T ≤ graph cost ∧ T.IsAcyclic ∧ ∀ u v, (graph cost).Reachable u v → T.Reachable u v}
    (fun T => ∑ e ∈ T.edgeFinset, edgeCost cost e) (Set.toFinite _) ⟨T0, h0, h1, h2⟩
  exact ⟨T, hT, fun T' a b c => hmin T' ⟨a, b, c⟩⟩

/-- The hypotheses of `C108_infinite_cost_is_preferred_false` are met. -/
example : (∃ forest : (z : Fin 2 → Bool) → SimpleGraph (Members z),
      ∀ z, IsMinForest (fun i j : Members z => if i = j then .fin 0 else .fin 1000) (forest z)) ∧
    ∃ forest : (z : Fin 2 → Bool) → SimpleGraph (Members z),
      ∀ z, IsMinForest (fun i j : Members z => if i = j then .fin 0 else .inf) (forest z) :=
  ⟨⟨fun _ => (exists_minForest _).choose, fun _ => (exists_minForest _).choose_spec⟩,
    ⟨fun _ => (exists_minForest _).choose, fun _ => (exists_minForest _).choose_spec⟩⟩

/-- Three objects; the cost between the first two is 5, the costs to the third one are empty cells. -/
def threeObjects : Fin 3 → Fin 3 → Cost := fun i j =>
  if i = 2 ∨ j = 2 then .nan else if i = j then .fin 0 else .fin 5

/-- The third object is unreachable, as in `C108_unreachable_object_is_free`, and the costs of `threeObjects` form a forest, as in
`C108_missing_pairs_contribute_nothing`: the only cost that is aggregated is 5. -/
theorem C108_three_objects :
    (∀ v, v ≠ 2 → (threeObjects 2 v).edge = none ∧ (threeObjects v 2).edge = none) ∧ (graph threeObjects).IsAcyclic ∧
    ∃ T, IsMinForest threeObjects T ∧ (distances threeObjects T).sum = 5 := by
  classical
  have hadj : ∀ i j, (graph threeObjects).Adj i j ↔ (i = 0 ∧ j = 1) ∨ (i = 1 ∧ j = 0) := by
    intro i j
    unfold graph
    rw [SimpleGraph.fromRel_adj]
    fin_cases i <;> fin_cases j <;> simp [threeObjects, Cost.edge]
  have hac : (graph threeObjects).IsAcyclic := by
    rw [SimpleGraph.isAcyclic_iff_forall_adj_isBridge]
    intro v w hvw
    rw [SimpleGraph.isBridge_iff, SimpleGraph.reachable_iff_reflTransGen]
    intro h
    rcases Relation.ReflTransGen.cases_head h with rfl | ⟨u, hu, -⟩
    · exact hvw.ne rfl
    · rw [SimpleGraph.deleteEdges_adj, hadj] at hu
      rw [hadj] at hvw
      refine hu.2 ?_
      rcases hvw with ⟨rfl, rfl⟩ | ⟨rfl, rfl⟩ <;> rcases hu.1 with ⟨h1, rfl⟩ | ⟨h1, rfl⟩ <;> first | rfl | exact absurd h1 (by decide)
  refine ⟨fun v _ => by simp [threeObjects, Cost.edge], hac, ?_⟩
  obtain ⟨T, hT⟩ := exists_minForest threeObjects
  refine ⟨T, hT, ?_⟩
  rw [(C108_missing_pairs_contribute_nothing hac hT).2]
  have he : (graph threeObjects).edgeFinset = {s(0, 1)} := by
    ext e
    induction e using Sym2.ind with
    | _ a b =>
      rw [SimpleGraph.mem_edgeFinset, SimpleGraph.mem_edgeSet, hadj, Finset.mem_singleton, Sym2.eq_iff]
  rw [he, Finset.sum_singleton]
  show pairCost (threeObjects 0 1) (threeObjects 1 0) = 5
  simp [pairCost, threeObjects, Cost.edge]

/-- A file with an empty cell that is read: the cost of that pair is missing. -/
example : ∃ m, readGeoCostMatrix [['a'], ['b']] ⟨[['a'], ['b']], [['a'], ['b']],
      fun i j => if i = j then .fin 0 else if i = 0 then .nan else .fin 3⟩ = some m ∧ (m 0 1).edge = none := by
  obtain ⟨h1, h2⟩ := C108_missing_cells_are_accepted [['a'], ['b']] ⟨[['a'], ['b']], [['a'], ['b']],
      fun i j => if i = j then .fin 0 else if i = 0 then .nan else .fin 3⟩
  obtain ⟨m, hm⟩ := h1.mpr ⟨fun _ => Iff.rfl, by decide⟩
  exact ⟨m, hm, (h2 m hm 0 (by decide) 1 (by decide)).mpr (Or.inl rfl)⟩

end SBayes.Missing
