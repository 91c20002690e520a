import Verif.Model.Plot
import Verif.Spec.Plot
import Verif.Props.Postproc
import Mathlib.Data.List.FinRange
import Mathlib.Tactic.Positivity
import Mathlib.Tactic.IntervalCases
/-
C72: burn-in. C73: maps.
-/
namespace SBayes.Plot
open SBayes.Post

/-! ### Neighbourhood graphs -/

/-- All pairs, row by row. -/
def allPairs (n : ℕ) : List (ℕ × ℕ) := (List.range n).flatMap (fun i => (List.range n).map (fun j => (i, j)))

theorem mem_allPairs {n : ℕ} {p : ℕ × ℕ} : p ∈ allPairs n ↔ p.1 < n ∧ p.2 < n := by
  unfold allPairs
  rw [List.mem_flatMap]
  constructor
  · rintro ⟨i, hi, hp⟩
    obtain ⟨j, hj, rfl⟩ := List.mem_map.mp hp
    exact ⟨List.mem_range.mp hi, List.mem_range.mp hj⟩
  · rintro ⟨h1, h2⟩
    exact ⟨p.1, List.mem_range.mpr h1, List.mem_map.mpr ⟨p.2, List.mem_range.mpr h2, rfl⟩⟩

theorem allPairs_nodup (n : ℕ) : (allPairs n).Nodup := by
  unfold allPairs
  rw [List.nodup_flatMap]
  refine ⟨fun i _ => (List.nodup_map_iff (fun a b h => (Prod.mk.inj h).2)).mpr List.nodup_range, ?_⟩
  apply List.Pairwise.imp_of_mem _ (List.nodup_range (n := n))
  intro a b _ _ hab x hx hx'
  obtain ⟨_, _, rfl⟩ := List.mem_map.mp hx
  obtain ⟨_, _, h⟩ := List.mem_map.mp hx'
  exact hab (Prod.mk.inj h).1.symm

/-- Row by row, `(i, j)` with `i < j` comes before `(j, i)`. -/
theorem allPairs_order (n : ℕ) : (allPairs n).Pairwise (fun p q => p.1 ≤ q.1) := by
  unfold allPairs
  rw [List.pairwise_flatMap]
  refine ⟨fun i _ => ?_, ?_⟩
  · rw [List.pairwise_map]
    exact List.Pairwise.imp (fun _ => le_refl _) (List.pairwise_lt_range (n := n))
  · refine List.Pairwise.imp ?_ (List.pairwise_lt_range (n := n))
    intro a b hab x hx y hy
    obtain ⟨_, _, rfl⟩ := List.mem_map.mp hx
    obtain ⟨_, _, rfl⟩ := List.mem_map.mp hy
    exact le_of_lt hab

theorem connections_fold {adj : ℕ → ℕ → Bool} (hs : ∀ i j, adj i j = adj j i) (hi : ∀ i, adj i i = false) (n : ℕ) :
    ∀ (todo seen : List (ℕ × ℕ)), seen ++ todo = allPairs n →
      todo.foldl (fun acc ij => if adj ij.1 ij.2 then
        (if (ij.2, ij.1) ∈ acc then acc else acc ++ [ij]) else acc)
        (seen.filter (fun p => adj p.1 p.2 && decide (p.1 < p.2))) =
      (allPairs n).filter (fun p => adj p.1 p.2 && decide (p.1 < p.2))
  | [], seen, h => by rw [List.append_nil] at h; rw [List.foldl_nil, h]
  | p :: todo, seen, h => by
    have ih := connections_fold hs hi n todo (seen ++ [p]) (by rw [← h]; simp)
    rw [List.filter_append] at ih
    rw [List.foldl_cons, ← ih]
    congr 1
    by_cases ha : adj p.1 p.2 = true
    · rw [if_pos ha]
      have hne : p.1 ≠ p.2 := fun e => by rw [e, hi] at ha; exact absurd ha (by simp)
      by_cases hlt : p.1 < p.2
      · have hnot : (p.2, p.1) ∉ seen.filter (fun p => adj p.1 p.2 && decide (p.1 < p.2)) := by
          intro hm
          have := (List.mem_filter.mp hm).2
          simp only [Bool.and_eq_true, decide_eq_true_eq] at this
          omega
        rw [if_neg hnot]
        congr 1
        simp [ha, hlt]
      · have hin : (p.2, p.1) ∈ seen.filter (fun p => adj p.1 p.2 && decide (p.1 < p.2)) := by
          have hp : p ∈ allPairs n := by rw [← h]; simp
          have hq : (p.2, p.1) ∈ allPairs n := mem_allPairs.mpr ⟨(mem_allPairs.mp hp).2, (mem_allPairs.mp hp).1⟩
          rw [List.mem_filter]
          refine ⟨?_, ?_⟩
          · rw [← h, List.mem_append] at hq
            rcases hq with hq | hq
            · exact hq
            · exfalso
              have ho := allPairs_order n
              rw [← h, List.pairwise_append] at ho
              have ho2 := (List.pairwise_cons.mp ho.2.1).1
              rcases List.mem_cons.mp hq with e | e
              · have := congrArg Prod.fst e
                simp only at this
                omega
              · have := ho2 _ e
                simp only at this
                omega
          · simp only [Bool.and_eq_true, decide_eq_true_eq]
            exact ⟨by rw [hs]; exact ha, by omega⟩
        rw [if_pos hin]
        simp [hlt]
    · rw [if_neg ha]
      simp [ha]

theorem delaunayConnections_eq {adj : ℕ → ℕ → Bool} (hs : ∀ i j, adj i j = adj j i) (hi : ∀ i, adj i i = false)
    (n : ℕ) : delaunayConnections n adj = (allPairs n).filter (fun p => adj p.1 p.2 && decide (p.1 < p.2)) := by
  have := connections_fold hs hi n (allPairs n) [] (by simp)
  simpa [delaunayConnections, allPairs] using this

theorem edist_sq (a b : Loc) : edist a b = Real.sqrt (sqDist a b) := rfl

theorem sqDist_nonneg (a b : Loc) : 0 ≤ sqDist a b := by unfold sqDist; positivity

/-- The test of the code in terms of squared distances. -/
theorem almost_iff (a b c m : Loc) :
    edist a b / 2 * (999 / 1000) ≤ edist c m ↔ (999 / 1000) ^ 2 * (sqDist a b / 4) ≤ sqDist c m := by
  rw [edist_sq, edist_sq]
  have h0 := Real.sqrt_nonneg (sqDist a b)
  have hsq := Real.sq_sqrt (sqDist_nonneg a b)
  rw [Real.le_sqrt (show 0 ≤ Real.sqrt (sqDist a b) / 2 * (999 / 1000) by positivity) (sqDist_nonneg c m)]
  have : (Real.sqrt (sqDist a b) / 2 * (999 / 1000)) ^ 2 = (999 / 1000) ^ 2 * (sqDist a b / 4) := by
    rw [mul_pow, div_pow, hsq]; ring
  rw [this]

/-- **C73** The edges taken from a Delaunay triangulation: each pair at most once, smaller number first, and exactly
the connected pairs whose circle contains no point (with the tolerance of a thousandth of the radius). -/
theorem C73_gabriel {adj : ℕ → ℕ → Bool} (hs : ∀ i j, adj i j = adj j i) (hi : ∀ i, adj i i = false)
    {locs : List Loc} {es : List (ℕ × ℕ)} (h : gabriel adj locs = some es) :
    es.Nodup ∧ ∀ i j, (i, j) ∈ es ↔ i < j ∧ j < locs.length ∧ adj i j = true ∧
      IsAlmostGabriel locs (locs.getD i (0, 0)) (locs.getD j (0, 0)) := by
  unfold gabriel at h
  rw [delaunayConnections_eq hs hi] at h
  dsimp only at h
  split at h
  · cases h
  · simp only [Option.some.injEq] at h
    rw [List.map_congr_left (g := id), List.map_id] at h
    · subst h
      refine ⟨((allPairs_nodup _).filter _).filter _, fun i j => ?_⟩
      simp only [List.mem_filter, mem_allPairs, Bool.and_eq_true, decide_eq_true_eq, almost_iff]
      unfold IsAlmostGabriel midpoint
      constructor
      · rintro ⟨⟨⟨_, h2⟩, h3, h4⟩, h5⟩
        exact ⟨h4, h2, h3, h5⟩
      · rintro ⟨h1, h2, h3, h4⟩
        exact ⟨⟨⟨by omega, h2⟩, h3, h1⟩, h4⟩
    · intro p hp
      have := (List.mem_filter.mp (List.mem_filter.mp hp).1).2
      simp only [Bool.and_eq_true, decide_eq_true_eq] at this
      unfold sortPair
      rw [min_eq_left (le_of_lt this.2), max_eq_right (le_of_lt this.2)]
      rfl

theorem isGabriel_almost {points : List Loc} {a b : Loc} (h : IsGabriel points a b) : IsAlmostGabriel points a b := by
  intro c hc
  refine le_trans ?_ (h c hc)
  have := sqDist_nonneg a b
  nlinarith

/-- **C73** No edge of the Gabriel graph that is in the triangulation is lost. -/
theorem C73_gabriel_keeps {adj : ℕ → ℕ → Bool} (hs : ∀ i j, adj i j = adj j i) (hi : ∀ i, adj i i = false)
    {locs : List Loc} {es : List (ℕ × ℕ)} (h : gabriel adj locs = some es) {i j : ℕ} (hij : i < j)
    (hj : j < locs.length) (ha : adj i j = true) (hg : IsGabriel locs (locs.getD i (0, 0)) (locs.getD j (0, 0))) :
    (i, j) ∈ es :=
  ((C73_gabriel hs hi h).2 i j).mpr ⟨hij, hj, ha, isGabriel_almost hg⟩

/-! ### Frequencies -/

theorem ratio_share {α : Type*} (l : List α) (p : α → Bool) (hl : l ≠ []) :
    ratio (l.countP p) l.length = some (share l p) := by
  unfold ratio share
  rw [if_neg (by simpa using hl), List.countP_eq_length_filter]

theorem share_mono {α : Type*} {l : List α} {p q : α → Bool} (h : ∀ x ∈ l, p x = true → q x = true) :
    share l p ≤ share l q := by
  unfold share
  rw [← List.countP_eq_length_filter, ← List.countP_eq_length_filter]
  have : l.countP p ≤ l.countP q := List.countP_mono_left h
  rcases Nat.eq_zero_or_pos l.length with h0 | h0
  · simp [h0]
  · apply div_le_div_of_nonneg_right _ (by positivity)
    exact_mod_cast this

theorem isFrequent_iff {N : ℕ} {cluster : List (Fin N → Bool)} (hl : cluster ≠ []) (m : ℝ) (i : Fin N) :
    isFrequent cluster m i = true ↔ m ≤ share cluster (fun s => s i) := by
  unfold isFrequent
  rw [ratio_share _ _ hl]
  simp

/-- The retained samples of a plot (one cluster). -/
theorem dropCeil_eq {α : Type*} (l : List α) (b : ℝ) : dropCeil l b = l.drop ⌈(l.length : ℝ) * b⌉₊ := rfl

/-- What `clusters_to_graph` does to a list of edges. -/
theorem lines_spec {N : ℕ} {idx : List (Fin N)} {w : Fin N → Fin N → Option ℝ}
    {es : List (ℕ × ℕ)} {lines : List (Line N)}
    (h : es.mapM (lineOf idx w) = some lines) :
    lines.length = es.length ∧ ∀ k (hk : k < es.length) (hk' : k < lines.length),
      idx[(es[k]).1]? = some (lines[k]).a ∧ idx[(es[k]).2]? = some (lines[k]).b ∧
      (lines[k]).weight = w (lines[k]).a (lines[k]).b := by
  obtain ⟨h1, h2⟩ := mapM_get h
  refine ⟨h1, fun k hk hk' => ?_⟩
  have := h2 k
  rw [List.getElem?_eq_getElem hk, List.getElem?_eq_getElem hk', Option.bind_some] at this
  unfold lineOf at this
  cases ha : idx[(es[k]).1]? with
  | none => rw [ha] at this; cases this
  | some i =>
    cases hb : idx[(es[k]).2]? with
    | none => rw [ha, hb] at this; cases this
    | some j =>
      rw [ha, hb] at this
      simp only [Option.some.injEq] at this
      rw [this]
      exact ⟨rfl, rfl, rfl⟩

/-- A list of edges between the positions `0 … n-1`: no loops, no pair twice. -/
def Simple (n : ℕ) (es : List (ℕ × ℕ)) : Prop :=
  (∀ e ∈ es, e.1 < n ∧ e.2 < n ∧ e.1 ≠ e.2) ∧ (es.map (fun e => s(e.1, e.2))).Nodup

theorem nodup_pos {α : Type*} {l : List α} (h : l.Nodup) {p q : ℕ} {a : α} (hp : l[p]? = some a)
    (hq : l[q]? = some a) : p = q := by
  obtain ⟨hp1, hp2⟩ := List.getElem?_eq_some_iff.mp hp
  obtain ⟨hq1, hq2⟩ := List.getElem?_eq_some_iff.mp hq
  exact (h.getElem_inj_iff).mp (hp2.trans hq2.symm)

theorem lines_simple {N : ℕ} {idx : List (Fin N)} (hnd : idx.Nodup) {w : Fin N → Fin N → Option ℝ}
    {es : List (ℕ × ℕ)} (hes : Simple idx.length es) {lines : List (Line N)}
    (h : es.mapM (lineOf idx w) = some lines) :
    (∀ l ∈ lines, l.a ∈ idx ∧ l.b ∈ idx ∧ l.a ≠ l.b ∧ l.weight = w l.a l.b) ∧
    (lines.map (fun l => s(l.a, l.b))).Nodup ∧
    (∀ l ∈ lines, ∃ e ∈ es, idx[e.1]? = some l.a ∧ idx[e.2]? = some l.b) ∧
    (∀ e ∈ es, ∃ l ∈ lines, idx[e.1]? = some l.a ∧ idx[e.2]? = some l.b) := by
  obtain ⟨h1, h2⟩ := lines_spec h
  refine ⟨?_, ?_, ?_, ?_⟩
  · intro l hl
    obtain ⟨k, hk, rfl⟩ := List.getElem_of_mem hl
    obtain ⟨a1, a2, a3⟩ := h2 k (by omega) hk
    refine ⟨List.mem_of_getElem? a1, List.mem_of_getElem? a2, fun e => ?_, a3⟩
    rw [e] at a1
    exact (hes.1 _ (List.getElem_mem (by omega))).2.2 (nodup_pos hnd a1 a2)
  · rw [List.nodup_iff_injective_getElem]
    have hinj := List.nodup_iff_injective_getElem.mp hes.2
    rintro ⟨p, hp⟩ ⟨q, hq⟩ hpq
    rw [List.length_map] at hp hq
    simp only [List.getElem_map] at hpq
    obtain ⟨a1, a2, -⟩ := h2 p (by omega) hp
    obtain ⟨b1, b2, -⟩ := h2 q (by omega) hq
    have key : s((es[p]'(by omega)).1, (es[p]'(by omega)).2) = s((es[q]'(by omega)).1, (es[q]'(by omega)).2) := by
      rw [Sym2.eq_iff] at hpq ⊢
      rcases hpq with ⟨e1, e2⟩ | ⟨e1, e2⟩
      · rw [← e1] at b1; rw [← e2] at b2
        exact Or.inl ⟨nodup_pos hnd a1 b1, nodup_pos hnd a2 b2⟩
      · rw [← e2] at b1; rw [← e1] at b2
        exact Or.inr ⟨nodup_pos hnd a1 b2, nodup_pos hnd a2 b1⟩
    have := @hinj ⟨p, by rw [List.length_map]; omega⟩ ⟨q, by rw [List.length_map]; omega⟩
      (by simpa only [List.getElem_map] using key)
    simpa using this
  · intro l hl
    obtain ⟨k, hk, rfl⟩ := List.getElem_of_mem hl
    obtain ⟨a1, a2, -⟩ := h2 k (by omega) hk
    exact ⟨_, List.getElem_mem (by omega), a1, a2⟩
  · intro e he
    obtain ⟨k, hk, rfl⟩ := List.getElem_of_mem he
    obtain ⟨a1, a2, -⟩ := h2 k hk (by omega)
    exact ⟨_, List.getElem_mem (by omega), a1, a2⟩

theorem simple_of_lt {n : ℕ} {es : List (ℕ × ℕ)} (hnd : es.Nodup) (h : ∀ e ∈ es, e.1 < e.2 ∧ e.2 < n) :
    Simple n es := by
  refine ⟨fun e he => ⟨by have := h e he; omega, (h e he).2, by have := h e he; omega⟩, ?_⟩
  rw [List.nodup_map_iff_inj_on hnd]
  rintro ⟨a, b⟩ hx ⟨c, d⟩ hy hxy
  have h1 := h _ hx
  have h2 := h _ hy
  simp only at h1 h2 hxy
  rw [Sym2.eq_iff] at hxy
  rcases hxy with ⟨rfl, rfl⟩ | ⟨rfl, rfl⟩
  · rfl
  · omega

theorem densityEdges_spec (N : ℕ) : Simple N (densityEdges N) ∧ ∀ i j, (i, j) ∈ densityEdges N ↔ i < j ∧ j < N := by
  have hm : ∀ p, p ∈ densityEdges N ↔ p.1 < p.2 ∧ p.2 < N := by
    intro p
    show p ∈ (allPairs N).filter _ ↔ _
    rw [List.mem_filter, mem_allPairs]
    simp only [decide_eq_true_eq]
    omega
  refine ⟨simple_of_lt ((allPairs_nodup N).filter _) (fun e he => (hm e).mp he), fun i j => hm (i, j)⟩

theorem computeDelaunay_symm {qhull : List Loc → ℕ → ℕ → Bool} (hs : ∀ l i j, qhull l i j = qhull l j i)
    (locs : List Loc) (i j : ℕ) : computeDelaunay qhull locs i j = computeDelaunay qhull locs j i := by
  unfold computeDelaunay
  split
  · show (i != j) = (j != i)
    rw [Bool.eq_iff_iff]
    simp only [bne_iff_ne]
    exact ⟨Ne.symm, Ne.symm⟩
  · exact hs locs i j

theorem computeDelaunay_irrefl {qhull : List Loc → ℕ → ℕ → Bool} (hi : ∀ l i, qhull l i i = false)
    (locs : List Loc) (i : ℕ) : computeDelaunay qhull locs i i = false := by
  unfold computeDelaunay
  split
  · simp
  · exact hi locs i

theorem consensusEdges_simple {qhull : List Loc → ℕ → ℕ → Bool} (hs : ∀ l i j, qhull l i j = qhull l j i)
    (hi : ∀ l i, qhull l i i = false) {locs : List Loc} {es : List (ℕ × ℕ)}
    (h : consensusEdges qhull locs = some es) : Simple locs.length es := by
  unfold consensusEdges at h
  split at h
  · obtain ⟨h1, h2⟩ := C73_gabriel (computeDelaunay_symm hs locs) (computeDelaunay_irrefl hi locs) h
    exact simple_of_lt h1 (fun e he => ⟨((h2 e.1 e.2).mp he).1, ((h2 e.1 e.2).mp he).2.1⟩)
  · split at h
    · cases h
      rw [‹locs.length = 3›]
      exact ⟨by decide, by decide⟩
    · split at h
      · cases h
        rw [‹locs.length = 2›]
        exact ⟨by decide, by decide⟩
      · cases h
        exact ⟨by simp, by simp⟩

/-- The marked objects in order. -/
def marked {N : ℕ} (g : Fin N → Bool) : List (Fin N) := (List.finRange N).filter g

theorem marked_nodup {N : ℕ} (g : Fin N → Bool) : (marked g).Nodup := (List.nodup_finRange N).filter _

theorem mem_marked {N : ℕ} {g : Fin N → Bool} {i : Fin N} : i ∈ marked g ↔ g i = true := by
  unfold marked
  rw [List.mem_filter]
  simp

theorem graph_some {N : ℕ} {qhull : List Loc → ℕ → ℕ → Bool} {samples : List (Fin N → Bool)} {loc : Fin N → Loc}
    {b : ℝ} {density : Bool} {m : ℝ} {g : Fin N → Bool} {lines : List (Line N)}
    (h : clustersToGraph qhull samples loc b density m = some (g, lines)) :
    g = (if density then fun _ => true else isFrequent (dropCeil samples b) m) ∧
    ∃ es, (if density then some (densityEdges N) else consensusEdges qhull ((marked g).map loc)) = some es ∧
      es.mapM (lineOf (marked g) (together (dropCeil samples b))) = some lines := by
  unfold clustersToGraph at h
  dsimp only at h
  split at h
  · cases h
  · rename_i es hes
    split at h
    · cases h
    · rename_i ls hls
      simp only [Option.some.injEq, Prod.mk.injEq] at h
      obtain ⟨rfl, rfl⟩ := h
      exact ⟨rfl, es, hes, hls⟩

theorem three_pairs {p q : ℕ} (hp : p < 3) (hq : q < 3) (hne : p ≠ q) :
    (p, q) ∈ [((0 : ℕ), (1 : ℕ)), (1, 2), (2, 0)] ∨ (q, p) ∈ [((0 : ℕ), (1 : ℕ)), (1, 2), (2, 0)] := by
  interval_cases p <;> interval_cases q <;> simp_all

/-- **C73** The consensus map of a cluster. The marked objects are those contained in at least the share `m` of the
retained samples. Every line joins two different marked objects, no pair is joined twice, and its weight is the
share of the retained samples that contain both. Among at most three marked objects all pairs are joined. -/
theorem C73_consensus_map {N : ℕ} {qhull : List Loc → ℕ → ℕ → Bool} (hs : ∀ l i j, qhull l i j = qhull l j i)
    (hi : ∀ l i, qhull l i i = false) {samples : List (Fin N → Bool)} {loc : Fin N → Loc} {b m : ℝ}
    {g : Fin N → Bool} {lines : List (Line N)} (hne : samples.drop ⌈(samples.length : ℝ) * b⌉₊ ≠ [])
    (h : clustersToGraph qhull samples loc b false m = some (g, lines)) :
    (∀ i, g i = true ↔ m ≤ share (samples.drop ⌈(samples.length : ℝ) * b⌉₊) (fun s => s i)) ∧
    (∀ l ∈ lines, g l.a = true ∧ g l.b = true ∧ l.a ≠ l.b ∧
      l.weight = some (share (samples.drop ⌈(samples.length : ℝ) * b⌉₊) (fun s => s l.a && s l.b))) ∧
    (lines.map (fun l => s(l.a, l.b))).Nodup ∧
    ((marked g).length ≤ 3 → ∀ i j, g i = true → g j = true → i ≠ j → ∃ l ∈ lines, s(l.a, l.b) = s(i, j)) := by
  obtain ⟨hg, es, hes, hls⟩ := graph_some h
  simp only [Bool.false_eq_true, if_false] at hg hes
  have hsim := consensusEdges_simple hs hi hes
  rw [List.length_map] at hsim
  obtain ⟨a1, a2, a3, a4⟩ := lines_simple (marked_nodup g) hsim hls
  refine ⟨?_, ?_, a2, ?_⟩
  · intro i
    rw [hg]
    exact isFrequent_iff hne m i
  · intro l hl
    obtain ⟨b1, b2, b3, b4⟩ := a1 l hl
    refine ⟨mem_marked.mp b1, mem_marked.mp b2, b3, ?_⟩
    rw [b4]
    exact ratio_share _ _ hne
  · intro hlen i j gi gj hij
    obtain ⟨p, hp, ep⟩ := List.getElem_of_mem (mem_marked.mpr gi)
    obtain ⟨q, hq, eq⟩ := List.getElem_of_mem (mem_marked.mpr gj)
    have hpq : p ≠ q := by
      rintro rfl
      exact hij (ep.symm.trans eq)
    have hin : (p, q) ∈ es ∨ (q, p) ∈ es := by
      unfold consensusEdges at hes
      rw [List.length_map, if_neg (show ¬ (marked g).length > 3 by omega)] at hes
      split at hes
      · cases hes
        exact three_pairs (by omega) (by omega) hpq
      · split at hes
        · cases hes
          have h2 : (marked g).length = 2 := by assumption
          rw [h2] at hp hq
          simp only [List.mem_singleton, Prod.mk.injEq]
          omega
        · omega
    have ep' : (marked g)[p]? = some i := by rw [List.getElem?_eq_getElem hp, ep]
    have eq' : (marked g)[q]? = some j := by rw [List.getElem?_eq_getElem hq, eq]
    rcases hin with hin | hin
    · obtain ⟨l, hl, e1, e2⟩ := a4 _ hin
      rw [ep'] at e1; rw [eq'] at e2
      cases e1; cases e2
      exact ⟨l, hl, rfl⟩
    · obtain ⟨l, hl, e1, e2⟩ := a4 _ hin
      rw [eq'] at e1; rw [ep'] at e2
      cases e1; cases e2
      exact ⟨l, hl, Sym2.eq_swap⟩

/-- **C73** With more than three marked objects the lines are the edges of the triangulation of the marked locations
whose circle contains no marked location (with a tolerance of a thousandth of the radius). -/
theorem C73_consensus_map_gabriel {N : ℕ} {qhull : List Loc → ℕ → ℕ → Bool}
    (hs : ∀ l i j, qhull l i j = qhull l j i) (hi : ∀ l i, qhull l i i = false) {samples : List (Fin N → Bool)}
    {loc : Fin N → Loc} {b m : ℝ} {g : Fin N → Bool} {lines : List (Line N)}
    (h : clustersToGraph qhull samples loc b false m = some (g, lines)) (hlen : 3 < (marked g).length) (p q : ℕ)
    (i j : Fin N) (hp : (marked g)[p]? = some i) (hq : (marked g)[q]? = some j) (hpq : p < q) :
    (∃ l ∈ lines, s(l.a, l.b) = s(i, j)) ↔
      qhull ((marked g).map loc) p q = true ∧ IsAlmostGabriel ((marked g).map loc) (loc i) (loc j) := by
  obtain ⟨hg, es, hes, hls⟩ := graph_some h
  simp only [Bool.false_eq_true, if_false] at hg hes
  have hsim := consensusEdges_simple hs hi hes
  rw [List.length_map] at hsim
  obtain ⟨a1, a2, a3, a4⟩ := lines_simple (marked_nodup g) hsim hls
  unfold consensusEdges at hes
  rw [List.length_map, if_pos hlen] at hes
  obtain ⟨-, hgab⟩ := C73_gabriel (computeDelaunay_symm hs _) (computeDelaunay_irrefl hi _) hes
  have hadj : computeDelaunay qhull ((marked g).map loc) = qhull ((marked g).map loc) := by
    unfold computeDelaunay
    rw [List.length_map, if_neg (show ¬ (marked g).length < 4 by omega)]
  have hloc : ∀ {r k}, (marked g)[r]? = some k → ((marked g).map loc).getD r (0, 0) = loc k := by
    intro r k hr
    rw [List.getD_eq_getElem?_getD, List.getElem?_map, hr]
    rfl
  have key : (p, q) ∈ es ↔ qhull ((marked g).map loc) p q = true ∧
      IsAlmostGabriel ((marked g).map loc) (loc i) (loc j) := by
    rw [hgab, hloc hp, hloc hq, hadj]
    have : q < ((marked g).map loc).length := by
      rw [List.length_map]
      exact (List.getElem?_eq_some_iff.mp hq).1
    constructor
    · rintro ⟨-, -, x, y⟩; exact ⟨x, y⟩
    · rintro ⟨x, y⟩; exact ⟨hpq, this, x, y⟩
  rw [← key]
  constructor
  · rintro ⟨l, hl, he⟩
    obtain ⟨e, he1, e1, e2⟩ := a3 l hl
    have hlt := ((hgab e.1 e.2).mp he1).1
    rw [Sym2.eq_iff] at he
    rcases he with ⟨x, y⟩ | ⟨x, y⟩
    · rw [x] at e1; rw [y] at e2
      have h1 := nodup_pos (marked_nodup g) hp e1
      have h2 := nodup_pos (marked_nodup g) hq e2
      rw [h1, h2]
      exact he1
    · rw [x] at e1; rw [y] at e2
      have h1 := nodup_pos (marked_nodup g) hp e2
      have h2 := nodup_pos (marked_nodup g) hq e1
      omega
  · intro hin
    obtain ⟨l, hl, e1, e2⟩ := a4 _ hin
    rw [hp] at e1; rw [hq] at e2
    cases e1; cases e2
    exact ⟨l, hl, rfl⟩

/-- **C73** A line is never heavier than the share of either end. -/
theorem C73_weight_le {N : ℕ} (samples : List (Fin N → Bool)) (i j : Fin N) :
    share samples (fun s => s i && s j) ≤ share samples (fun s => s i) ∧
      share samples (fun s => s i && s j) ≤ share samples (fun s => s j) :=
  ⟨share_mono (fun s _ h => by simp_all), share_mono (fun s _ h => by simp_all)⟩

/-- **C73** The density map always exists and joins every pair of objects exactly once, with the share of the
retained samples that contain both. -/
theorem C73_density_map {N : ℕ} (qhull : List Loc → ℕ → ℕ → Bool) (samples : List (Fin N → Bool)) (loc : Fin N → Loc)
    (b m : ℝ) (hne : samples.drop ⌈(samples.length : ℝ) * b⌉₊ ≠ []) :
    ∃ g lines, clustersToGraph qhull samples loc b true m = some (g, lines) ∧
      (lines.map (fun l => s(l.a, l.b))).Nodup ∧
      (∀ i j, (∃ l ∈ lines, s(l.a, l.b) = s(i, j)) ↔ i ≠ j) ∧
      ∀ l ∈ lines, l.weight = some (share (samples.drop ⌈(samples.length : ℝ) * b⌉₊) (fun s => s l.a && s l.b)) := by
  have hm : marked (fun _ : Fin N => true) = List.finRange N := by unfold marked; simp
  have hlenm : (List.finRange N).length = N := List.length_finRange
  obtain ⟨lines, hl⟩ : ∃ lines, (densityEdges N).mapM (lineOf (List.finRange N) (together (dropCeil samples b))) = some lines := by
    apply mapM_exists
    intro e he
    have := ((densityEdges_spec N).2 e.1 e.2).mp he
    unfold lineOf
    rw [List.getElem?_eq_getElem (by rw [hlenm]; omega), List.getElem?_eq_getElem (by rw [hlenm]; omega)]
    exact ⟨_, rfl⟩
  have hsim : Simple (List.finRange N).length (densityEdges N) := by rw [hlenm]; exact (densityEdges_spec N).1
  obtain ⟨a1, a2, a3, a4⟩ := lines_simple (List.nodup_finRange N) hsim hl
  refine ⟨fun _ => true, lines, ?_, a2, ?_, ?_⟩
  · unfold clustersToGraph
    simp only [if_true]
    have hm' : (List.finRange N).filter (fun _ : Fin N => true) = List.finRange N := hm
    rw [hm', hl]
  · intro i j
    constructor
    · rintro ⟨l, hl, he⟩ rfl
      rw [Sym2.eq_iff] at he
      rcases he with ⟨x, y⟩ | ⟨x, y⟩ <;> exact (a1 l hl).2.2.1 (x.trans y.symm)
    · intro hij
      have pos : ∀ k : Fin N, (List.finRange N)[(k : ℕ)]? = some k := by
        intro k
        rw [List.getElem?_eq_getElem (by rw [hlenm]; exact k.2), List.getElem_finRange]
        rfl
      rcases lt_or_gt_of_ne hij with hlt | hlt
      · obtain ⟨l, hl, e1, e2⟩ := a4 _ (((densityEdges_spec N).2 i j).mpr ⟨hlt, j.2⟩)
        rw [pos] at e1 e2
        cases e1; cases e2
        exact ⟨l, hl, rfl⟩
      · obtain ⟨l, hl, e1, e2⟩ := a4 _ (((densityEdges_spec N).2 j i).mpr ⟨hlt, i.2⟩)
        rw [pos] at e1 e2
        cases e1; cases e2
        exact ⟨l, hl, Sym2.eq_swap⟩
  · intro l hl
    rw [(a1 l hl).2.2.2]
    exact ratio_share _ _ hne

/-- **C73** The consensus map exists unless scipy returns a triangulation without edges. -/
theorem C73_consensus_map_exists {N : ℕ} {qhull : List Loc → ℕ → ℕ → Bool} (hs : ∀ l i j, qhull l i j = qhull l j i)
    (hi : ∀ l i, qhull l i i = false) (hq : ∀ l : List Loc, 3 < l.length → ∃ i j, i < j ∧ j < l.length ∧ qhull l i j = true)
    (samples : List (Fin N → Bool)) (loc : Fin N → Loc) (b m : ℝ) :
    ∃ g lines, clustersToGraph qhull samples loc b false m = some (g, lines) := by
  have hes : ∃ es, consensusEdges qhull ((marked (isFrequent (dropCeil samples b) m)).map loc) = some es := by
    unfold consensusEdges
    split
    · rename_i hlen
      unfold gabriel
      rw [delaunayConnections_eq (computeDelaunay_symm hs _) (computeDelaunay_irrefl hi _)]
      dsimp only
      rw [if_neg]
      · exact ⟨_, rfl⟩
      · obtain ⟨i, j, h1, h2, h3⟩ := hq _ hlen
        apply List.ne_nil_of_mem (a := (i, j))
        rw [List.mem_filter, mem_allPairs]
        refine ⟨⟨by omega, h2⟩, ?_⟩
        unfold computeDelaunay
        rw [if_neg (by omega)]
        simp [h3, h1]
    · split
      · exact ⟨_, rfl⟩
      · split <;> exact ⟨_, rfl⟩
  obtain ⟨es, hes⟩ := hes
  have hsim := consensusEdges_simple hs hi hes
  rw [List.length_map] at hsim
  obtain ⟨lines, hl⟩ : ∃ lines, es.mapM (lineOf (marked (isFrequent (dropCeil samples b) m)) (together (dropCeil samples b))) = some lines := by
    apply mapM_exists
    intro e he
    have := hsim.1 e he
    unfold lineOf
    rw [List.getElem?_eq_getElem this.1, List.getElem?_eq_getElem this.2.1]
    exact ⟨_, rfl⟩
  refine ⟨isFrequent (dropCeil samples b) m, lines, ?_⟩
  unfold clustersToGraph
  simp only [Bool.false_eq_true, if_false]
  unfold marked at hes hl
  rw [hes]
  dsimp only
  rw [hl]

/-! ### Burn-in -/

/-- **C72** What a plot looks at is always an end piece of what is left after the burn-in of the map: no sample of the
burn-in is ever used, and the order is kept. Missing from the full claim: that it is all of it (see
`C72_burn_in_false`). -/
theorem C72_burn_in_partial {α : Type*} (logged : List α) (b b' : ℝ) :
    plotted logged b b' <:+ afterBurnIn logged b ∧
      plotted logged b b' = logged.drop (⌊b * (logged.length : ℝ)⌋₊ +
        ⌈((logged.length - ⌊b * (logged.length : ℝ)⌋₊ : ℕ) : ℝ) * b'⌉₊) := by
  constructor
  · exact List.drop_suffix _ _
  · unfold plotted dropCeil
    rw [List.drop_drop, List.length_drop]

/-- **C72** With no burn-in of its own the plot shows exactly what the burn-in of the map leaves. -/
theorem C72_burn_in_zero {α : Type*} (logged : List α) (b : ℝ) : plotted logged b 0 = afterBurnIn logged b := by
  unfold plotted dropCeil
  rw [mul_zero, Nat.ceil_zero, List.drop_zero]
  rfl

/-- **C72** The map discards its burn-in twice: of ten samples and a burn-in of one half, two are left and not
five. -/
theorem C72_burn_in_false : (plotted (List.range 10) (1 / 2) (1 / 2)).length = 2 ∧
    (afterBurnIn (List.range 10) (1 / 2)).length = 5 := by
  have h1 : ⌊(1 / 2 : ℝ) * ((List.range 10).length : ℝ)⌋₊ = 5 := by
    rw [List.length_range]; norm_num
  refine ⟨?_, ?_⟩
  · unfold plotted dropCeil
    rw [h1, List.length_drop, List.length_drop, List.length_range]
    have : ⌈((10 - 5 : ℕ) : ℝ) * (1 / 2)⌉₊ = 3 := by
      rw [Nat.ceil_eq_iff (by norm_num)]
      norm_num
    rw [this]
  · unfold afterBurnIn
    rw [h1, List.length_drop, List.length_range]

/-! ### The hypotheses are met -/

/-- Two objects, both in the only sample: the map has one line of weight 1. -/
example : ∃ g lines, clustersToGraph (fun _ i j => i != j) [fun _ : Fin 2 => true] (fun _ => (0, 0)) 0 false (1 / 2) =
    some (g, lines) :=
  C73_consensus_map_exists (fun _ i j => by
      rw [Bool.eq_iff_iff]; simp only [bne_iff_ne]; exact ⟨Ne.symm, Ne.symm⟩) (fun _ i => by simp)
    (fun l hl => ⟨0, 1, by omega, by omega, by simp⟩) _ _ _ _

example : ([fun _ : Fin 2 => true] : List (Fin 2 → Bool)).drop
    ⌈((([fun _ : Fin 2 => true] : List (Fin 2 → Bool)).length : ℕ) : ℝ) * 0⌉₊ ≠ [] := by simp

end SBayes.Plot
