import Verif.Model.WholeMap
import Verif.Props.PlotMap
import Verif.Props.PlotTable
/-
C99: the map as a whole.
-/
namespace SBayes.WholeMap
open SBayes.Plot SBayes.Post

variable {C : Type} {N K : ℕ}

/-- The colour of cluster `k` of `K`: the `k`-th of the given colours, as long as there are any; the remaining clusters get evenly spaced
colours of the rainbow. -/
def colorOf (custom : List C) (K k : ℕ) : Color C :=
  match custom[k]? with
  | some c => .given c
  | none => .rainbow (256 * (k - custom.length) / (K - custom.length))

/-- The samples of a cluster that the map looks at. -/
noncomputable def retained (burnIn : ℝ) (samples : List (Fin N → Bool)) : List (Fin N → Bool) :=
  samples.drop ⌈(samples.length : ℝ) * burnIn⌉₊

theorem getElem?_rainbow (n k : ℕ) (h : k < n) : (rainbow n : List (Color C))[k]? = some (.rainbow (256 * k / n)) := by
  unfold rainbow
  rw [List.getElem?_map, List.getElem?_range h]
  rfl

theorem clusterColors_get (custom : List C) (K k : ℕ) (h : k < K) : (clusterColors custom K)[k]? = some (colorOf custom K k) := by
  unfold clusterColors colorOf
  by_cases h0 : custom.length = 0
  · rw [if_pos h0]
    have : custom = [] := List.length_eq_zero_iff.1 h0
    subst this
    rw [getElem?_rainbow _ _ h]
    simp
  · rw [if_neg h0]
    by_cases h1 : custom.length < K
    · rw [if_pos h1]
      by_cases h2 : k < custom.length
      · rw [List.getElem?_append_left (by simpa using h2), List.getElem?_map, List.getElem?_eq_getElem h2]
        rfl
      · rw [List.getElem?_append_right (by simpa using Nat.le_of_not_lt h2), List.length_map, getElem?_rainbow _ _ (by omega),
          List.getElem?_eq_none (by omega)]
    · rw [if_neg h1, List.getElem?_map, List.getElem?_eq_getElem (by omega)]
      rfl

theorem zip_colors {β : Type} (custom : List C) (G : Fin K → β) :
    ((List.finRange K).map G).zip (clusterColors custom K) = (List.finRange K).map fun k => (G k, colorOf custom K k) := by
  have hlen : K ≤ (clusterColors custom K).length := by
    rcases Nat.eq_zero_or_pos K with h | h
    · omega
    · have := clusterColors_get custom K (K - 1) (by omega)
      have := (List.getElem?_eq_some_iff.1 this).1
      omega
  refine List.ext_getElem (by simp [hlen]) fun i h1 h2 => ?_
  have hi : i < K := by simpa using h2
  have := List.getElem?_eq_some_iff.1 (clusterColors_get custom K i hi)
  obtain ⟨h3, h4⟩ := this
  rw [List.getElem_zip, h4]
  simp

theorem mapM_all {α β : Type} (f : α → Option β) (d : β) : ∀ (l : List α) (r : List β), l.mapM f = some r →
    (∀ x ∈ l, f x = some ((f x).getD d)) ∧ r = l.map fun x => (f x).getD d
  | [], r, h => by simp at h; simp [h]
  | x :: l, r, h => by
    rw [List.mapM_cons] at h
    cases hx : f x with
    | none => rw [hx] at h; simp at h
    | some y =>
      rw [hx] at h
      cases hl : l.mapM f with
      | none => rw [hl] at h; simp at h
      | some ys =>
        rw [hl] at h
        simp at h
        have ih := mapM_all f d l ys hl
        subst h
        refine ⟨?_, ?_⟩
        · intro z hz
          rcases List.mem_cons.1 hz with rfl | hz
          · rw [hx]; rfl
          · exact ih.1 z hz
        · rw [List.map_cons, hx, ← ih.2]; rfl

/-- The parts of a map, in terms of the graphs of the single clusters. -/
theorem map_some {cfg : Cfg C} {qhull : List Loc → ℕ → ℕ → Bool} {names : Fin N → List Char} {loc : Fin N → Loc}
    {clusters : Fin K → List (Fin N → Bool)} {lh : List (List ℝ)} {p : Picture C N}
    (h : posteriorMap cfg qhull names loc clusters lh = some p) :
    ∃ G : Fin K → (Fin N → Bool) × List (Line N),
      (∀ k, clustersToGraph qhull (clusters k) loc cfg.burnIn cfg.density cfg.minFreq = some (G k)) ∧
      getExtent cfg ((List.finRange N).map loc) = some p.extent ∧
      p.points = (List.finRange N).map loc ∧
      p.clusterPoints = (if cfg.density then [] else (List.finRange K).flatMap fun k =>
        (marked (G k).1).map fun i => (i, colorOf cfg.colors K k)) ∧
      p.lines = ((List.finRange K).flatMap fun k => (G k).2.map fun l => (l, colorOf cfg.colors K k)) ∧
      p.labels = (if cfg.labels = .off then [] else addLabels cfg loc
        (if cfg.languageLabel then (List.finRange K).map fun k => (marked (G k).1).map Fin.val else []) (clusterColors cfg.colors K) p.extent) ∧
      p.legend = (if cfg.legendAdd then some ((legendTexts (cfg.legendAdd && cfg.legendLh) lh K).zip
        ((if cfg.legendAdd && cfg.legendLh then [none] else []) ++ (List.finRange K).map fun k : Fin K => some (colorOf cfg.colors K k))) else none) ∧
      mapTable cfg names (if cfg.languageLabel then (List.finRange K).map fun k => (marked (G k).1).map Fin.val else [])
        (clusterColors cfg.colors K) = some p.table := by
  unfold posteriorMap at h
  simp only [Option.bind_eq_bind, Option.bind_eq_some_iff] at h
  obtain ⟨e, he, graphs, hg, table, ht, hp⟩ := h
  have hm := mapM_all _ ((fun _ => false, []) : (Fin N → Bool) × List (Line N)) _ _ hg
  refine ⟨fun k => (clustersToGraph qhull (clusters k) loc cfg.burnIn cfg.density cfg.minFreq).getD (fun _ => false, []),
    fun k => hm.1 k (List.mem_finRange k), ?_⟩
  have hgr := hm.2
  subst hgr
  rw [Option.some.injEq] at hp
  subst hp
  rw [List.map_map] at ht
  refine ⟨he, rfl, ?_, ?_, ?_, ?_, ht⟩
  · simp only [zip_colors, List.flatMap_map]; rfl
  · simp only [zip_colors, List.flatMap_map]
  · simp only [List.map_map]; rfl
  · simp only [zip_colors, List.map_map]; rfl

/-! ### The part that is shown -/

theorem foldl_min_spec : ∀ (r : List ℝ) (x : ℝ), r.foldl min x ∈ x :: r ∧ ∀ y ∈ x :: r, r.foldl min x ≤ y
  | [], x => by simp
  | y :: r, x => by
    have ih := foldl_min_spec r (min x y)
    rw [List.foldl_cons]
    refine ⟨?_, ?_⟩
    · rcases List.mem_cons.1 ih.1 with h | h
      · rw [h]
        rcases min_choice x y with h' | h' <;> rw [h'] <;> simp
      · exact List.mem_cons_of_mem _ (List.mem_cons_of_mem _ h)
    · intro z hz
      have h0 := ih.2 (min x y) (by simp)
      rcases List.mem_cons.1 hz with rfl | hz
      · exact h0.trans (min_le_left _ _)
      · rcases List.mem_cons.1 hz with rfl | hz
        · exact h0.trans (min_le_right _ _)
        · exact ih.2 z (List.mem_cons_of_mem _ hz)

theorem foldl_max_spec : ∀ (r : List ℝ) (x : ℝ), r.foldl max x ∈ x :: r ∧ ∀ y ∈ x :: r, y ≤ r.foldl max x
  | [], x => by simp
  | y :: r, x => by
    have ih := foldl_max_spec r (max x y)
    rw [List.foldl_cons]
    refine ⟨?_, ?_⟩
    · rcases List.mem_cons.1 ih.1 with h | h
      · rw [h]
        rcases max_choice x y with h' | h' <;> rw [h'] <;> simp
      · exact List.mem_cons_of_mem _ (List.mem_cons_of_mem _ h)
    · intro z hz
      have h0 := ih.2 (max x y) (by simp)
      rcases List.mem_cons.1 hz with rfl | hz
      · exact (le_max_left _ _).trans h0
      · rcases List.mem_cons.1 hz with rfl | hz
        · exact (le_max_right _ _).trans h0
        · exact ih.2 z (List.mem_cons_of_mem _ hz)

/-- `(lo, hi)` is the range of the values, widened by the share `m` of its length on each side. -/
def IsWidened (m : ℝ) (x : Fin N → ℝ) (lo hi : ℝ) : Prop :=
  ∃ i j, (∀ k, x i ≤ x k ∧ x k ≤ x j) ∧ lo = x i - m * (x j - x i) ∧ hi = x j + m * (x j - x i)

theorem range1_spec {cfg : Option (ℝ × ℝ)} {m : ℝ} {x : Fin N → ℝ} {r : ℝ × ℝ}
    (h : range1 cfg m ((List.finRange N).map x) = some r) :
    (∀ r', cfg = some r' → r = r') ∧ (cfg = none → IsWidened m x r.1 r.2) := by
  cases cfg with
  | some r' => simp [range1] at h; simp [h]
  | none =>
    refine ⟨(fun _ h => by cases h), fun _ => ?_⟩
    unfold range1 at h
    cases hl : (List.finRange N).map x with
    | nil => rw [hl] at h; simp at h
    | cons y l =>
      rw [hl] at h
      dsimp only at h
      rw [Option.some.injEq] at h
      subst h
      have hmem : ∀ z, z ∈ y :: l ↔ ∃ k, x k = z := by
        intro z; rw [← hl]; simp
      obtain ⟨hmin1, hmin2⟩ := foldl_min_spec l y
      obtain ⟨hmax1, hmax2⟩ := foldl_max_spec l y
      obtain ⟨i, hi⟩ := (hmem _).1 hmin1
      obtain ⟨j, hj⟩ := (hmem _).1 hmax1
      refine ⟨i, j, fun k => ⟨?_, ?_⟩, ?_, ?_⟩
      · rw [hi]; exact hmin2 _ ((hmem _).2 ⟨k, rfl⟩)
      · rw [hj]; exact hmax2 _ ((hmem _).2 ⟨k, rfl⟩)
      · rw [hi, hj]; ring
      · rw [hi, hj]; ring

/-- **C99** The map shows the configured part of the plane, and otherwise the range of the locations with a margin of 30 % to the left
and right and 10 % above and below; every object has its point. -/
theorem C99_extent {cfg : Cfg C} {qhull : List Loc → ℕ → ℕ → Bool} {names : Fin N → List Char} {loc : Fin N → Loc}
    {clusters : Fin K → List (Fin N → Bool)} {lh : List (List ℝ)} {p : Picture C N}
    (h : posteriorMap cfg qhull names loc clusters lh = some p) :
    (∀ r, cfg.extentX = some r → (p.extent.xMin, p.extent.xMax) = r) ∧ (∀ r, cfg.extentY = some r → (p.extent.yMin, p.extent.yMax) = r) ∧
    (cfg.extentX = none → IsWidened (3 / 10) (fun i => (loc i).1) p.extent.xMin p.extent.xMax) ∧
    (cfg.extentY = none → IsWidened (1 / 10) (fun i => (loc i).2) p.extent.yMin p.extent.yMax) ∧
    p.points = (List.finRange N).map loc := by
  obtain ⟨G, -, he, hpts, -⟩ := map_some h
  unfold getExtent at he
  simp only [Option.bind_eq_bind, Option.bind_eq_some_iff, Option.some.injEq, List.map_map] at he
  obtain ⟨x, hx, y, hy, hext⟩ := he
  have h1 := range1_spec (x := fun i => (loc i).1) hx
  have h2 := range1_spec (x := fun i => (loc i).2) hy
  rw [← hext]
  exact ⟨fun r hr => h1.1 r hr, fun r hr => h2.1 r hr, h1.2, h2.2, hpts⟩

/-- **C99** So no object is cut off. -/
theorem C99_all_objects_are_shown {m : ℝ} (hm : 0 ≤ m) {x : Fin N → ℝ} {lo hi : ℝ} (h : IsWidened m x lo hi) (k : Fin N) :
    lo ≤ x k ∧ x k ≤ hi := by
  obtain ⟨i, j, hk, rfl, rfl⟩ := h
  have h1 := hk k
  have h2 : 0 ≤ m * (x j - x i) := mul_nonneg hm (by linarith [h1.1, h1.2])
  exact ⟨by linarith [h1.1], by linarith [h1.2]⟩

/-! ### Colours -/

/-- **C99** Up to 256 clusters have different colours if none are configured; the given colours are used first. -/
theorem C99_colors (custom : List C) (K : ℕ) :
    (∀ (k : ℕ) (h : k < custom.length), colorOf custom K k = .given custom[k]) ∧
    ((K - custom.length ≤ 256) → custom.Nodup → ∀ k k', k < K → k' < K → colorOf custom K k = colorOf custom K k' → k = k') := by
  refine ⟨fun k h => by simp [colorOf, h], fun hK hnd k k' hk hk' he => ?_⟩
  unfold colorOf at he
  by_cases h1 : k < custom.length <;> by_cases h2 : k' < custom.length
  · rw [List.getElem?_eq_getElem h1, List.getElem?_eq_getElem h2] at he
    simp only [Color.given.injEq] at he
    exact (hnd.getElem_inj_iff).1 he
  · rw [List.getElem?_eq_getElem h1, List.getElem?_eq_none (by omega)] at he
    cases he
  · rw [List.getElem?_eq_none (by omega), List.getElem?_eq_getElem h2] at he
    cases he
  · rw [List.getElem?_eq_none (by omega), List.getElem?_eq_none (by omega)] at he
    simp only [Color.rainbow.injEq] at he
    have hd : 0 < K - custom.length := by omega
    have key : ∀ a b n : ℕ, 0 < n → n ≤ 256 → a < b → 256 * a / n < 256 * b / n := by
      intro a b n hn0 hn hab
      have : 256 * a / n + 1 ≤ 256 * b / n := by
        rw [← Nat.add_div_right _ hn0]
        exact Nat.div_le_div_right (by omega)
      omega
    rcases Nat.lt_trichotomy (k - custom.length) (k' - custom.length) with h | h | h
    · have := key _ _ _ hd hK h; omega
    · omega
    · have := key _ _ _ hd hK h; omega

/-- **C99** Finding (a limit of the colour map): with more than 256 clusters without configured colours, two have the same colour. -/
theorem C99_more_than_256_clusters_false (K : ℕ) (hK : 256 < K) :
    ∃ k k', k < K ∧ k' < K ∧ k ≠ k' ∧ colorOf ([] : List C) K k = colorOf [] K k' := by
  refine ⟨0, 1, by omega, by omega, by omega, ?_⟩
  simp [colorOf, Nat.div_eq_of_lt hK]

/-! ### Clusters -/

/-- **C99** On a consensus map, an object is marked in the colour of cluster `k` if and only if the share of the retained samples in which it
is in cluster `k` reaches the threshold. -/
theorem C99_marked {cfg : Cfg C} {qhull : List Loc → ℕ → ℕ → Bool} {names : Fin N → List Char} {loc : Fin N → Loc}
    {clusters : Fin K → List (Fin N → Bool)} {lh : List (List ℝ)} {p : Picture C N}
    (h : posteriorMap cfg qhull names loc clusters lh = some p) (hd : cfg.density = false)
    (hne : ∀ k, retained cfg.burnIn (clusters k) ≠ []) (i : Fin N) (c : Color C) :
    (i, c) ∈ p.clusterPoints ↔
      ∃ k : Fin K, c = colorOf cfg.colors K k ∧ cfg.minFreq ≤ share (retained cfg.burnIn (clusters k)) fun s => s i := by
  obtain ⟨G, hG, -, -, hcp, -⟩ := map_some h
  rw [hcp, hd]
  have hg : ∀ k, (G k).1 i = true ↔ cfg.minFreq ≤ share (retained cfg.burnIn (clusters k)) fun s => s i := by
    intro k
    have := (graph_some (g := (G k).1) (lines := (G k).2) (hG k)).1
    rw [this, hd]
    exact isFrequent_iff (hne k) _ _
  simp only [Bool.false_eq_true, if_false, List.mem_flatMap, List.mem_finRange, true_and, List.mem_map, mem_marked, Prod.mk.injEq]
  constructor
  · rintro ⟨k, j, hj, rfl, rfl⟩
    exact ⟨k, rfl, (hg k).1 hj⟩
  · rintro ⟨k, rfl, hk⟩
    exact ⟨k, i, (hg k).2 hk, rfl, rfl⟩

/-- **C99** If an object is in at most one cluster in each sample, it is marked for at most one cluster on maps with a threshold above one
half. -/
theorem C99_marked_once {samples : List (Fin K → Fin N → Bool)}
    (hdis : ∀ s ∈ samples, ∀ k k' i, s k i = true → s k' i = true → k = k') (m : ℝ) (hm : 1 / 2 < m) (k k' : Fin K) (i : Fin N)
    (h : m ≤ share (samples.map fun s => s k) fun z => z i) (h' : m ≤ share (samples.map fun s => s k') fun z => z i) : k = k' := by
  by_contra hne
  unfold share at h h'
  have e : ∀ k : Fin K, ((samples.map fun s => s k).filter fun z => z i).length = samples.countP fun s => s k i := by
    intro k
    rw [← List.countP_eq_length_filter, List.countP_map]
    rfl
  rw [e, List.length_map] at h h'
  have hsum : samples.countP (fun s => s k i) + samples.countP (fun s => s k' i) ≤ samples.length := by
    clear h h' e
    induction samples with
    | nil => simp
    | cons s r ih =>
      have ih := ih fun s hs => hdis s (List.mem_cons_of_mem _ hs)
      rw [List.countP_cons, List.countP_cons, List.length_cons]
      have : ¬ (s k i = true ∧ s k' i = true) := fun hh => hne (hdis s (by simp) k k' i hh.1 hh.2)
      rcases Bool.eq_false_or_eq_true (s k i) with h1 | h1 <;> rcases Bool.eq_false_or_eq_true (s k' i) with h2 | h2
      · exact absurd ⟨h1, h2⟩ this
      all_goals
        simp only [h1, h2, Bool.false_eq_true, if_true, if_false]
        omega
  rcases Nat.eq_zero_or_pos samples.length with h0 | h0
  · rw [h0] at h; simp at h; linarith
  · have hpos : (0 : ℝ) < samples.length := by exact_mod_cast h0
    rw [le_div_iff₀ hpos] at h h'
    have : ((samples.countP fun s => s k i : ℕ) : ℝ) + (samples.countP fun s => s k' i : ℕ) ≤ samples.length := by exact_mod_cast hsum
    nlinarith

/-- **C99** Finding: with the default threshold of one half this is not so: an object that is in cluster 1 in half of the samples and in
cluster 2 in the other half is marked for both. -/
theorem C99_marked_once_default_false : ∃ samples : List (Fin 2 → Fin 1 → Bool),
    (∀ s ∈ samples, ∀ k k' i, s k i = true → s k' i = true → k = k') ∧
    ∀ k, (1 / 2 : ℝ) ≤ share (samples.map fun s => s k) fun z => z 0 := by
  refine ⟨[fun k _ => k == 0, fun k _ => k == 1], ?_, ?_⟩
  · decide
  · intro k
    revert k
    rw [Fin.forall_fin_two]
    constructor <;> simp [share]

/-! ### Labels, legend and table -/

theorem labelColor_spec (density : Bool) (i : ℕ) : ∀ (l : List (List ℕ × Color C)) (r : Color C × Bool),
    ((labelColor density i l r).2 = true ↔ r.2 = true ∨ ∃ x ∈ l, i ∈ x.1) ∧
    (density = true → (labelColor density i l r).1 = r.1) ∧
    ((∀ x ∈ l, i ∉ x.1) → (labelColor density i l r).1 = r.1) ∧
    (density = false → (∃ x ∈ l, i ∈ x.1) → ∃ a x b, l = a ++ x :: b ∧ i ∈ x.1 ∧ (∀ y ∈ b, i ∉ y.1) ∧ (labelColor density i l r).1 = x.2)
  | [], r => by simp [labelColor]
  | (lab, c) :: rest, r => by
    have ih := labelColor_spec density i rest (if i ∈ lab then (if density then r.1 else c, true) else r)
    unfold labelColor
    refine ⟨?_, ?_, ?_, ?_⟩
    · rw [ih.1]
      by_cases h : i ∈ lab <;> simp [h]
    · intro hd
      rw [ih.2.1 hd]
      by_cases h : i ∈ lab <;> simp [h, hd]
    · intro hx
      rw [ih.2.2.1 fun x hx' => hx x (List.mem_cons_of_mem _ hx')]
      have := hx (lab, c) (by simp)
      rw [if_neg this]
    · intro hd hex
      by_cases hr : ∃ x ∈ rest, i ∈ x.1
      · obtain ⟨a, x, b, hl, hi, hb, he⟩ := ih.2.2.2 hd hr
        exact ⟨(lab, c) :: a, x, b, by rw [hl]; rfl, hi, hb, he⟩
      · have hlab : i ∈ lab := by
          obtain ⟨x, hx, hi⟩ := hex
          rcases List.mem_cons.1 hx with rfl | hx
          · exact hi
          · exact absurd ⟨x, hx, hi⟩ hr
        refine ⟨[], (lab, c), rest, rfl, hlab, fun y hy hi => hr ⟨y, hy, hi⟩, ?_⟩
        rw [ih.2.2.1 fun y hy hi => hr ⟨y, hy, hi⟩, if_pos hlab]
        simp [hd]

theorem filterMap_if {β : Type} (f : Fin N → Option β) (q : Fin N → Bool) (g : Fin N → β)
    (h : ∀ i, f i = if q i then some (g i) else none) : (List.finRange N).filterMap f = (marked q).map g := by
  unfold marked
  generalize List.finRange N = l
  induction l with
  | nil => rfl
  | cons i l ih =>
    rw [List.filterMap_cons, List.filter_cons, h i]
    cases hq : q i <;> simp [ih]

/-- **C99** The labels of a consensus map (with `labels` set to `all` or `in_cluster`, and languages labelled). In the order of the data, each
object has at most one label; it is its number (from 1), close to its location; the objects marked for a cluster are labelled in the colour of
such a cluster, the others in black, or not at all with `in_cluster`. -/
theorem C99_labels {cfg : Cfg C} {qhull : List Loc → ℕ → ℕ → Bool} {names : Fin N → List Char} {loc : Fin N → Loc}
    {clusters : Fin K → List (Fin N → Bool)} {lh : List (List ℝ)} {p : Picture C N}
    (h : posteriorMap cfg qhull names loc clusters lh = some p) (hd : cfg.density = false) (hl : cfg.labels ≠ .off)
    (hlab : cfg.languageLabel = true) (hne : ∀ k, retained cfg.burnIn (clusters k) ≠ []) :
    ∃ (shown : Fin N → Bool) (color : Fin N → Color C),
      p.labels = (marked shown).map (fun i => ⟨((loc i).1 + (p.extent.xMax - p.extent.xMin) / 200,
        (loc i).2 + (p.extent.yMax - p.extent.yMin) / 200), i + 1, color i⟩) ∧
      ∀ i, (shown i = true ↔ cfg.labels = .all ∨
          ∃ k, cfg.minFreq ≤ share (retained cfg.burnIn (clusters k)) fun s => s i) ∧
        ((∃ k, cfg.minFreq ≤ share (retained cfg.burnIn (clusters k)) fun s => s i) →
          ∃ k : Fin K, color i = colorOf cfg.colors K k ∧ cfg.minFreq ≤ share (retained cfg.burnIn (clusters k)) fun s => s i) ∧
        ((¬ ∃ k, cfg.minFreq ≤ share (retained cfg.burnIn (clusters k)) fun s => s i) → color i = .black) := by
  obtain ⟨G, hG, -, -, -, -, hlb, -⟩ := map_some h
  rw [if_neg hl, if_pos hlab] at hlb
  have hg : ∀ k i, (G k).1 i = true ↔ cfg.minFreq ≤ share (retained cfg.burnIn (clusters k)) fun s => s i := by
    intro k i
    have := (graph_some (g := (G k).1) (lines := (G k).2) (hG k)).1
    rw [this, hd]
    exact isFrequent_iff (hne k) _ _
  let L : List (List ℕ × Color C) := (List.finRange K).map fun k => ((marked (G k).1).map Fin.val, colorOf cfg.colors K k)
  have hmem : ∀ (i : Fin N) (k : Fin K), (i : ℕ) ∈ (marked (G k).1).map Fin.val ↔ (G k).1 i = true := by
    intro i k
    rw [List.mem_map]
    constructor
    · rintro ⟨j, hj, he⟩
      rw [Fin.ext he] at hj
      exact mem_marked.1 hj
    · intro hi
      exact ⟨i, mem_marked.2 hi, rfl⟩
  have hex : ∀ i : Fin N, (∃ x ∈ L, (i : ℕ) ∈ x.1) ↔ ∃ k, cfg.minFreq ≤ share (retained cfg.burnIn (clusters k)) fun s => s i := by
    intro i
    simp only [L, List.mem_map, List.mem_finRange, true_and]
    constructor
    · rintro ⟨x, ⟨k, rfl⟩, hi⟩
      exact ⟨k, (hg k i).1 ((hmem i k).1 hi)⟩
    · rintro ⟨k, hk⟩
      exact ⟨_, ⟨k, rfl⟩, (hmem i k).2 ((hg k i).2 hk)⟩
  refine ⟨fun i => !(decide (cfg.labels = .inCluster) && !(labelColor cfg.density i L (.black, false)).2),
    fun i => (labelColor cfg.density i L (.black, false)).1, ?_, fun i => ⟨?_, ?_, ?_⟩⟩
  · rw [hlb]
    unfold addLabels
    rw [zip_colors]
    refine filterMap_if _ _ _ fun i => ?_
    by_cases h1 : cfg.labels = .inCluster
    · cases h2 : (labelColor cfg.density (i : ℕ) L (.black, false)).2 <;> simp only [L] at h2 <;> simp [h1, h2, L]
    · simp [h1, L]
  · have h1 := (labelColor_spec cfg.density (i : ℕ) L (.black, false)).1
    rw [← hex]
    simp only [Bool.false_eq_true, false_or] at h1
    simp only [Bool.not_eq_true', Bool.and_eq_false_iff, decide_eq_false_iff_not, Bool.not_eq_false', h1]
    have : ¬ cfg.labels = .inCluster ↔ cfg.labels = .all := by
      cases hc : cfg.labels <;> simp_all
    rw [this]
  · intro hk
    obtain ⟨a, x, b, hL, hi, -, he⟩ := (labelColor_spec cfg.density (i : ℕ) L (.black, false)).2.2.2 hd ((hex i).2 hk)
    have hx : x ∈ L := by rw [hL]; simp
    simp only [L, List.mem_map, List.mem_finRange, true_and] at hx
    obtain ⟨k, rfl⟩ := hx
    exact ⟨k, he, (hg k i).1 ((hmem i k).1 hi)⟩
  · intro hk
    exact (labelColor_spec cfg.density (i : ℕ) L (.black, false)).2.2.1 fun x hx hi => hk ((hex i).1 ⟨x, hx, hi⟩)

/-- **C99** The legend: entry `Z_k` shows the colour of cluster `k`; with log-likelihoods after a title. -/
theorem C99_legend {cfg : Cfg C} {qhull : List Loc → ℕ → ℕ → Bool} {names : Fin N → List Char} {loc : Fin N → Loc}
    {clusters : Fin K → List (Fin N → Bool)} {lh : List (List ℝ)} {p : Picture C N}
    (h : posteriorMap cfg qhull names loc clusters lh = some p) (ha : cfg.legendAdd = true) (hlen : lh.length = K) :
    ∃ entries, p.legend = some entries ∧
      entries.filterMap (fun e => match e.1 with | .cluster k _ => some (k, e.2) | .title => none) =
        (List.finRange K).map fun k : Fin K => ((k : ℕ) + 1, some (colorOf cfg.colors K k)) := by
  obtain ⟨G, hG, -, -, -, -, -, hleg, -⟩ := map_some h
  rw [ha, if_pos rfl] at hleg
  refine ⟨_, hleg, ?_⟩
  unfold legendTexts
  have hl : (legendEntries lh).length = K := by
    simp [legendEntries, hlen]
  cases hlh : cfg.legendLh with
  | false =>
    simp only [Bool.and_false, Bool.false_eq_true, if_false, List.nil_append]
    have : (List.range K).map (fun i => LegendText.cluster (i + 1) none) =
        (List.finRange K).map fun k : Fin K => LegendText.cluster ((k : ℕ) + 1) none := by
      rw [← List.map_coe_finRange_eq_range, List.map_map]; rfl
    rw [this, List.zip_map', List.filterMap_map]
    exact congrFun (List.filterMap_eq_map (f := fun k : Fin K => ((k : ℕ) + 1, some (colorOf cfg.colors K k)))) _
  | true =>
    simp only [Bool.and_self, if_true, List.singleton_append, List.zip_cons_cons]
    have : ((legendEntries lh).zipIdx.map fun x => LegendText.cluster (x.2 + 1) (some x.1)) =
        (List.finRange K).map fun k : Fin K => LegendText.cluster ((k : ℕ) + 1) (some ((legendEntries lh).getD k 0)) := by
      refine List.ext_getElem (by simp [hl]) fun i h1 h2 => ?_
      have hi : i < (legendEntries lh).length := by simpa using h1
      simp [List.getD_eq_getElem?_getD, List.getElem?_eq_getElem hi]
    rw [this, List.zip_map', List.filterMap_cons, List.filterMap_map]
    exact congrFun (List.filterMap_eq_map (f := fun k : Fin K => ((k : ℕ) + 1, some (colorOf cfg.colors K k)))) _

/-- The clusters of the labels, in numbers. -/
theorem mem_marked_val {g : Fin N → Bool} (x : ℕ) : x ∈ (marked g).map Fin.val ↔ ∃ i : Fin N, (i : ℕ) = x ∧ g i = true := by
  rw [List.mem_map]
  exact ⟨fun ⟨j, hj, he⟩ => ⟨j, he, mem_marked.1 hj⟩, fun ⟨j, he, hj⟩ => ⟨j, mem_marked.2 hj, he⟩⟩

/-- **C99** The table of names of a consensus map: it is drawn if and only if some object is marked for a cluster; it lists the objects marked
for a cluster, and the others (in black) if all are asked for; with their names, and in the colour of a cluster they are marked for. -/
theorem C99_table {cfg : Cfg C} {qhull : List Loc → ℕ → ℕ → Bool} {names : Fin N → List Char} {loc : Fin N → Loc}
    {clusters : Fin K → List (Fin N → Bool)} {lh : List (List ℝ)} {p : Picture C N}
    (h : posteriorMap cfg qhull names loc clusters lh = some p) (hd : cfg.density = false) (hlab : cfg.languageLabel = true)
    (ht : cfg.tableAdd = true) (hne : ∀ k, retained cfg.burnIn (clusters k) ≠ []) :
    (p.table.isSome ↔ ∃ i k, cfg.minFreq ≤ share (retained cfg.burnIn (clusters k)) fun s => s i) ∧
    ∀ es, p.table = some es →
      (∀ e ∈ es, ∃ i : Fin N, e.id = i ∧ e.name = names i ∧
        ((∃ k : Fin K, e.color = colorOf cfg.colors K k ∧ cfg.minFreq ≤ share (retained cfg.burnIn (clusters k)) fun s => s i) ∨
          (cfg.showAll = true ∧ e.color = .black ∧ ¬ ∃ k, cfg.minFreq ≤ share (retained cfg.burnIn (clusters k)) fun s => s i))) ∧
      ∀ i : Fin N, (∃ e ∈ es, e.id = i) ↔
        cfg.showAll = true ∨ ∃ k, cfg.minFreq ≤ share (retained cfg.burnIn (clusters k)) fun s => s i := by
  obtain ⟨G, hG, -, -, -, -, -, -, htab⟩ := map_some h
  rw [if_pos hlab] at htab
  have hg : ∀ k i, (G k).1 i = true ↔ cfg.minFreq ≤ share (retained cfg.burnIn (clusters k)) fun s => s i := by
    intro k i
    have := (graph_some (g := (G k).1) (lines := (G k).2) (hG k)).1
    rw [this, hd]
    exact isFrequent_iff (hne k) _ _
  unfold mapTable at htab
  simp only [hd, ht, hlab, Bool.false_eq_true, if_false, Bool.and_self, Bool.true_and] at htab
  have hany : ((List.finRange K).map fun k => (marked (G k).1).map Fin.val).any (fun l => !l.isEmpty) = true ↔
      ∃ i k, cfg.minFreq ≤ share (retained cfg.burnIn (clusters k)) fun s => s i := by
    rw [List.any_eq_true]
    constructor
    · rintro ⟨l, hl, hl'⟩
      obtain ⟨k, -, rfl⟩ := List.mem_map.1 hl
      cases hm : marked (G k).1 with
      | nil => rw [hm] at hl'; simp at hl'
      | cons i r => exact ⟨i, k, (hg k i).1 (mem_marked.1 (by rw [hm]; simp))⟩
    · rintro ⟨i, k, hk⟩
      refine ⟨_, List.mem_map.2 ⟨k, List.mem_finRange k, rfl⟩, ?_⟩
      have := mem_marked.2 ((hg k i).2 hk)
      cases hm : marked (G k).1 with
      | nil => rw [hm] at this; simp at this
      | cons i r => simp
  by_cases ha : ((List.finRange K).map fun k => (marked (G k).1).map Fin.val).any (fun l => !l.isEmpty) = true
  · rw [if_pos ha] at htab
    rw [Option.map_eq_some_iff] at htab
    obtain ⟨es, hes, hp⟩ := htab
    refine ⟨⟨fun _ => hany.1 ha, fun _ => by rw [← hp]; rfl⟩, fun es' hes' => ?_⟩
    rw [← hp, Option.some.injEq] at hes'
    subst hes'
    obtain ⟨c1, c2, -⟩ := C75_entries hes
    have hin : ∀ (i : Fin N), (∃ lab ∈ (List.finRange K).map fun k => (marked (G k).1).map Fin.val, (i : ℕ) ∈ lab) ↔
        ∃ k, cfg.minFreq ≤ share (retained cfg.burnIn (clusters k)) fun s => s i := by
      intro i
      constructor
      · rintro ⟨lab, hlab, hi⟩
        obtain ⟨k, -, rfl⟩ := List.mem_map.1 hlab
        obtain ⟨j, hj, hk⟩ := (mem_marked_val _).1 hi
        rw [Fin.ext hj] at hk
        exact ⟨k, (hg k i).1 hk⟩
      · rintro ⟨k, hk⟩
        exact ⟨_, List.mem_map.2 ⟨k, List.mem_finRange k, rfl⟩, (mem_marked_val _).2 ⟨i, rfl, (hg k i).2 hk⟩⟩
    refine ⟨fun e he => ?_, fun i => ?_⟩
    · obtain ⟨ho, hcol⟩ := c1 e he
      obtain ⟨i, -, hi⟩ := List.mem_map.1 ho
      rw [Prod.mk.injEq] at hi
      refine ⟨i, hi.1.symm, hi.2.symm, ?_⟩
      rcases hcol with ⟨s, lab, hs, hid, hc⟩ | ⟨hnone, hsa, hc⟩
      · left
        obtain ⟨hsl, hs'⟩ := List.getElem?_eq_some_iff.1 hs
        have hsK : s < K := by simpa using hsl
        rw [clusterColors_get _ _ _ hsK, Option.some.injEq] at hc
        refine ⟨⟨s, hsK⟩, hc.symm, ?_⟩
        rw [List.getElem_map, List.getElem_finRange] at hs'
        rw [← hs'] at hid
        obtain ⟨j, hj, hk⟩ := (mem_marked_val _).1 hid
        rw [← hi.1] at hj
        rw [Fin.ext hj] at hk
        exact (hg _ i).1 hk
      · right
        refine ⟨hsa, hc, fun hk => ?_⟩
        obtain ⟨lab, hl, hi'⟩ := (hin i).2 hk
        exact hnone lab hl (hi.1 ▸ hi')
    · have := c2 ((i : ℕ), names i) (List.mem_map.2 ⟨i, List.mem_finRange i, rfl⟩)
      rw [hin i, or_comm] at this
      rw [← this]
      constructor
      · rintro ⟨e, he, hid⟩
        obtain ⟨ho, -⟩ := c1 e he
        obtain ⟨j, -, hj⟩ := List.mem_map.1 ho
        rw [Prod.mk.injEq] at hj
        have : j = i := Fin.ext (hj.1.trans hid)
        subst this
        exact ⟨e, he, hid, hj.2.symm⟩
      · rintro ⟨e, he, hid, -⟩
        exact ⟨e, he, hid⟩
  · rw [if_neg ha, Option.some.injEq] at htab
    rw [← htab]
    refine ⟨⟨fun hx => by simp at hx, fun hx => absurd (hany.2 hx) ha⟩, fun es hes => by cases hes⟩

/-- **C99** So, with labels for the objects in clusters, the numbers on the map are those in the table. -/
theorem C99_numbers_on_the_map_are_in_the_table {cfg : Cfg C} {qhull : List Loc → ℕ → ℕ → Bool} {names : Fin N → List Char}
    {loc : Fin N → Loc} {clusters : Fin K → List (Fin N → Bool)} {lh : List (List ℝ)} {p : Picture C N}
    (h : posteriorMap cfg qhull names loc clusters lh = some p) (hd : cfg.density = false) (hlab : cfg.languageLabel = true)
    (hl : cfg.labels = .inCluster) (ht : cfg.tableAdd = true) (hs : cfg.showAll = false)
    (hne : ∀ k, retained cfg.burnIn (clusters k) ≠ []) (n : ℕ) :
    (∃ l ∈ p.labels, l.number = n) ↔ ∃ es, p.table = some es ∧ ∃ e ∈ es, e.id + 1 = n := by
  obtain ⟨shown, color, hlb, hsh⟩ := C99_labels h hd (by rw [hl]; decide) hlab hne
  obtain ⟨hsome, htab⟩ := C99_table h hd hlab ht hne
  constructor
  · rintro ⟨l, hmem, rfl⟩
    rw [hlb] at hmem
    obtain ⟨i, hi, rfl⟩ := List.mem_map.1 hmem
    have hk := ((hsh i).1.1 (mem_marked.1 hi)).resolve_left (by rw [hl]; decide)
    have := hsome.2 ⟨i, hk⟩
    obtain ⟨es, hes⟩ := Option.isSome_iff_exists.1 this
    obtain ⟨e, he, hid⟩ := ((htab es hes).2 i).2 (Or.inr hk)
    exact ⟨es, hes, e, he, by rw [hid]⟩
  · rintro ⟨es, hes, e, he, rfl⟩
    obtain ⟨i, hid, -⟩ := (htab es hes).1 e he
    have hk := (((htab es hes).2 i).1 ⟨e, he, hid⟩).resolve_left (by rw [hs]; decide)
    refine ⟨_, by rw [hlb]; exact List.mem_map.2 ⟨i, mem_marked.2 ((hsh i).1.2 (Or.inr hk)), rfl⟩, ?_⟩
    rw [hid]

/-- **C99** Finding: if languages are not labelled in `graphic`, then with `labels` set to `in_cluster` there is not a single label, also on
consensus maps. -/
theorem C99_in_cluster_labels_false {cfg : Cfg C} {qhull : List Loc → ℕ → ℕ → Bool} {names : Fin N → List Char} {loc : Fin N → Loc}
    {clusters : Fin K → List (Fin N → Bool)} {lh : List (List ℝ)} {p : Picture C N}
    (h : posteriorMap cfg qhull names loc clusters lh = some p) (hlab : cfg.languageLabel = false) (hl : cfg.labels = .inCluster) :
    p.labels = [] := by
  obtain ⟨G, -, -, -, -, -, hlb, -⟩ := map_some h
  rw [hlb, if_neg (by rw [hl]; decide), hlab]
  unfold addLabels
  rw [List.filterMap_eq_nil_iff]
  intro i _
  simp [labelColor, hl]

/-- **C99** Finding: on a density map with labels, all objects are listed in the table in the colour of cluster 1, while their labels on the
map are black. -/
theorem C99_density_table_false {cfg : Cfg C} {qhull : List Loc → ℕ → ℕ → Bool} {names : Fin N → List Char} {loc : Fin N → Loc}
    {clusters : Fin K → List (Fin N → Bool)} {lh : List (List ℝ)} {p : Picture C N} (hK : 0 < K) (hN : 0 < N)
    (h : posteriorMap cfg qhull names loc clusters lh = some p) (hd : cfg.density = true) (hlab : cfg.languageLabel = true)
    (ht : cfg.tableAdd = true) :
    (∀ l ∈ p.labels, l.color = .black) ∧
    ∃ es, p.table = some es ∧ (∀ i : Fin N, ∃ e ∈ es, e.id = i) ∧ ∀ e ∈ es, e.color = colorOf cfg.colors K 0 := by
  obtain ⟨G, -, -, -, -, -, hlb, -, htab⟩ := map_some h
  refine ⟨?_, ?_⟩
  · intro l hmem
    rw [hlb] at hmem
    by_cases hoff : cfg.labels = .off
    · rw [if_pos hoff] at hmem; cases hmem
    · rw [if_neg hoff] at hmem
      unfold addLabels at hmem
      obtain ⟨i, -, hi⟩ := List.mem_filterMap.1 hmem
      rw [Option.ite_none_left_eq_some, Option.some.injEq] at hi
      rw [← hi.2]
      exact (labelColor_spec cfg.density (i : ℕ) _ _).2.1 hd
  · unfold mapTable at htab
    have hne : (!(List.range N).isEmpty) = true := by
      cases N with
      | zero => omega
      | succ n => simp [List.range_succ]
    simp only [hd, ht, hlab, if_true, Bool.and_self, List.any_cons, List.any_nil, hne, Bool.or_false] at htab
    rw [Option.map_eq_some_iff] at htab
    obtain ⟨es, hes, hp⟩ := htab
    obtain ⟨c1, c2, -⟩ := C75_entries hes
    refine ⟨es, hp.symm, fun i => ?_, fun e he => ?_⟩
    · obtain ⟨e, he, hid, -⟩ := (c2 ((i : ℕ), names i) (List.mem_map.2 ⟨i, List.mem_finRange i, rfl⟩)).2
        (Or.inl ⟨_, List.mem_singleton.2 rfl, List.mem_range.2 i.2⟩)
      exact ⟨e, he, hid⟩
    · obtain ⟨ho, hcol⟩ := c1 e he
      obtain ⟨i, -, hi⟩ := List.mem_map.1 ho
      rw [Prod.mk.injEq] at hi
      rcases hcol with ⟨s, lab, hs, -, hc⟩ | ⟨hnone, -⟩
      · have hs0 : s = 0 := by
          have := (List.getElem?_eq_some_iff.1 hs).1
          simp at this; exact this
        subst hs0
        rw [clusterColors_get _ _ _ hK, Option.some.injEq] at hc
        exact hc.symm
      · exact absurd (List.mem_range.2 (hi.1 ▸ i.2)) (hnone _ (List.mem_singleton.2 rfl))

/-- **C99** The lines of each cluster are drawn in its colour; which lines these are is C74 (`clusters_to_graph`). -/
theorem C99_lines {cfg : Cfg C} {qhull : List Loc → ℕ → ℕ → Bool} {names : Fin N → List Char} {loc : Fin N → Loc}
    {clusters : Fin K → List (Fin N → Bool)} {lh : List (List ℝ)} {p : Picture C N}
    (h : posteriorMap cfg qhull names loc clusters lh = some p) (l : Line N) (c : Color C) :
    (l, c) ∈ p.lines ↔ ∃ (k : Fin K) (g : Fin N → Bool) (ls : List (Line N)),
      clustersToGraph qhull (clusters k) loc cfg.burnIn cfg.density cfg.minFreq = some (g, ls) ∧ l ∈ ls ∧ c = colorOf cfg.colors K k := by
  obtain ⟨G, hG, -, -, -, hln, -⟩ := map_some h
  rw [hln]
  simp only [List.mem_flatMap, List.mem_finRange, true_and, List.mem_map, Prod.mk.injEq]
  constructor
  · rintro ⟨k, l', hl', rfl, rfl⟩
    exact ⟨k, (G k).1, (G k).2, hG k, hl', rfl⟩
  · rintro ⟨k, g, ls, hk, hl', rfl⟩
    rw [hG k, Option.some.injEq] at hk
    exact ⟨k, l, by rw [hk]; exact hl', rfl, rfl⟩

theorem range1_exists (cfg : Option (ℝ × ℝ)) (m : ℝ) (x : Fin N → ℝ) (hN : 0 < N) :
    ∃ r, range1 cfg m ((List.finRange N).map x) = some r := by
  cases cfg with
  | some r => exact ⟨r, rfl⟩
  | none =>
    cases N with
    | zero => omega
    | succ n => rw [List.finRange_succ]; exact ⟨_, rfl⟩

theorem tableEntries_exists {D : Type} (objects : List (ℕ × List Char)) {labels : List (List ℕ)} {colors : List D} (black : D)
    (showAll : Bool) (hl : labels.length ≤ colors.length) : ∃ es, tableEntries objects labels colors black showAll = some es := by
  unfold tableEntries
  obtain ⟨r, hr⟩ := mapM_exists (l := objects) (f := fun o =>
    let hits := (List.range labels.length).filter (fun s => decide (o.1 ∈ labels.getD s []))
    if hits.isEmpty then some (if showAll then [Entry.mk o.1 o.2 black] else [])
    else hits.mapM (fun s => (colors[s]?).map (fun c => Entry.mk o.1 o.2 c))) (by
      intro o _
      dsimp only
      split
      · exact ⟨_, rfl⟩
      · apply mapM_exists
        intro s hs
        have : s < labels.length := by
          have := (List.mem_filter.1 hs).1
          exact List.mem_range.1 this
        rw [List.getElem?_eq_getElem (by omega)]
        exact ⟨_, rfl⟩)
  rw [hr]
  exact ⟨_, rfl⟩

theorem length_clusterColors (custom : List C) (K : ℕ) : K ≤ (clusterColors custom K).length := by
  rcases Nat.eq_zero_or_pos K with h | h
  · omega
  · have := clusterColors_get custom K (K - 1) (by omega)
    have := (List.getElem?_eq_some_iff.1 this).1
    omega

/-- **C99** The map is made, without an exception, for any settings and any results with at least one object, cluster and retained sample,
unless scipy returns a triangulation without edges. -/
theorem C99_map_is_made (cfg : Cfg C) {qhull : List Loc → ℕ → ℕ → Bool} (hs : ∀ l i j, qhull l i j = qhull l j i)
    (hi : ∀ l i, qhull l i i = false) (hq : ∀ l : List Loc, 3 < l.length → ∃ i j, i < j ∧ j < l.length ∧ qhull l i j = true)
    (names : Fin N → List Char) (loc : Fin N → Loc) (clusters : Fin K → List (Fin N → Bool)) (lh : List (List ℝ))
    (hN : 0 < N) (hK : 0 < K) (hne : ∀ k, retained cfg.burnIn (clusters k) ≠ []) :
    ∃ p, posteriorMap cfg qhull names loc clusters lh = some p := by
  unfold posteriorMap
  obtain ⟨x, hx⟩ := range1_exists cfg.extentX (3 / 10) (fun i => (loc i).1) hN
  obtain ⟨y, hy⟩ := range1_exists cfg.extentY (1 / 10) (fun i => (loc i).2) hN
  have he : getExtent cfg ((List.finRange N).map loc) = some ⟨x.1, x.2, y.1, y.2⟩ := by
    unfold getExtent
    rw [List.map_map, List.map_map]
    rw [show (Prod.fst ∘ loc) = fun i => (loc i).1 from rfl, show (Prod.snd ∘ loc) = fun i => (loc i).2 from rfl, hx, hy]
    rfl
  obtain ⟨graphs, hg⟩ := mapM_exists (l := List.finRange K)
    (f := fun k => clustersToGraph qhull (clusters k) loc cfg.burnIn cfg.density cfg.minFreq) (by
      intro k _
      cases hd : cfg.density with
      | true =>
        obtain ⟨g, l, h, -⟩ := C73_density_map qhull (clusters k) loc cfg.burnIn cfg.minFreq (hne k)
        exact ⟨_, h⟩
      | false =>
        obtain ⟨g, l, h⟩ := C73_consensus_map_exists hs hi hq (clusters k) loc cfg.burnIn cfg.minFreq
        exact ⟨_, h⟩)
  have hlen : graphs.length = K := by
    have := (mapM_all _ ((fun _ => false, []) : (Fin N → Bool) × List (Line N)) _ _ hg).2
    rw [this]; simp
  have ht : ∃ t, mapTable cfg names (if cfg.languageLabel then graphs.map fun g => ((List.finRange N).filter g.1).map Fin.val else [])
      (clusterColors cfg.colors K) = some t := by
    have hc := length_clusterColors cfg.colors K
    have key : ∀ tl : List (List ℕ), tl.length ≤ K → ∃ t, (if cfg.tableAdd && cfg.languageLabel && tl.any (fun l => !l.isEmpty) then
        (tableEntries ((List.finRange N).map fun i : Fin N => ((i : ℕ), names i)) tl (clusterColors cfg.colors K) .black cfg.showAll).map some
        else some none) = some t := by
      intro tl htl
      split
      · obtain ⟨es, hes⟩ := tableEntries_exists ((List.finRange N).map fun i : Fin N => ((i : ℕ), names i)) (labels := tl)
          (colors := clusterColors cfg.colors K) .black cfg.showAll (by omega)
        rw [hes]
        exact ⟨_, rfl⟩
      · exact ⟨_, rfl⟩
    refine key _ ?_
    cases cfg.density <;> cases cfg.languageLabel <;> simp [hlen] <;> omega
  obtain ⟨t, ht⟩ := ht
  simp only [he, hg, ht, Option.bind_eq_bind, Option.bind_some]
  exact ⟨_, rfl⟩

/-- A case that meets the hypotheses of the theorems above, for consensus maps and density maps. -/
example (density : Bool) : ∃ p, posteriorMap (C := ℕ) (K := 2)
    ⟨density, 1 / 2, 0, .inCluster, none, some (0, 1), [7], true, true, false, true, false⟩ (fun _ i j => i != j)
    (fun _ : Fin 2 => ['a']) (fun i => (i, 0)) (fun k => [fun i => i == k, fun _ => false, fun i => i == k]) [[1], [2]] = some p :=
  C99_map_is_made _ (fun _ i j => by rw [Bool.eq_iff_iff]; simp only [bne_iff_ne]; exact ⟨Ne.symm, Ne.symm⟩) (fun _ i => by simp)
    (fun l hl => ⟨0, 1, by omega, by omega, by simp⟩) _ _ _ _ (by omega) (by omega) (fun k => by simp [retained])

/-- With these samples object 0 is marked for cluster 0 and not for cluster 1. -/
example : (1 / 2 : ℝ) ≤ share (retained (N := 2) 0 [fun i => i == 0, fun _ => false, fun i => i == 0]) (fun s => s 0) ∧
    ¬ (1 / 2 : ℝ) ≤ share (retained (N := 2) 0 [fun i => i == 1, fun _ => false, fun i => i == 1]) (fun s => s 0) := by
  constructor <;> norm_num [retained, share, List.filter_cons]

/-- Samples of disjoint clusters with a share above one half. -/
example : ∃ samples : List (Fin 2 → Fin 1 → Bool), (∀ s ∈ samples, ∀ k k' i, s k i = true → s k' i = true → k = k') ∧
    (3 / 5 : ℝ) ≤ share (samples.map fun s => s 0) fun z => z 0 := by
  refine ⟨[fun k _ => k == 0, fun k _ => k == 0, fun k _ => k == 1], by decide, ?_⟩
  norm_num [share, List.filter_cons]

end SBayes.WholeMap
