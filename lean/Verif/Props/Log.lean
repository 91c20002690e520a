import Verif.Lemmas.LogLoad
import Mathlib.Tactic.NormNum
import Mathlib.Algebra.BigOperators.Fin
/-
C34-C38 and C55: the output files of a run and what is read back from them.
-/
namespace SBayes.Log

/-! ## C34 Statistics file -/

/-- C34. After any history of writing and closing (that did not raise), the statistics file consists of the header and
one row per sample written since the file was last opened; every row has as many fields as the header; and the field
under a column whose name is not shared is that column's quantity in that sample (for some relabelling `σ t` of the
clusters of sample `t`; C36 says which). -/
theorem C34_statistics_file (S : Schema) (K N : ℕ) (contrib : Bool) (fmt : EReal → Str) (disk disk' : List Str)
    (es : List Event) (p c : LogState)
    (h : logRun S K N contrib fmt (newLogger disk true, newLogger disk' true) es = some (p, c))
    (hw : (written es).1 ≠ []) :
    ∃ (σ : ℕ → ℕ → ℕ) (rows : List (List EReal)),
      (∀ t, Permutes K (σ t)) ∧
      rows.length = (written es).1.length ∧
      p.file = tabJoin ((allColumns S K contrib).map (Column.name S)) :: rows.map (fun r => tabJoin (r.map fmt)) ∧
      ∀ t x, (written es).1[t]? = some x → ∃ r, rows[t]? = some r ∧ r.length = (allColumns S K contrib).length ∧
        ∀ (j : ℕ) (col : Column), (allColumns S K contrib)[j]? = some col →
          (∀ col' ∈ allColumns S K contrib, col'.name S = col.name S → col' = col) →
          r[j]? = some (col.quantity N (σ t) x) := by
  have hs := synced_run S K N contrib fmt disk disk' es p c h
  refine ⟨sigma K N (written es).1, (written es).1.zipIdx.map (fun x => rowVals S K N contrib
      ((matchRun K N (decide (1 < K)) (written es).1).1.getD x.2 none) x.1),
    fun t => sigma_permutes K N _ t, by simp, ?_, ?_⟩
  · rw [hs.file_p hw, header_eq, List.map_map]
    rfl
  · intro t x hx
    refine ⟨rowVals S K N contrib ((matchRun K N (decide (1 < K)) (written es).1).1.getD t none) x, ?_, ?_, ?_⟩
    · rw [List.getElem?_map, List.getElem?_zipIdx, hx]
      simp
    · rw [rowVals, header_eq]; simp
    · intro j col hc hu
      exact rowVals_unique S K N contrib _ x j col hc hu

/-- C34. With good names no two columns share a name, so the previous theorem covers all columns. -/
theorem C34_columns_have_distinct_names (S : Schema) (hS : GoodNames S) (K : ℕ) (contrib : Bool) :
    ((allColumns S K contrib).map (Column.name S)).Nodup := by
  rw [← header_eq]
  exact header_nodup hS K contrib

/-- C34. Logging a sample never raises, whatever was logged before. -/
theorem C34_writing_never_raises (S : Schema) (K N : ℕ) (contrib : Bool) (fmt : EReal → Str) (disk disk' : List Str)
    (es : List Event) (x : Snapshot) (p c : LogState)
    (h : logRun S K N contrib fmt (newLogger disk true, newLogger disk' true) es = some (p, c)) :
    ∃ p' c', logRun S K N contrib fmt (newLogger disk true, newLogger disk' true) (es ++ [.write x]) = some (p', c') :=
  run_writes S K N contrib fmt disk disk' es x p c h

/-- C34. Closing loggers that have not written anything raises an exception (`self.file` is `None`); this is what a run
with zero samples ends with. -/
theorem C34_closing_without_samples_raises (S : Schema) (K N : ℕ) (contrib : Bool) (fmt : EReal → Str)
    (disk disk' : List Str) :
    logRun S K N contrib fmt (newLogger disk true, newLogger disk' true) [.close] = none := by
  rfl

/-- C34. Until the first sample is logged, the files of an earlier run with the same names stay as they are: only the empty sequence of
operations succeeds without a sample, and it leaves the files alone. -/
theorem C34_old_files_stay_until_the_first_sample (S : Schema) (K N : ℕ) (contrib : Bool) (fmt : EReal → Str)
    (disk disk' : List Str) (es : List Event) (hes : ∀ e ∈ es, ∀ x, e ≠ .write x) (p c : LogState)
    (h : logRun S K N contrib fmt (newLogger disk true, newLogger disk' true) es = some (p, c)) :
    es = [] ∧ p.file = disk ∧ c.file = disk' := by
  cases es with
  | nil =>
    simp only [logRun, List.foldlM_nil, Option.pure_def, Option.some.injEq, Prod.mk.injEq] at h
    obtain ⟨rfl, rfl⟩ := h
    exact ⟨rfl, rfl, rfl⟩
  | cons e r =>
    cases e with
    | write x => exact absurd rfl (hes (.write x) (by simp) x)
    | close => simp [logRun, List.foldlM_cons, logStep, newLogger, closeLog] at h

/-- A sample with easily recognised values, for the examples. -/
noncomputable def demo (k : ℕ) (cl : ℕ → ℕ → Bool) : Snapshot :=
  { step := k, lh := -5, prior := -2, clusters := cl, weights := fun f c => 10 * f + c,
    clusterEffect := fun _ _ _ => 1 / 2, confEffect := fun _ _ _ _ => 1 / 2, lh1 := fun _ _ => -3,
    prior1 := fun _ _ => -1 }

/-- C34, why the name must not be shared: a confounder called "areal" shares the column `w_areal_f`, and both of
that name's columns show the confounder's weight, not the areal weight. -/
theorem C34_shared_name_false : ∃ (S : Schema) (x : Snapshot) (col : Column),
    (allColumns S 1 false)[5]? = some col ∧ (rowVals S 1 1 false none x)[5]? ≠ some (col.quantity 1 id x) := by
  refine ⟨⟨[(lit "f", [lit "s"])], [(lit "areal", [lit "g"])]⟩, demo 0 (fun _ _ => true), .weight 0 0, rfl, ?_⟩
  have h1 : (rowVals ⟨[(lit "f", [lit "s"])], [(lit "areal", [lit "g"])]⟩ 1 1 false none (demo 0 (fun _ _ => true)))[5]? =
      some ((((10 * (0 : ℕ) + (1 : ℕ) : ℝ)) : ℝ) : EReal) := by
    rw [rowVals, List.getElem?_map, header_eq]
    have : (List.map (Column.name ⟨[(lit "f", [lit "s"])], [(lit "areal", [lit "g"])]⟩)
        (allColumns ⟨[(lit "f", [lit "s"])], [(lit "areal", [lit "g"])]⟩ 1 false))[5]? = some (lit "w_areal_f") := by
      decide
    rw [this]
    simp only [Option.map_some, Option.some.injEq]
    rfl
  rw [h1]
  simp only [Column.quantity, demo, ne_eq, Option.some.injEq, EReal.coe_eq_coe_iff]
  norm_num

/-- Names used in the examples: two features and two confounders, one of them universal. -/
def demoSchema : Schema :=
  { features := [(lit "F1", [lit "A", lit "B"]), (lit "F2", [lit "no", lit "yes_or_maybe"])],
    confs := [(lit "universal", [lit "<ALL>"]), (lit "family", [lit "Arawak", lit "Tucanoan"])] }

theorem demoSchema_good : GoodNames demoSchema := by
  constructor <;> decide

theorem demoSchema_plain : PlainText demoSchema := by
  constructor <;> decide

/-- The hypotheses of C34 are met by writing two samples, closing, and writing a third. -/
example : ∃ p c, logRun demoSchema 2 3 true (fun _ => lit "0") (newLogger [] true, newLogger [] true)
    [.write (demo 0 fun i j => i == j), .write (demo 1 fun i j => i != j), .close, .write (demo 2 fun i j => i == j)] =
      some (p, c) := by
  obtain ⟨p, c, h⟩ := C34_writing_never_raises demoSchema 2 3 true (fun _ => lit "0") [] [] []
    (demo 0 fun i j => i == j) _ _ rfl
  obtain ⟨p2, c2, h2⟩ := C34_writing_never_raises demoSchema 2 3 true (fun _ => lit "0") [] [] _
    (demo 1 fun i j => i != j) _ _ h
  have hs := synced_run _ _ _ _ _ _ _ _ _ _ h2
  have h3 : logRun demoSchema 2 3 true (fun _ => lit "0") (newLogger [] true, newLogger [] true)
      ([] ++ [.write (demo 0 fun i j => i == j)] ++ [.write (demo 1 fun i j => i != j)] ++ [.close]) =
      some ({ p2 with isOpen := false }, { c2 with isOpen := false }) := by
    rw [logRun, foldlM_snoc]
    rw [logRun] at h2
    rw [h2]
    have o1 := hs.open_p
    have o2 := hs.open_c
    simp only [Option.bind_some, logStep, closeLog]
    rw [if_pos (by rw [o1]; rfl), if_pos (by rw [o2]; rfl)]
  exact C34_writing_never_raises demoSchema 2 3 true (fun _ => lit "0") [] [] _ (demo 2 fun i j => i == j) _ _ h3

/-- `written` keeps the samples of the last opening only. -/
example : (written [.write (demo 0 fun _ _ => true), .close, .write (demo 1 fun _ _ => true),
    .write (demo 2 fun _ _ => true)]).1.length = 2 := rfl

/-! ## C35 Cluster encoding -/

/-- C35. Decoding an encoded cluster gives the cluster. -/
theorem C35_cluster_round_trip (c : List Bool) : decodeCluster (encodeCluster c) = c := decode_encode c

/-- C35. Parsing a formatted line gives the clusters. -/
theorem C35_line_round_trip (cs : List (List Bool)) (h : cs ≠ []) : parseClusters (formatClusters cs) = cs :=
  parse_format cs h

/-- C35. Reading a clusters file gives, cluster by cluster, the clusters of all samples: `r[i][t]` is cluster `i` of
sample `t`. -/
theorem C35_file_round_trip (K : ℕ) (hK : 0 < K) (N : ℕ) (hN : 0 < N) (xs : List (List (List Bool))) (hne : xs ≠ [])
    (hx : ∀ x ∈ xs, x.length = K) (hr : ∀ x ∈ xs, ∀ c ∈ x, c.length = N) :
    ∃ r, readClusters (fileText (xs.map formatClusters)) = some r ∧ r.length = K ∧
      ∀ i < K, ∃ ri, r[i]? = some ri ∧ ri.length = xs.length ∧
        ∀ (t : ℕ) (x : List (List Bool)), xs[t]? = some x → ri[t]? = x[i]? := by
  refine ⟨_, readClusters_written K hK N hN xs hne hx hr, by simp, fun i hi => ?_⟩
  refine ⟨xs.map (fun x => x.getD i []), by simp [hi], by simp, ?_⟩
  intro t x ht
  rw [List.getElem?_map, ht]
  have hl := hx x (List.mem_of_getElem? ht)
  rw [List.getElem?_eq_getElem (by omega)]
  simp only [Option.map_some, Option.some.injEq]
  rw [List.getD_eq_getElem _ _ (by omega)]

example : readClusters (fileText ([[[true, false, true], [false, true, false]],
    [[true, true, true], [false, false, false]]].map formatClusters)) =
    some [[[true, false, true], [true, true, true]], [[false, true, false], [false, false, false]]] := by decide

/-- C35, the case without clusters: a file of two samples with no clusters is read as one cluster with no samples. -/
theorem C35_no_clusters_false : readClusters (fileText ([[], []].map formatClusters)) = some [[]] := by decide

/-! ## C36 Matching clusters -/

/-- C36. `get_best_permutation` returns a permutation, and no permutation of the clusters agrees better with the given
sum of earlier clusters. -/
theorem C36_best_permutation (K N : ℕ) (areas : ℕ → ℕ → Bool) (prev : ℕ → ℕ → ℕ) :
    ∃ τ : Equiv.Perm (Fin K), (∀ i : Fin K, (bestPermutation K N areas prev).getD i 0 = τ i) ∧
      ∀ σ : Equiv.Perm (Fin K),
        ∑ i : Fin K, ∑ j : Fin N, prev i j * (if areas (σ i) j then 1 else 0) ≤
        ∑ i : Fin K, ∑ j : Fin N, prev i j * (if areas (τ i) j then 1 else 0) := by
  obtain ⟨τ, hτ⟩ := perm_of_list (bestPermutation_perm K N areas prev)
  refine ⟨τ, hτ, fun σ => ?_⟩
  have h := le_bestPermutation K N areas prev _ (list_of_perm σ)
  have conv : ∀ (p : List ℕ) (ρ : Equiv.Perm (Fin K)), (∀ i : Fin K, p.getD i 0 = ρ i) →
      agreement K N areas prev p = ∑ i : Fin K, ∑ j : Fin N, prev i j * (if areas (ρ i) j then 1 else 0) := by
    intro p ρ hp
    rw [agreement, Finset.sum_range]
    refine Finset.sum_congr rfl (fun i _ => ?_)
    rw [Finset.sum_range]
    refine Finset.sum_congr rfl (fun j _ => ?_)
    rw [hp i]
  rw [conv _ σ (fun i => getD_ofFn σ i), conv _ τ hτ] at h
  exact h

/-- C36. Over any history, one relabelling `σ t` per sample accounts for both files: row `t` of the statistics file
shows the quantities, and line `t` of the clusters file the clusters, of sample `t` relabelled by `σ t`. It is a
permutation, agrees with the clusters logged so far at least as well as any other permutation, and does not touch the
first sample. -/
theorem C36_same_best_relabelling_in_both_files (S : Schema) (hS : GoodNames S) (K N : ℕ) (contrib : Bool)
    (fmt : EReal → Str) (disk disk' : List Str) (es : List Event) (p c : LogState)
    (h : logRun S K N contrib fmt (newLogger disk true, newLogger disk' true) es = some (p, c))
    (hw : (written es).1 ≠ []) :
    ∃ σ : ℕ → ℕ → ℕ,
      (∀ t x, (written es).1[t]? = some x →
        p.file[t + 1]? = some (tabJoin ((allColumns S K contrib).map (fun col => fmt (col.quantity N (σ t) x)))) ∧
        c.file[t]? = some (formatClusters ((List.range K).map (fun i =>
          (List.range N).map (fun j => x.clusters (σ t i) j)))) ∧
        Permutes K (σ t) ∧
        ∀ π, Permutes K π →
          agreementWith K N (((written es).1.take t).zipIdx.map (fun y => fun i j => y.1.clusters (σ y.2 i) j)) x.clusters π ≤
          agreementWith K N (((written es).1.take t).zipIdx.map (fun y => fun i j => y.1.clusters (σ y.2 i) j)) x.clusters (σ t)) ∧
      c.file.length = (written es).1.length ∧ p.file.length = (written es).1.length + 1 ∧
      ∀ i < K, σ 0 i = i := by
  have hs := synced_run S K N contrib fmt disk disk' es p c h
  refine ⟨sigma K N (written es).1, ?_, ?_, ?_, fun i hi => sigma_zero K N _ i hi⟩
  · intro t x hx
    refine ⟨?_, ?_, sigma_permutes K N _ t, fun π hπ => sigma_optimal K N _ t x hx π hπ⟩
    · rw [hs.file_p hw, List.getElem?_cons_succ, List.getElem?_map, List.getElem?_zipIdx, hx]
      simp only [Option.map_some, Nat.zero_add, rowVals_good hS, List.map_map]
      rfl
    · rw [hs.file_c hw, List.getElem?_map, List.getElem?_zipIdx, hx]
      simp only [Option.map_some, Nat.zero_add]
      rfl
  · rw [hs.file_c hw]; simp
  · rw [hs.file_p hw]; simp

/-- Two samples whose clusters are swapped: the second is relabelled. -/
example : bestPermutation 2 2 (fun i j => i != j) (fun i j => if i = j then 1 else 0) = [1, 0] := by decide

/-! ## C37 Burn-in -/

/-- C37. The clusters of `n` samples `xs` and the rows of the same samples, possibly followed by rows of further samples
(a run interrupted between the two writes leaves one), keep the same samples: `⌊burn-in · n⌋` samples are dropped
from both. -/
theorem C37_burn_in {α β : Type*} (K : ℕ) (hK : 0 < K) (columns : List Str) (xs extra : List α)
    (cluster : ℕ → α → β) (row : α → List EReal) (burnIn : ℝ) (_h0 : 0 ≤ burnIn) (h1 : burnIn ≤ 1) :
    dropBurnin ((List.range K).map (fun i => xs.map (cluster i))) { columns := columns, rows := (xs ++ extra).map row } burnIn =
      ((List.range K).map (fun i => (xs.drop ⌊burnIn * xs.length⌋₊).map (cluster i)),
        { columns := columns, rows := (xs.drop ⌊burnIn * xs.length⌋₊ ++ extra).map row }) := by
  have hn : (((List.range K).map (fun i => xs.map (cluster i))).headD []).length = xs.length := by
    cases K with
    | zero => omega
    | succ k => rw [List.range_succ_eq_map]; simp
  have hb : ⌊burnIn * (xs.length : ℝ)⌋₊ ≤ xs.length := by
    refine Nat.floor_le_of_le ?_
    have : (0 : ℝ) ≤ xs.length := Nat.cast_nonneg _
    nlinarith
  simp only [dropBurnin, hn, List.map_map, Prod.mk.injEq, Frame.mk.injEq, true_and]
  constructor
  · refine List.map_congr_left (fun i _ => ?_)
    simp only [Function.comp, List.map_drop]
  · rw [← List.map_drop, List.drop_append_of_le_length hb]

example : (dropBurnin ((List.range 1).map (fun _ => [1, 2, 3, 4].map (fun n : ℕ => n)))
    { columns := [], rows := ([1, 2, 3, 4] ++ [5]).map (fun n : ℕ => [(((n : ℝ)) : EReal)]) } (1 / 2)).1 = [[3, 4]] := by
  have h := C37_burn_in 1 (by norm_num) [] [1, 2, 3, 4] [5] (fun _ n => n) (fun n : ℕ => [(((n : ℝ)) : EReal)]) (1 / 2)
    (by norm_num) (by norm_num)
  rw [h]
  have : ⌊(1 / 2 : ℝ) * (([1, 2, 3, 4] : List ℕ).length : ℝ)⌋₊ = 2 := by
    rw [Nat.floor_eq_iff (by norm_num)]
    norm_num
  rw [this]
  decide

/-! ## C38 Names -/

/-- C38 (partial: the names must be good). The confounders with their groups, the cluster names, the features and the
states recovered from the header are those that were written. -/
theorem C38_names_recovered_partial (S : Schema) (hS : GoodNames S) (K : ℕ) (hK : 0 < K) (contrib : Bool) :
    groupsByConfounder ((allColumns S K contrib).map (Column.name S)) = some S.confs ∧
    clusterNames ((allColumns S K contrib).map (Column.name S)) =
      some ((List.range K).map (fun i => 'a' :: Nat.toDigits 10 (i + 1))) ∧
    extractFeatures ((allColumns S K contrib).map (Column.name S)) "areal_a1".toList =
      (S.features.map Prod.fst, S.features.map Prod.snd) := by
  rw [← header_eq]
  refine ⟨groups_header hS K contrib, clusterNames_header hS K contrib, ?_⟩
  have h := extract_header hS K contrib 0 hK
  rw [show lit "areal_" ++ aName 0 = "areal_a1".toList by decide] at h
  exact h

/-- C38 is false without the condition on names: with a feature called `a_b` the reader finds a feature `a` with state
`b_s`. -/
theorem C38_underscore_in_feature_false :
    extractFeatures (header ⟨[(lit "a_b", [lit "s"])], []⟩ 1 true) (lit "areal_a1") = ([lit "a"], [[lit "b_s"]]) := by
  decide

/-- C38: with a group called `g_h` the reader finds a group `g`. -/
theorem C38_underscore_in_group_false :
    groupsByConfounder (header ⟨[(lit "f", [lit "s"])], [(lit "c", [lit "g_h"])]⟩ 1 true) =
      some [(lit "c", [lit "g"])] := by
  decide

/-- C38: with a confounder called `prior` reading the file raises. -/
theorem C38_reserved_confounder_false :
    groupsByConfounder (header ⟨[(lit "f", [lit "s"])], [(lit "prior", [lit "g"])]⟩ 1 true) = none := by
  decide

/-- C38: a confounder called `areal` is forgotten. -/
theorem C38_confounder_areal_false :
    groupsByConfounder (header ⟨[(lit "f", [lit "s"])], [(lit "areal", [lit "g"])]⟩ 1 true) = some [] := by
  decide

/-- Without clusters there is no areal column to take features from: `cluster_names[0]` raises. -/
theorem C38_no_clusters (S : Schema) (hS : GoodNames S) (contrib : Bool) (burnIn : ℝ) (rows : List (List EReal))
    (cl : List (List (List Bool))) : loadResults cl { columns := header S 0 contrib, rows := rows } burnIn = none := by
  rw [loadResults]
  simp only [dropBurnin, groups_header hS, clusterNames_header hS]
  rfl

example : groupsByConfounder (header demoSchema 3 true) = some demoSchema.confs := by decide

/-! ## C55 End to end -/

theorem column_plain (S : Schema) (hP : PlainText S) (K : ℕ) (contrib : Bool) :
    ∀ c ∈ allColumns S K contrib, '\t' ∉ Column.name S c ∧ '\n' ∉ Column.name S c := by
  have hnum : ∀ n : ℕ, '\t' ∉ Nat.toDigits 10 n ∧ '\n' ∉ Nat.toDigits 10 n := by
    intro n
    constructor <;> intro h <;> have := Nat.isDigit_of_mem_toDigits (by norm_num) (by norm_num) h <;>
      revert this <;> decide
  have hf : ∀ f, '\t' ∉ S.feature f ∧ '\n' ∉ S.feature f := by
    intro f
    rw [Schema.feature]
    by_cases h : f < S.features.length
    · rw [List.getD_eq_getElem _ _ h]
      exact hP.feature _ (List.getElem_mem _)
    · rw [List.getD_eq_default _ _ (by omega)]; simp
  have hs : ∀ f s, '\t' ∉ S.state f s ∧ '\n' ∉ S.state f s := by
    intro f s
    rw [Schema.state]
    by_cases h : f < S.features.length
    · rw [List.getD_eq_getElem _ _ h]
      by_cases h' : s < (S.features[f]).2.length
      · rw [List.getD_eq_getElem _ _ h']
        exact hP.state _ (List.getElem_mem h) _ (List.getElem_mem h')
      · rw [List.getD_eq_default _ _ (by omega)]; simp
    · rw [List.getD_eq_default S.features _ (by omega)]; simp
  have hc : ∀ f, '\t' ∉ S.confounder f ∧ '\n' ∉ S.confounder f := by
    intro f
    rw [Schema.confounder]
    by_cases h : f < S.confs.length
    · rw [List.getD_eq_getElem _ _ h]
      exact hP.conf _ (List.getElem_mem _)
    · rw [List.getD_eq_default _ _ (by omega)]; simp
  have hg : ∀ f s, '\t' ∉ S.group f s ∧ '\n' ∉ S.group f s := by
    intro f s
    rw [Schema.group]
    by_cases h : f < S.confs.length
    · rw [List.getD_eq_getElem _ _ h]
      by_cases h' : s < (S.confs[f]).2.length
      · rw [List.getD_eq_getElem _ _ h']
        exact hP.group _ (List.getElem_mem h) _ (List.getElem_mem h')
      · rw [List.getD_eq_default _ _ (by omega)]; simp
    · rw [List.getD_eq_default S.confs _ (by omega)]; simp
  have app : ∀ {a b : Str}, ('\t' ∉ a ∧ '\n' ∉ a) → ('\t' ∉ b ∧ '\n' ∉ b) → ('\t' ∉ a ++ b ∧ '\n' ∉ a ++ b) := by
    intro a b ha hb
    simp only [List.mem_append, not_or]
    exact ⟨⟨ha.1, hb.1⟩, ⟨ha.2, hb.2⟩⟩
  have us : '\t' ∉ "_".toList ∧ '\n' ∉ "_".toList := by decide
  intro c _
  cases c with
  | step => exact (by decide : '\t' ∉ "Sample".toList ∧ '\n' ∉ "Sample".toList)
  | posterior => exact (by decide : '\t' ∉ "posterior".toList ∧ '\n' ∉ "posterior".toList)
  | likelihood => exact (by decide : '\t' ∉ "likelihood".toList ∧ '\n' ∉ "likelihood".toList)
  | prior => exact (by decide : '\t' ∉ "prior".toList ∧ '\n' ∉ "prior".toList)
  | size i => exact app (by decide : '\t' ∉ "size_a".toList ∧ '\n' ∉ "size_a".toList) (hnum i)
  | weight f c =>
    cases c with
    | zero => exact app (by decide : '\t' ∉ "w_areal_".toList ∧ '\n' ∉ "w_areal_".toList) (hf f)
    | succ c => exact app (app (app (by decide : '\t' ∉ "w_".toList ∧ '\n' ∉ "w_".toList) (hc c)) us) (hf f)
  | areal i f s =>
    exact app (app (app (app (app (by decide : '\t' ∉ "areal_a".toList ∧ '\n' ∉ "areal_a".toList) (hnum (i + 1))) us) (hf f))
      us) (hs f s)
  | conf c g f s => exact app (app (app (app (app (app (hc c) us) (hg c g)) us) (hf f)) us) (hs f s)
  | post1 i => exact app (by decide : '\t' ∉ "post_a".toList ∧ '\n' ∉ "post_a".toList) (hnum i)
  | lh1 i => exact app (by decide : '\t' ∉ "lh_a".toList ∧ '\n' ∉ "lh_a".toList) (hnum i)
  | prior1 i => exact app (by decide : '\t' ∉ "prior_a".toList ∧ '\n' ∉ "prior_a".toList) (hnum i)

/-- C55. Loading the two text files of a run gives the logged samples after the burn-in: clusters, weights, areal and
confounding effects, likelihood, prior and posterior of every kept sample, and the contributions of each cluster,
under the right names and positions, each
value as it survives formatting and parsing. `σ t` is the relabelling of C36. -/
theorem C55_results_are_the_logged_samples (S : Schema) (hS : GoodNames S) (hP : PlainText S) (K N : ℕ) (hK : 0 < K)
    (hN : 0 < N) (contrib : Bool) (fmt : EReal → Str) (parse : Str → EReal)
    (hfmt : ∀ v, '\t' ∉ fmt v ∧ '\n' ∉ fmt v) (disk disk' : List Str) (es : List Event) (p c : LogState)
    (h : logRun S K N contrib fmt (newLogger disk true, newLogger disk' true) es = some (p, c))
    (hw : (written es).1 ≠ []) (burnIn : ℝ) (hb0 : 0 ≤ burnIn) (hb1 : burnIn ≤ 1) :
    ∃ σ : ℕ → ℕ → ℕ, (∀ t, Permutes K (σ t)) ∧
      ∃ cl, readClusters (fileText c.file) = some cl ∧
        loadResults cl (readStats parse (fileText p.file)) burnIn =
          some (expectedResults S K N contrib (fun v => parse (fmt v))
            (((written es).1.zipIdx.map (fun x => (x.1, σ x.2))).drop ⌊burnIn * (written es).1.length⌋₊)) := by
  have hs := synced_run S K N contrib fmt disk disk' es p c h
  set seg := (written es).1 with hseg
  refine ⟨sigma K N seg, fun t => sigma_permutes K N seg t, ?_⟩
  let ys : List (Snapshot × (ℕ → ℕ)) := seg.zipIdx.map (fun x => (x.1, sigma K N seg x.2))
  have hlen : ys.length = seg.length := by simp [ys]
  have hcf : c.file = (ys.map (fun y => clusterRows K N y.2 y.1)).map formatClusters := by
    rw [hs.file_c hw, List.map_map, List.map_map]
    rfl
  have hpf : p.file = tabJoin ((allColumns S K contrib).map (Column.name S)) ::
      ys.map (fun y => tabJoin ((allColumns S K contrib).map (fun col => fmt (Column.quantity N y.2 y.1 col)))) := by
    rw [hs.file_p hw, header_eq, List.map_map]
    congr 1
    refine List.map_congr_left (fun x _ => ?_)
    rw [rowVals_good hS, List.map_map]
    rfl
  have hcl := readClusters_written K hK N hN (ys.map (fun y => clusterRows K N y.2 y.1))
    (by rw [ne_eq, List.map_eq_nil_iff]; intro h0; rw [h0] at hlen; exact hw (List.length_eq_zero_iff.1 hlen.symm))
    (by
      intro x hx
      obtain ⟨y, _, rfl⟩ := List.mem_map.1 hx
      simp [clusterRows])
    (by
      intro x hx r hr
      obtain ⟨y, _, rfl⟩ := List.mem_map.1 hx
      simp only [clusterRows, List.mem_map] at hr
      obtain ⟨i, _, rfl⟩ := hr
      simp)
  refine ⟨_, by rw [hcf]; exact hcl, ?_⟩
  have hst := readStats_written parse fmt (allColumns S K contrib) (Column.name S)
    (fun (y : Snapshot × (ℕ → ℕ)) col => Column.quantity N y.2 y.1 col) ys (by simp [allColumns])
    (column_plain S hP K contrib) hfmt
  rw [hpf, hst]
  have hdrop := C37_burn_in K hK ((allColumns S K contrib).map (Column.name S)) ys []
    (fun i y => (clusterRows K N y.2 y.1).getD i [])
    (fun y => (allColumns S K contrib).map (fun col => parse (fmt (Column.quantity N y.2 y.1 col)))) burnIn hb0 hb1
  rw [List.append_nil, List.append_nil] at hdrop
  rw [show (List.range K).map (fun i => (ys.map (fun y => clusterRows K N y.2 y.1)).map (fun x => x.getD i [])) =
    (List.range K).map (fun i => ys.map (fun y => (clusterRows K N y.2 y.1).getD i [])) by
      refine List.map_congr_left (fun i _ => ?_)
      rw [List.map_map]; rfl]
  rw [load_eq hS N (fun v => parse (fmt v)) _ hK _ burnIn _ _ hdrop, hlen]
  have hfin : (List.range K).map (fun i => (ys.drop ⌊burnIn * (seg.length : ℝ)⌋₊).map
      (fun y => (clusterRows K N y.2 y.1).getD i [])) =
      (expectedResults S K N contrib (fun v => parse (fmt v)) (ys.drop ⌊burnIn * (seg.length : ℝ)⌋₊)).clusters := by
    refine List.map_congr_left (fun i hi => ?_)
    refine List.map_congr_left (fun y _ => ?_)
    have hi : i < K := by simpa using hi
    rw [clusterRows, List.getD_eq_getElem _ _ (by simpa using hi)]
    simp
  rw [hfin]

/-- The hypotheses of C55 are met by the example names and a two-sample run. -/
example : ∃ p c, logRun demoSchema 2 3 true (fun _ => lit "1.5") (newLogger [] true, newLogger [] true)
    [.write (demo 0 fun i j => i == j), .write (demo 1 fun i j => i != j)] = some (p, c) ∧
    ∃ cl, readClusters (fileText c.file) = some cl ∧
      (loadResults cl (readStats (fun _ => ((3 / 2 : ℝ) : EReal)) (fileText p.file)) 0).isSome := by
  obtain ⟨p, c, h⟩ := C34_writing_never_raises demoSchema 2 3 true (fun _ => lit "1.5") [] [] []
    (demo 0 fun i j => i == j) _ _ rfl
  obtain ⟨p2, c2, h2⟩ := C34_writing_never_raises demoSchema 2 3 true (fun _ => lit "1.5") [] [] _
    (demo 1 fun i j => i != j) _ _ h
  refine ⟨p2, c2, h2, ?_⟩
  obtain ⟨_, _, cl, hcl, hl⟩ := C55_results_are_the_logged_samples demoSchema demoSchema_good demoSchema_plain 2 3
    (by norm_num) (by norm_num) true _ (fun _ => ((3 / 2 : ℝ) : EReal)) (fun _ => by decide) [] [] _ p2 c2 h2
    (by simp [written]) 0 le_rfl (by norm_num)
  exact ⟨cl, hcl, by rw [hl]; rfl⟩

end SBayes.Log
