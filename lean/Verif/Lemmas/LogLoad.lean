import Verif.Lemmas.LogRun
import Verif.Spec.Results
import Mathlib.Algebra.Order.Archimedean.Real.Basic
/-
`Results.__init__` on the tables written by the loggers.
-/
namespace SBayes.Log

variable {S : Schema} (hS : GoodNames S) {K : ℕ} {contrib : Bool}

theorem columnStack_eq {α β : Type*} (ys : List α) (l : List β) (v : α → β → EReal) (n : ℕ) (hn : n = ys.length) :
    columnStack n (l.map (fun b => ys.map (fun y => v y b))) = ys.map (fun y => l.map (v y)) := by
  subst hn
  refine List.ext_getElem (by simp [columnStack]) (fun t h1 h2 => ?_)
  simp only [columnStack, List.getElem_map, List.getElem_range, List.map_map]
  refine List.map_congr_left (fun b _ => ?_)
  have ht : t < ys.length := by simpa using h2
  simp only [Function.comp]
  rw [List.getD_eq_getElem _ _ (by simpa using ht)]
  simp

theorem mapM_pos {α β : Type*} (l : List α) (d : α) (g : α → Option β) (r : ℕ → β)
    (h : ∀ i < l.length, g (l.getD i d) = some (r i)) : l.mapM g = some ((List.range l.length).map r) := by
  have e : l = (List.range l.length).map (fun i => l.getD i d) := by
    have := map_getD l d id
    simpa using this
  conv_lhs => rw [e]
  rw [List.mapM_map]
  refine mapM_eq _ _ _ (fun i hi => ?_)
  exact h i (by simpa using hi)

/-- The data frame with one row per kept sample. -/
noncomputable def frameOf (S : Schema) (K N : ℕ) (contrib : Bool) (rd : EReal → EReal)
    (ys : List (Snapshot × (ℕ → ℕ))) : Frame :=
  { columns := (allColumns S K contrib).map (Column.name S),
    rows := ys.map (fun y => (allColumns S K contrib).map (fun c => rd (Column.quantity N y.2 y.1 c))) }

section
variable (N : ℕ) (rd : EReal → EReal) (ys : List (Snapshot × (ℕ → ℕ)))
include hS

theorem col_eq (c : Column) (hc : c ∈ allColumns S K contrib) :
    (frameOf S K N contrib rd ys).col (Column.name S c) = some (ys.map (fun y => rd (Column.quantity N y.2 y.1 c))) := by
  have hn := header_nodup hS K contrib
  rw [header_eq] at hn
  exact frame_col (allColumns S K contrib) (Column.name S) (fun y c => rd (Column.quantity N y.2 y.1 c)) ys hn c hc

omit hS in
theorem mem_weight {f c : ℕ} (hf : f < S.features.length) (hc : c < S.confs.length + 1) :
    Column.weight f c ∈ allColumns S K contrib := by
  simp only [allColumns, List.mem_append, List.mem_flatMap, List.mem_map, List.mem_range]
  exact Or.inl (Or.inl (Or.inl (Or.inr ⟨f, hf, c, hc, rfl⟩)))

omit hS in
theorem mem_areal {i f s : ℕ} (hi : i < K) (hf : f < S.features.length) (hs : s < S.nStates f) :
    Column.areal i f s ∈ allColumns S K contrib := by
  simp only [allColumns, List.mem_append, List.mem_flatMap, List.mem_map, List.mem_range]
  exact Or.inl (Or.inl (Or.inr ⟨i, hi, f, hf, s, hs, rfl⟩))

omit hS in
theorem mem_conf {c g f s : ℕ} (hc : c < S.confs.length) (hg : g < S.nGroups c) (hf : f < S.features.length)
    (hs : s < S.nStates f) : Column.conf c g f s ∈ allColumns S K contrib := by
  simp only [allColumns, List.mem_append, List.mem_flatMap, List.mem_map, List.mem_range]
  exact Or.inl (Or.inr ⟨c, hc, g, hg, f, hf, s, hs, rfl⟩)

theorem parseWeights_eq : parseWeights (frameOf S K N contrib rd ys) (S.confs.map Prod.fst) (S.features.map Prod.fst) =
    some ((List.range S.features.length).map (fun f =>
      (S.feature f, ys.map (fun y => (List.range (S.confs.length + 1)).map
        (fun c => rd ((y.1.weights f c : ℝ) : EReal)))))) := by
  rw [parseWeights, List.mapM_map, mapM_pos S.features ([], []) _ (fun f =>
      (S.feature f, ys.map (fun y => (List.range (S.confs.length + 1)).map
        (fun c => rd ((y.1.weights f c : ℝ) : EReal)))))]
  intro f hf
  have hcols : (lit "areal" :: S.confs.map Prod.fst).mapM
      (fun c => (frameOf S K N contrib rd ys).col (lit "w_" ++ c ++ lit "_" ++ (S.features.getD f ([], [])).1)) =
      some ((List.range (S.confs.length + 1)).map (fun c => ys.map (fun y => rd ((y.1.weights f c : ℝ) : EReal)))) := by
    rw [mapM_pos _ [] _ (fun c => ys.map (fun y => rd ((y.1.weights f c : ℝ) : EReal)))]
    · simp
    · intro c hc
      have hc : c < S.confs.length + 1 := by simpa using hc
      have h := col_eq hS N rd ys (Column.weight f c) (mem_weight (K := K) (contrib := contrib) hf hc)
      have hname : Column.name S (Column.weight f c) =
          lit "w_" ++ (lit "areal" :: S.confs.map Prod.fst).getD c [] ++ lit "_" ++ (S.features.getD f ([], [])).1 := by
        cases c with
        | zero =>
          have : lit "w_areal_" = lit "w_" ++ lit "areal" ++ lit "_" := by decide
          simp only [List.getD_cons_zero]
          rw [← this]
          rfl
        | succ c =>
          have hc' : c < S.confs.length := by omega
          have : (S.confs.map Prod.fst).getD c [] = S.confounder c := by
            rw [Schema.confounder, List.getD_eq_getElem _ _ (by simpa using hc'), List.getD_eq_getElem _ _ hc']
            simp
          simp only [List.getD_cons_succ]
          rw [this]
          rfl
      rw [hname] at h
      exact h
  simp only [Function.comp]
  rw [hcols]
  simp only [Option.map_some, Option.some.injEq, Prod.mk.injEq]
  exact ⟨rfl, columnStack_eq ys (List.range (S.confs.length + 1)) (fun y c => rd ((y.1.weights f c : ℝ) : EReal)) _
    (by simp [frameOf])⟩

theorem parseProbs_eq (pre : Str) (col : ℕ → ℕ → Column) (v : Snapshot × (ℕ → ℕ) → ℕ → ℕ → EReal)
    (hm : ∀ f < S.features.length, ∀ s < S.nStates f, col f s ∈ allColumns S K contrib)
    (hname : ∀ f s, Column.name S (col f s) = pre ++ lit "_" ++ S.feature f ++ lit "_" ++ S.state f s)
    (hv : ∀ y f s, rd (Column.quantity N y.2 y.1 (col f s)) = v y f s) :
    parseProbs (frameOf S K N contrib rd ys) (S.features.map Prod.fst) (S.features.map Prod.snd) pre =
      some ((List.range S.features.length).map (samplesByState S ys v)) := by
  have hzip : (S.features.map Prod.fst).zip (S.features.map Prod.snd) = S.features := by
    induction S.features with
    | nil => rfl
    | cons a l ih => simp [ih]
  rw [parseProbs, hzip, mapM_pos S.features ([], []) _ (samplesByState S ys v)]
  intro f hf
  have hcols : (S.features.getD f ([], [])).2.mapM
      (fun s => (frameOf S K N contrib rd ys).col (pre ++ lit "_" ++ (S.features.getD f ([], [])).1 ++ lit "_" ++ s)) =
      some ((List.range (S.nStates f)).map (fun s => ys.map (fun y => v y f s))) := by
    rw [mapM_pos _ [] _ (fun s => ys.map (fun y => v y f s))]
    · rfl
    · intro s hs
      have h := col_eq hS N rd ys (col f s) (hm f hf s hs)
      rw [hname] at h
      simp only [hv] at h
      exact h
  rw [hcols]
  simp only [Option.map_some, Option.some.injEq]
  rw [columnStack_eq ys (List.range (S.nStates f)) (fun y s => v y f s) _ (by simp [frameOf])]
  rfl

end

theorem filter_contrib (hS : GoodNames S) (d : Str) (hd : d ∈ [lit "post", lit "lh", lit "prior"]) (hp : '_' ∉ d) :
    (header S K contrib).filter (startsWith (d ++ ['_'])) =
      if contrib then (List.range K).map (fun i => d ++ '_' :: ('a' :: num i)) else [] := by
  have hne : d ≠ lit "size" ∧ d ≠ lit "w" ∧ d ≠ lit "areal" := by
    simp only [List.mem_cons, List.not_mem_nil, or_false] at hd
    rcases hd with rfl | rfl | rfl <;> decide
  rw [header_blocks]
  simp only [List.filter_append]
  rw [filter_false (l := fixedBlock) (fun s hs => startsWith_plain (fixed_plain s hs)),
    filter_false (l := sizeBlock K), filter_false (l := weightBlock S), filter_false (l := arealBlock S K),
    filter_false (l := confBlock S)]
  · simp only [List.nil_append]
    cases contrib with
    | false => rfl
    | true =>
      simp only [contribBlock, if_true, List.filter_flatMap, postName_eq, lhName_eq, priorName_eq, List.filter_cons,
        startsWith_tok hp plain_post, startsWith_tok hp plain_lh, startsWith_tok hp plain_prior, List.filter_nil]
      simp only [List.mem_cons, List.not_mem_nil, or_false] at hd
      rw [List.map_eq_flatMap]
      refine List.flatMap_congr (fun i _ => ?_)
      rcases hd with rfl | rfl | rfl
      · rw [if_pos (by decide), if_neg (by decide), if_neg (by decide)]
      · rw [if_neg (by decide), if_pos (by decide), if_neg (by decide)]
      · rw [if_neg (by decide), if_neg (by decide), if_pos (by decide)]
  · intro s hs
    obtain ⟨c, hc, r, rfl⟩ := conf_form hs
    obtain ⟨n1, n2, n3, n4, n5, n6⟩ := conf_ne hS hc
    rw [startsWith_tok hp (hS.conf_plain c hc), decide_eq_false_iff_not]
    simp only [List.mem_cons, List.not_mem_nil, or_false] at hd
    rcases hd with rfl | rfl | rfl
    exacts [fun h => n4 h.symm, fun h => n5 h.symm, fun h => n6 h.symm]
  · intro s hs
    obtain ⟨r, rfl⟩ := areal_form hs
    rw [startsWith_tok hp plain_areal]; simpa using hne.2.2
  · intro s hs
    obtain ⟨r, rfl⟩ := weight_form hs
    rw [startsWith_tok hp plain_w]; simpa using hne.2.1
  · intro s hs
    obtain ⟨r, rfl⟩ := size_form hs
    rw [startsWith_tok hp plain_size]; simpa using hne.1

theorem readDictionary_eq (hS : GoodNames S) (N : ℕ) (rd : EReal → EReal) (ys : List (Snapshot × (ℕ → ℕ))) (d : Str)
    (hd : d ∈ [lit "post", lit "lh", lit "prior"]) (hp : '_' ∉ d) (col : ℕ → Column)
    (hname : ∀ i, Column.name S (col i) = d ++ '_' :: ('a' :: num i))
    (hm : contrib = true → ∀ i < K, col i ∈ allColumns S K contrib) :
    readDictionary (frameOf S K N contrib rd ys) (d ++ ['_']) = if contrib then (List.range K).map (fun i =>
      (Column.name S (col i), ys.map (fun y => rd (Column.quantity N y.2 y.1 (col i))))) else [] := by
  have hcols : (frameOf S K N contrib rd ys).columns = header S K contrib := (header_eq S K contrib).symm
  rw [readDictionary, hcols, filter_contrib hS d hd hp]
  cases hc : contrib with
  | false => rfl
  | true =>
    subst hc
    simp only [if_true]
    rw [List.filterMap_map, List.filterMap_eq_flatMap_toList, List.map_eq_flatMap]
    refine List.flatMap_congr (fun i hi => ?_)
    simp only [Function.comp]
    rw [← hname i, col_eq hS N rd ys (col i) (hm rfl i (by simpa using hi))]
    rfl

/-- Loading the tables of a run gives what was logged. -/
theorem load_eq (hS : GoodNames S) (N : ℕ) (rd : EReal → EReal) (ys : List (Snapshot × (ℕ → ℕ))) (hK : 0 < K)
    (cl : List (List (List Bool))) (burnIn : ℝ) (d : Frame) (cl' : List (List (List Bool)))
    (hd : dropBurnin cl d burnIn = (cl', frameOf S K N contrib rd ys)) :
    loadResults cl d burnIn = some { expectedResults S K N contrib rd ys with clusters := cl' } := by
  have hcols : (frameOf S K N contrib rd ys).columns = header S K contrib := (header_eq S K contrib).symm
  have hfix : ∀ c ∈ [Column.step, .posterior, .likelihood, .prior], c ∈ allColumns S K contrib := by
    intro c hc
    simp only [allColumns, List.mem_append]
    exact Or.inl (Or.inl (Or.inl (Or.inl (Or.inl hc))))
  have c1 := col_eq (K := K) (contrib := contrib) hS N rd ys .step (hfix _ (by simp))
  have c2 := col_eq (K := K) (contrib := contrib) hS N rd ys .posterior (hfix _ (by simp))
  have c3 := col_eq (K := K) (contrib := contrib) hS N rd ys .likelihood (hfix _ (by simp))
  have c4 := col_eq (K := K) (contrib := contrib) hS N rd ys .prior (hfix _ (by simp))
  have hhead : ((List.range K).map aName).head? = some (aName 0) := by
    cases K with
    | zero => omega
    | succ k => rw [List.range_succ_eq_map]; rfl
  have hareal : ((List.range K).map aName).mapM (fun a =>
      (parseProbs (frameOf S K N contrib rd ys) (S.features.map Prod.fst) (S.features.map Prod.snd)
        (lit "areal_" ++ a)).map (fun v => (a, v))) = some (expectedResults S K N contrib rd ys).areal := by
    rw [List.mapM_map]
    refine mapM_eq _ _ _ (fun i hi => ?_)
    have hi : i < K := by simpa using hi
    simp only [Function.comp]
    rw [parseProbs_eq hS N rd ys (lit "areal_" ++ aName i) (Column.areal i)
      (fun y f s => rd ((y.1.clusterEffect (y.2 i) f s : ℝ) : EReal)) (fun f hf s hs => mem_areal hi hf hs)
      (fun f s => ?_) (fun y f s => rfl)]
    · rfl
    · change arealName i (S.feature f) (S.state f s) = _
      rw [arealName, aName]
      have : lit "areal_a" = lit "areal_" ++ ['a'] := by decide
      rw [this]
      simp
  have hconf : S.confs.mapM (fun cg =>
      (cg.2.mapM (fun g => (parseProbs (frameOf S K N contrib rd ys) (S.features.map Prod.fst)
        (S.features.map Prod.snd) (cg.1 ++ lit "_" ++ g)).map (fun v => (g, v)))).map (fun v => (cg.1, v))) =
      some (expectedResults S K N contrib rd ys).confounding := by
    refine mapM_pos _ ([], []) _ _ (fun c hc => ?_)
    rw [mapM_pos _ [] _ (fun g => (S.group c g, (List.range S.features.length).map
      (samplesByState S ys (fun y f s => rd ((y.1.confEffect c g f s : ℝ) : EReal)))))]
    · rfl
    · intro g hg
      rw [parseProbs_eq hS N rd ys _ (Column.conf c g)
        (fun y f s => rd ((y.1.confEffect c g f s : ℝ) : EReal)) (fun f hf s hs => mem_conf hc hg hf hs)
        (fun f s => ?_) (fun y f s => rfl)]
      · rfl
      · rfl
  have hmem : ∀ i < K, contrib = true → ∀ c ∈ [Column.post1 i, Column.lh1 i, Column.prior1 i],
      c ∈ allColumns S K contrib := by
    intro i hi hc c hm
    subst hc
    simp only [allColumns, List.mem_append, if_true, List.mem_flatMap, List.mem_range]
    exact Or.inr ⟨i, hi, hm⟩
  have d1 := readDictionary_eq (K := K) (contrib := contrib) hS N rd ys (lit "post") (by simp) plain_post Column.post1
    (fun i => postName_eq i) (fun hc i hi => hmem i hi hc _ (by simp))
  have d2 := readDictionary_eq (K := K) (contrib := contrib) hS N rd ys (lit "lh") (by simp) plain_lh Column.lh1
    (fun i => lhName_eq i) (fun hc i hi => hmem i hi hc _ (by simp))
  have d3 := readDictionary_eq (K := K) (contrib := contrib) hS N rd ys (lit "prior") (by simp) plain_prior Column.prior1
    (fun i => priorName_eq i) (fun hc i hi => hmem i hi hc _ (by simp))
  rw [show lit "post" ++ ['_'] = lit "post_" by decide] at d1
  rw [show lit "lh" ++ ['_'] = lit "lh_" by decide] at d2
  rw [show lit "prior" ++ ['_'] = lit "prior_" by decide] at d3
  rw [loadResults]
  simp only [hd, hcols, groups_header hS, clusterNames_header hS, Option.bind_eq_bind, Option.bind_some, hhead,
    extract_header hS K contrib 0 hK]
  rw [show lit "Sample" = Column.name S .step from rfl, c1]
  simp only [Option.bind_some]
  rw [parseWeights_eq hS N rd ys]
  simp only [Option.bind_some]
  rw [hareal]
  simp only [Option.bind_some]
  rw [hconf]
  simp only [Option.bind_some]
  rw [show lit "posterior" = Column.name S .posterior from rfl, c2]
  simp only [Option.bind_some]
  rw [show lit "likelihood" = Column.name S .likelihood from rfl, c3]
  simp only [Option.bind_some]
  rw [show lit "prior" = Column.name S .prior from rfl, c4]
  simp only [Option.bind_some]
  rw [d1, d2, d3]
  rfl

end SBayes.Log
