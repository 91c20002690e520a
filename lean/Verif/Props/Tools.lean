import Verif.Lemmas.Tools
import Verif.Props.Data
/- C58, C59: the tools that prepare state files and empirical priors. -/
namespace SBayes.Data

/-! ## C58: extracted state files -/

/-- The state file extracted from data files fits every one of them: encoding the features of any of the input files
with it succeeds; the states of a feature are exactly the values that occur in some file, each once, in increasing order
and without gaps. Missing for the full property: values that consist of white space only, or are a marker for "missing"
with white space around it (hypothesis `hclean`, see the next theorem). -/
theorem C58_extracted_states_fit_partial (ws : Char → Bool) (isNA : Str → Bool) (files : List CsvFile) (T : CsvFile)
    (hnd : ∀ g ∈ files, g.header.Nodup) (hNA : isNA [] = true)
    (hclean : ∀ g ∈ files, ∀ i j, isNA (g.cell i j) = false → isNA (strip ws (g.cell i j)) = false)
    (h : extractFeatureStates ws isNA files = some T) :
    (∀ g ∈ files, ∃ e, encodeStates (readDataCsv ws isNA g) (readDataCsv ws isNA T) = some e ∧
      ∀ f < T.header.length, ∃ names, e.stateNames[f]? = some names ∧ names.Pairwise (· < ·)) ∧
    (∀ f name, T.header[f]? = some name → NoGaps (readDataCsv ws isNA T) f ∧
      ∀ v, Lists (readDataCsv ws isNA T) f v ↔
        ∃ g ∈ files, ∃ i < g.nRows, entryOf (readDataCsv ws isNA g) name i = some v) := by
  unfold extractFeatureStates at h
  cases files with
  | nil => simp at h
  | cons file rest =>
    cases hc : collectFeatureStates ws isNA file with
    | none => simp [hc] at h
    | some d =>
      cases hm : mergeFiles ws isNA d rest with
      | none => simp [hc, hm] at h
      | some d' =>
        simp only [hc, hm, Option.bind_eq_bind, Option.bind_some] at h
        have hI := mergeFiles_spec rest [file] d d' (fun g hg => hnd g (List.mem_cons_of_mem _ hg))
          (collect_spec (hnd file List.mem_cons_self) hc) hm
        rw [List.singleton_append] at hI
        -- all collected values are clean
        have hv : ∀ p ∈ d', ∀ v ∈ p.2, isNA v = false ∧ strip ws v = v := by
          intro p hp v hv
          obtain ⟨g, hg, i, hi, he⟩ := (hI.vals p hp v).mp hv
          unfold entryOf at he
          cases hcol : (readDataCsv ws isNA g).col p.1 with
          | none => simp [hcol] at he
          | some c =>
            rw [hcol, Option.bind_some] at he
            have hmem : (p.1, c) ∈ (readDataCsv ws isNA g).cols := by
              unfold Table.col at hcol
              obtain ⟨l1, l2, h1, h2⟩ := List.lookup_eq_some_iff.mp hcol
              rw [h1]; simp
            simp only [readDataCsv, List.mem_map] at hmem
            obtain ⟨q, _, hq⟩ := hmem
            simp only [Prod.mk.injEq] at hq
            rw [← hq.2] at he
            dsimp only at he
            split_ifs at he with hna
            simp only [Option.some.injEq] at he
            subst he
            exact ⟨hclean g hg i q.2 (by simpa using hna), strip_strip _ _⟩
        obtain ⟨hcols, hlen⟩ := statesFile_cols (ws := ws) h hNA hv
        have hhead : T.header = d'.map (fun p => p.1) := by
          rw [← read_cols_fst ws isNA T, hcols, List.map_map]; rfl
        have hlists : ∀ f p, d'[f]? = some p → ∀ v, Lists (readDataCsv ws isNA T) f v ↔ v ∈ p.2 := by
          intro f p hp v
          unfold Lists
          rw [hcols]
          constructor
          · rintro ⟨q, hq, s, _, hs⟩
            rw [List.getElem?_map, hp] at hq
            simp only [Option.map_some, Option.some.injEq] at hq
            subst hq
            exact List.mem_of_getElem? hs
          · intro hmem
            obtain ⟨s, hs⟩ := List.getElem?_of_mem hmem
            refine ⟨(p.1, fun i => p.2[i]?), by simp [hp], s, ?_, hs⟩
            exact lt_of_lt_of_le (List.getElem?_eq_some_iff.mp hs).1 (hlen p (List.mem_of_getElem? hp))
        constructor
        · intro g hg
          have hs := (C39_loading_succeeds_iff (readDataCsv ws isNA g) (readDataCsv ws isNA T)).mpr (by
            intro f q hq
            rw [hcols, List.getElem?_map] at hq
            cases hp : d'[f]? with
            | none => simp [hp] at hq
            | some p =>
              rw [hp, Option.map_some, Option.some.injEq] at hq
              subst hq
              have hpm := List.mem_of_getElem? hp
              obtain ⟨c, hcol⟩ := hI.cols p hpm g hg
              refine ⟨c, hcol, fun i hi v hv' => ?_⟩
              rw [hlists f p hp, hI.vals p hpm]
              exact ⟨g, hg, i, hi, by simp [entryOf, hcol, hv']⟩)
          obtain ⟨e, he⟩ := hs
          refine ⟨e, he, fun f hf => ?_⟩
          rw [hhead, List.length_map] at hf
          obtain ⟨_, h2, _⟩ := encodeLoop_some _ _ _ _ _ _ he
          refine ⟨d'[f].2, ?_, hI.sorted _ (List.getElem_mem hf)⟩
          rw [h2, hcols]
          simp only [List.nil_append, List.map_map, List.getElem?_map, List.getElem?_eq_getElem hf, Option.map_some,
            Function.comp_apply, Option.some.injEq]
          exact dropna_list _ _ (hlen _ (List.getElem_mem hf))
        · intro f name hname
          rw [hhead, List.getElem?_map] at hname
          cases hp : d'[f]? with
          | none => simp [hp] at hname
          | some p =>
            rw [hp, Option.map_some, Option.some.injEq] at hname
            subst hname
            constructor
            · intro q hq s s' h1 h2 h3
              rw [hcols, List.getElem?_map, hp, Option.map_some, Option.some.injEq] at hq
              subst hq
              simp only [isSome_getElem?] at h3 ⊢
              omega
            · intro v
              rw [hlists f p hp, hI.vals p (List.mem_of_getElem? hp)]

/-- A data file in which a cell contains only a blank. -/
def blankFile (b : Str) : CsvFile := ⟨1, metadata ++ [['F']], fun _ j => if j = 5 then b else ['1']⟩

/-- The state file extracted from a data file with a blank cell does not fit that data file. -/
theorem C58_extracted_states_fit_false :
    ∃ (ws : Char → Bool) (isNA : Str → Bool) (file T : CsvFile), file.header.Nodup ∧ isNA [] = true ∧
      extractFeatureStates ws isNA [file] = some T ∧
      encodeStates (readDataCsv ws isNA file) (readDataCsv ws isNA T) = none :=
  ⟨fun c => c == ' ', fun s => s == [], blankFile [' '], _, by decide, by decide, rfl, rfl⟩

/-- Non-vacuity: with a proper value the hypotheses hold. -/
example : (blankFile [' ', 'A']).header.Nodup ∧
    (∃ T, extractFeatureStates (fun c => c == ' ') (fun s => s == []) [blankFile [' ', 'A']] = some T ∧
      T.nRows = 1 ∧ T.header = [['F']] ∧ T.cell 0 0 = ['A']) ∧
    (∀ i j, (((blankFile [' ', 'A']).cell i j) == []) = false →
      (strip (fun c => c == ' ') ((blankFile [' ', 'A']).cell i j) == []) = false) := by
  refine ⟨by decide, ⟨_, rfl, by decide, by decide, by decide⟩, ?_⟩
  intro i j _
  by_cases hj : j = 5
  · simp only [blankFile, hj, if_pos]; decide
  · simp only [blankFile, if_neg hj]; decide

/-! ## C59: empirical priors -/

/-- A prior file written by the tools and read back as a prior on the confounding effect gives every state of every
feature the concentration `initial + c0 +` its (capped) number of occurrences among the members, in the right place;
`initial` is 1. Missing for the full property: the concentration should be `c0 +` the count (see the next theorem). -/
theorem C59_empirical_prior_partial (eps c0 initial : ℝ) (scaleTo : Option ℝ) (n nStates : ℕ) (e : Encoded)
    (member : ℕ → Bool) (names : List (Str × List Str)) (hf : (names.map (fun p => p.1)).Nodup)
    (hs : ∀ p ∈ names, p.2.Nodup) :
    ∃ conc, parseConcentration initial (priorDict eps c0 scaleTo n nStates e member names) names = some conc ∧
      ∀ f p, names[f]? = some p → ∃ row, conc[f]? = some row ∧ row.length = p.2.length ∧
        ∀ s < p.2.length, row[s]? = some (initial + (c0 +
          scaledCounts eps scaleTo nStates (fun t => (memberCounts n e member f t : ℝ)) s)) := by
  have hfst : (priorDict eps c0 scaleTo n nStates e member names).map (fun p => p.1) = names.map (fun p => p.1) := by
    unfold priorDict
    rw [List.map_map]
    apply List.ext_getElem?
    intro j
    simp only [List.getElem?_map, List.getElem?_zipIdx]
    cases names[j]? <;> rfl
  have hrow : ∀ f p, names[f]? = some p → p.2.mapM (fun s => do
      let df ← (priorDict eps c0 scaleTo n nStates e member names).lookup p.1
      let v ← df.lookup s
      some (initial + v)) = some ((List.range p.2.length).map (fun s => initial + (c0 +
          scaledCounts eps scaleTo nStates (fun t => (memberCounts n e member f t : ℝ)) s))) := by
    intro f p hp
    apply mapM_option_some
    intro k a hk
    have hmem : (p.1, p.2.zipIdx.foldl (fun d s => setItem d s.1
        (c0 + scaledCounts eps scaleTo nStates (fun t => (memberCounts n e member f t : ℝ)) s.2)) []) ∈
        priorDict eps c0 scaleTo n nStates e member names := by
      unfold priorDict
      refine List.mem_map.mpr ⟨(p, f), ?_, rfl⟩
      apply List.mem_of_getElem? (i := f)
      rw [List.getElem?_zipIdx, hp]; simp
    have hl := lookup_of_nodup (by rw [hfst]; exact hf) hmem
    dsimp only at hl
    rw [hl]
    simp only [Option.bind_eq_bind, Option.bind_some]
    rw [lookup_foldl_setItem (fun t => c0 + scaledCounts eps scaleTo nStates
      (fun t => (memberCounts n e member f t : ℝ)) t) p.2 (hs p (List.mem_of_getElem? hp)) 0 [] k a hk]
    simp
  refine ⟨(List.range names.length).map (fun f => (List.range ((names.getD f ([], [])).2.length)).map (fun s =>
    initial + (c0 + scaledCounts eps scaleTo nStates (fun t => (memberCounts n e member f t : ℝ)) s))), ?_, ?_⟩
  · unfold parseConcentration
    apply mapM_option_some
    intro f p hp
    rw [hrow f p hp]
    simp [List.getD, hp]
  · intro f p hp
    have hlt := (List.getElem?_eq_some_iff.mp hp).1
    refine ⟨(List.range p.2.length).map (fun s => initial + (c0 +
          scaledCounts eps scaleTo nStates (fun t => (memberCounts n e member f t : ℝ)) s)), ?_, by simp, ?_⟩
    · simp [List.getElem?_range hlt, List.getD, hp]
    · intro s hs
      simp [List.getElem?_range hs]

/-- The pseudo-count is added twice, by the tool and by the reader: with `c0 = 1` ("uniform") and no observations at all
the concentrations are 2, not 1; and the limit on the counts does not limit the total concentration. -/
theorem C59_empirical_prior_false :
    ¬ ∀ (eps c0 : ℝ) (n nStates : ℕ) (e : Encoded) (member : ℕ → Bool) (names : List (Str × List Str)),
      (names.map (fun p => p.1)).Nodup → (∀ p ∈ names, p.2.Nodup) →
      ∀ conc, parseConcentration 1 (priorDict eps c0 none n nStates e member names) names = some conc →
        ∀ f row, conc[f]? = some row → ∀ s c, row[s]? = some c → c = c0 + (memberCounts n e member f s : ℝ) := by
  intro hall
  let e : Encoded := ⟨fun _ _ _ => false, fun _ _ => true, [[['A'], ['B']]], 0⟩
  obtain ⟨conc, h1, h2⟩ := C59_empirical_prior_partial 1 1 1 none 0 2 e (fun _ => true) [(['F'], [['A'], ['B']])]
    (by simp) (by simp)
  obtain ⟨row, h3, _, h5⟩ := h2 0 _ rfl
  have h6 := h5 0 (by simp)
  have := hall 1 1 0 2 e (fun _ => true) _ (by simp) (by simp) conc h1 0 row h3 0 _ h6
  simp [scaledCounts, memberCounts] at this

/-- The counts in an extracted prior are the numbers of occurrences; with a limit, features with at most that many occurrences keep them,
the others are scaled proportionally to a total of exactly the limit. -/
theorem C59_limited_counts (eps : ℝ) (nStates : ℕ) (counts : ℕ → ℝ) (hpos : ∀ s < nStates, 0 ≤ counts s) :
    scaledCounts eps none nStates counts = counts ∧
    ∀ limit : ℝ, 0 < limit →
      (∑ s ∈ Finset.range nStates, counts s ≤ limit → ∀ s < nStates, scaledCounts eps (some limit) nStates counts s = counts s) ∧
      (limit < ∑ s ∈ Finset.range nStates, counts s →
        ∑ s ∈ Finset.range nStates, scaledCounts eps (some limit) nStates counts s = limit ∧
        ∃ r, 0 < r ∧ r < 1 ∧ ∀ s, scaledCounts eps (some limit) nStates counts s = r * counts s) := by
  refine ⟨rfl, fun limit hl => ?_⟩
  obtain ⟨h1, h2, _⟩ := C42_scale_counts eps limit nStates counts hl hpos
  exact ⟨h1, h2⟩

/-- The hypotheses are met: 30 and 10 occurrences, limit 10. -/
example : ∀ s < 2, (0 : ℝ) ≤ (if s = 0 then 30 else 10) := by
  intro s _; split <;> norm_num

/-- The counted occurrences are those of the state: an object is counted for state `s` of feature `f` iff it is a member
and its value is the `s`-th state name (state names distinct). -/
theorem C59_counts (data fs : Table) (e : Encoded) (h : encodeStates data fs = some e)
    (f : ℕ) (p : Str × (ℕ → Option Str)) (hp : fs.cols[f]? = some p) (names : List Str)
    (hn : e.stateNames[f]? = some names) (hnd : names.Nodup) (member : ℕ → Bool) (s : ℕ) (v : Str)
    (hs : names[s]? = some v) :
    memberCounts data.nRows e member f s =
      ((Finset.range data.nRows).filter (fun i => member i = true ∧ entryOf data p.1 i = some v)).card := by
  have key : ∀ i < data.nRows, (e.values i f s = true ↔ entryOf data p.1 i = some v) := by
    intro i hi
    cases hv : entryOf data p.1 i with
    | none =>
      rw [C39_encoded_missing data fs e h f p hp i hv s]
      simp
    | some w =>
      obtain ⟨k, _, ⟨nm, hnm, hk⟩, hks⟩ := C39_encoded_value data fs e h f p hp i hi w hv
      rw [hn, Option.some.injEq] at hnm
      subst hnm
      rw [hks]
      constructor
      · rintro rfl; rw [← hk, hs]
      · intro hwv
        rw [Option.some.injEq] at hwv
        subst hwv
        exact (List.getElem?_inj (List.getElem?_eq_some_iff.mp hs).1 hnd).mp (by rw [hs, hk])
  unfold memberCounts
  rw [Finset.card_filter]
  have hgen : ∀ n ≤ data.nRows, (List.range n).countP (fun i => member i && e.values i f s) =
      ∑ i ∈ Finset.range n, if member i = true ∧ entryOf data p.1 i = some v then 1 else 0 := by
    intro n
    induction n with
    | zero => intro _; simp
    | succ n ih =>
      intro hle
      rw [List.range_succ, List.countP_append, ih (by omega), Finset.sum_range_succ]
      congr 1
      have := key n (by omega)
      simp only [List.countP_cons, List.countP_nil, Bool.and_eq_true, this, Nat.zero_add]
  exact hgen _ (le_refl _)

end SBayes.Data
