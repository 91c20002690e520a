import Verif.Lemmas.DataFile
import Mathlib.Algebra.Order.Archimedean.Real.Basic
import Mathlib.Tactic.NormNum
import Mathlib.Tactic.Positivity
import Mathlib.Data.Finset.Prod
/- C39-C42, C56, C57: loading of data. -/
namespace SBayes.Data

/-! ## C39: feature encoding -/

/-- A value that is not missing is encoded by exactly one 1, at a position whose state name is that value. -/
theorem C39_encoded_value (data fs : Table) (e : Encoded) (h : encodeStates data fs = some e)
    (f : ℕ) (p : Str × (ℕ → Option Str)) (hp : fs.cols[f]? = some p) (i : ℕ) (hi : i < data.nRows)
    (v : Str) (hv : entryOf data p.1 i = some v) :
    ∃ k < fs.nRows, (∃ names, e.stateNames[f]? = some names ∧ names[k]? = some v) ∧
      ∀ s, e.values i f s = true ↔ s = k := by
  obtain ⟨_, h2, _, _, _, _, h7, _⟩ := encodeLoop_some _ _ _ _ _ _ h
  obtain ⟨k, hk, hk2, hk3⟩ := h7 f p hp i hi v hv
  refine ⟨k, hk, ⟨dropna fs.nRows p.2, ?_, hk2⟩, ?_⟩
  · rw [h2]; simp [hp]
  · intro s
    have := hk3 s
    rw [Nat.zero_add] at this
    rw [this]; simp

/-- A missing value is encoded by zeros only. -/
theorem C39_encoded_missing (data fs : Table) (e : Encoded) (h : encodeStates data fs = some e)
    (f : ℕ) (p : Str × (ℕ → Option Str)) (hp : fs.cols[f]? = some p) (i : ℕ)
    (hv : entryOf data p.1 i = none) : ∀ s, e.values i f s = false := by
  obtain ⟨_, _, _, _, _, h6, _, _⟩ := encodeLoop_some _ _ _ _ _ _ h
  intro s
  have := h6 f p hp i s hv
  rw [Nat.zero_add] at this
  rw [this]

/-- The encoding can be inverted: objects with equal encodings have equal entries. -/
theorem C39_encoding_injective (data fs : Table) (e : Encoded) (h : encodeStates data fs = some e)
    (f : ℕ) (p : Str × (ℕ → Option Str)) (hp : fs.cols[f]? = some p) (i j : ℕ) (hi : i < data.nRows)
    (hj : j < data.nRows) (heq : ∀ s, e.values i f s = e.values j f s) :
    entryOf data p.1 i = entryOf data p.1 j := by
  cases hv : entryOf data p.1 i with
  | none =>
    cases hw : entryOf data p.1 j with
    | none => rfl
    | some w =>
      obtain ⟨k, _, _, hk⟩ := C39_encoded_value data fs e h f p hp j hj w hw
      have h1 := (hk k).mpr rfl
      rw [← heq k, C39_encoded_missing data fs e h f p hp i hv k] at h1
      simp at h1
  | some v =>
    obtain ⟨k, _, ⟨nm, hn, hnk⟩, hk⟩ := C39_encoded_value data fs e h f p hp i hi v hv
    have h1 := (hk k).mpr rfl
    rw [heq k] at h1
    cases hw : entryOf data p.1 j with
    | none =>
      rw [C39_encoded_missing data fs e h f p hp j hw k] at h1
      simp at h1
    | some w =>
      obtain ⟨k', _, ⟨nm', hn', hnk'⟩, hk'⟩ := C39_encoded_value data fs e h f p hp j hj w hw
      have : k = k' := (hk' k).mp h1
      subst this
      rw [hn] at hn'
      simp only [Option.some.injEq] at hn'
      subst hn'
      rw [hnk] at hnk'
      exact hnk'

/-- The reported number of missing values is the number of (object, feature) pairs without a value. -/
theorem C39_na_number (data fs : Table) (e : Encoded) (h : encodeStates data fs = some e) :
    e.naNumber = ((Finset.range data.nRows ×ˢ Finset.range fs.cols.length).filter
      (fun x => ∃ p, fs.cols[x.2]? = some p ∧ entryOf data p.1 x.1 = none)).card := by
  obtain ⟨_, _, _, _, _, _, _, h8⟩ := encodeLoop_some _ _ _ _ _ _ h
  rw [h8, Finset.card_filter, Finset.sum_product_right]
  simp only [Nat.zero_add]
  have hl : ∀ cols : List (Str × (ℕ → Option Str)),
      (cols.map (fun p => (List.range data.nRows).countP (fun i => (entryOf data p.1 i).isNone))).sum =
      ∑ f ∈ Finset.range cols.length, ∑ i ∈ Finset.range data.nRows,
        if ∃ p, cols[f]? = some p ∧ entryOf data p.1 i = none then 1 else 0 := by
    intro cols
    induction cols with
    | nil => simp
    | cons q r ih =>
      rw [List.map_cons, List.sum_cons, ih, List.length_cons, Finset.sum_range_succ', add_comm]
      congr 1
      simp only [List.getElem?_cons_zero, Option.some.injEq, exists_eq_left']
      induction data.nRows with
      | zero => simp
      | succ n ihn =>
        rw [List.range_succ, List.countP_append, ihn, Finset.sum_range_succ]
        congr 1
        simp only [List.countP_cons, List.countP_nil, Option.isNone_iff_eq_none, Nat.zero_add]
  exact hl fs.cols

/-- Loading fails exactly if a feature has no column in the data or a value is not listed among its states. -/
theorem C39_loading_succeeds_iff (data fs : Table) :
    (∃ e, encodeStates data fs = some e) ↔
      ∀ f p, fs.cols[f]? = some p → ∃ c, data.col p.1 = some c ∧
        ∀ i < data.nRows, ∀ v, c i = some v → Lists fs f v := by
  constructor
  · rintro ⟨e, h⟩ f p hp
    obtain ⟨h1, _⟩ := encodeLoop_some _ _ _ _ _ _ h
    obtain ⟨c, hc, hc2⟩ := h1 p (List.mem_of_getElem? hp)
    refine ⟨c, hc, fun i hi v hv => ⟨p, hp, hc2 i hi v hv⟩⟩
  · intro h
    apply encodeLoop_succeeds
    intro p hp
    obtain ⟨f, hf⟩ := List.getElem?_of_mem hp
    obtain ⟨c, hc, hc2⟩ := h f p hf
    refine ⟨c, hc, fun i hi v hv => ?_⟩
    obtain ⟨q, hq, hs⟩ := hc2 i hi v hv
    rw [hf] at hq
    simp only [Option.some.injEq] at hq
    subst hq
    exact hs

/-- If the states of a feature are listed without gaps, the flags of applicable states match the state names: state
`s` is applicable iff it has a name, its name is the one in row `s` of the state table, and every position used by an
encoded value is applicable. Missing for the full property: state tables with gaps (see the next theorem). -/
theorem C39_applicable_states_partial (data fs : Table) (e : Encoded) (h : encodeStates data fs = some e)
    (f : ℕ) (p : Str × (ℕ → Option Str)) (hp : fs.cols[f]? = some p) (hg : NoGaps fs f) :
    ∃ names, e.stateNames[f]? = some names ∧
      (∀ s < fs.nRows, e.states f s = true ↔ s < names.length) ∧
      (∀ s < fs.nRows, names[s]? = p.2 s) ∧
      (∀ i < data.nRows, ∀ s, e.values i f s = true → e.states f s = true) := by
  obtain ⟨_, h2, h3, _⟩ := encodeLoop_some _ _ _ _ _ _ h
  have hd := dropna_noGaps fs.nRows p.2 (hg p hp)
  have hs : ∀ s < fs.nRows, e.states f s = true ↔ s < (dropna fs.nRows p.2).length := by
    intro s hs
    have h4 := h3 f p hp s
    rw [Nat.zero_add] at h4
    have h5 := hd s
    rw [if_pos hs] at h5
    rw [h4, ← h5]
    simp
  have hname : e.stateNames[f]? = some (dropna fs.nRows p.2) := by rw [h2]; simp [hp]
  refine ⟨dropna fs.nRows p.2, hname, hs, ?_, ?_⟩
  · intro s hs
    rw [hd, if_pos hs]
  · intro i hi s hv
    cases hraw : entryOf data p.1 i with
    | none =>
      rw [C39_encoded_missing data fs e h f p hp i hraw s] at hv
      simp at hv
    | some v =>
      obtain ⟨k, hk, ⟨names, hn, hnk⟩, hks⟩ := C39_encoded_value data fs e h f p hp i hi v hraw
      have : s = k := (hks s).mp hv
      subst this
      rw [hs s hk]
      rw [hname] at hn
      simp only [Option.some.injEq] at hn
      rw [hn]
      exact (List.getElem?_eq_some_iff.mp hnk).1

/-- One feature `F` with states `A`, (gap), `B`; one object with value `B`. -/
def gapStates : Table := ⟨3, [(['F'], fun s => if s = 0 then some ['A'] else if s = 2 then some ['B'] else none)]⟩
def gapData : Table := ⟨1, [(['F'], fun _ => some ['B'])]⟩

/-- With a gap in the state table, an observed value can be at a position that is flagged as not applicable. -/
theorem C39_applicable_states_false :
    ∃ data fs e, encodeStates data fs = some e ∧ ∃ i f s, i < data.nRows ∧ f < fs.cols.length ∧
      e.values i f s = true ∧ e.states f s = false :=
  ⟨gapData, gapStates, _, rfl, 0, 0, 1, by decide, by decide, by decide, by decide⟩

/-- Non-vacuity: two features, three objects, one missing value. -/
def exStates : Table := ⟨3, [(['F'], fun s => some [['A'], ['B'], ['C']][s]!),
  (['G'], fun s => if s < 2 then some [['Y'], ['N']][s]! else none)]⟩
def exData : Table := ⟨3, [("id".toList, fun i => some [['1'], ['2'], ['3']][i]!),
  (['G'], fun i => if i = 1 then none else some ['N']), (['F'], fun i => some [['C'], ['A'], ['C']][i]!)]⟩

example : ∃ e, encodeStates exData exStates = some e ∧ e.naNumber = 1 ∧ e.values 0 0 2 = true ∧ e.values 1 0 0 = true ∧
    e.values 2 1 1 = true ∧ (∀ s < 3, e.values 1 1 s = false) ∧ e.stateNames = [[['A'], ['B'], ['C']], [['Y'], ['N']]] ∧
    NoGaps exStates 1 := by
  refine ⟨_, rfl, by decide, by decide, by decide, by decide, by decide, by decide, ?_⟩
  intro p hp s s' h1 h2 h3
  simp only [exStates, List.getElem?_cons_succ, List.getElem?_cons_zero, Option.some.injEq] at hp
  subst hp
  by_cases hs : s' < 2
  · have : s < 2 := by omega
    simp [this]
  · simp [hs] at h3

/-! ## C40: confounder groups -/

/-- With a column in the data: an object is in group `g` iff its entry is the name of `g`; no group is empty; the group
names are those given, or the distinct entries in increasing order. -/
theorem C40_groups (data : Table) (name : Str) (groups : Option (List Str)) (c : Confounder)
    (col : ℕ → Option Str) (hcol : data.col name = some col)
    (h : confounderFromDataframe data name groups = some c) :
    (∀ g i, i < data.nRows → (c.assignment g i = true ↔ ∃ n, c.groupNames[g]? = some n ∧ col i = some n)) ∧
    (∀ g < c.groupNames.length, ∃ i < data.nRows, c.assignment g i = true) ∧
    (∀ gs, groups = some gs → c.groupNames = gs) ∧
    (groups = none → c.groupNames.Pairwise (· < ·)) ∧
    (∀ v, v ∈ c.groupNames ↔ ∃ i < data.nRows, col i = some v) := by
  unfold confounderFromDataframe at h
  rw [hcol] at h
  dsimp only at h
  split_ifs at h with hs
  simp only [Option.some.injEq] at h
  subst h
  dsimp only
  set names := groups.getD (unique (dropna data.nRows col)) with hnames
  have hmem : ∀ v, v ∈ names ↔ ∃ i < data.nRows, col i = some v := by
    intro v
    rw [← mem_dropna, ← mem_unique v (dropna data.nRows col)]
    exact ⟨hs.1 v, hs.2 v⟩
  have hassign : ∀ g i : ℕ, i < data.nRows →
      ((decide (i < data.nRows) && (match names[g]? with | some gName => col i == some gName | none => false)) = true ↔
        ∃ n, names[g]? = some n ∧ col i = some n) := by
    intro g i hi
    cases hg : names[g]? with
    | none => simp
    | some n => simp [hi]
  refine ⟨hassign, ?_, ?_, ?_, hmem⟩
  · intro g hg
    have h1 : names[g] ∈ names := List.getElem_mem hg
    obtain ⟨i, hi, hv⟩ := (hmem _).mp h1
    refine ⟨i, hi, (hassign g i hi).mpr ⟨names[g], by simp [hg], hv⟩⟩
  · intro gs hgs; simp [hnames, hgs]
  · intro hgs
    rw [hnames, hgs]
    exact unique_sorted _

/-- Every object with an entry is in exactly one group (if the given group names are distinct), an object without in
none. -/
theorem C40_partition (data : Table) (name : Str) (groups : Option (List Str)) (c : Confounder)
    (col : ℕ → Option Str) (hcol : data.col name = some col)
    (h : confounderFromDataframe data name groups = some c) (hnd : ∀ gs, groups = some gs → gs.Nodup)
    (i : ℕ) (hi : i < data.nRows) :
    (∀ v, col i = some v → ∃! g, g < c.groupNames.length ∧ c.assignment g i = true) ∧
    (col i = none → ∀ g, c.assignment g i = false) := by
  obtain ⟨h1, _, h3, h4, h5⟩ := C40_groups data name groups c col hcol h
  have hnodup : c.groupNames.Nodup := by
    cases hg : groups with
    | none => exact (h4 hg).imp (fun h => ne_of_lt h)
    | some gs => rw [h3 gs hg]; exact hnd gs hg
  constructor
  · intro v hv
    obtain ⟨g, hg⟩ := List.getElem?_of_mem ((h5 v).mpr ⟨i, hi, hv⟩)
    have hlt := (List.getElem?_eq_some_iff.mp hg).1
    refine ⟨g, ⟨hlt, (h1 g i hi).mpr ⟨v, hg, hv⟩⟩, ?_⟩
    rintro g' ⟨hg', ha⟩
    obtain ⟨n, hn, hn2⟩ := (h1 g' i hi).mp ha
    rw [hv] at hn2
    simp only [Option.some.injEq] at hn2
    subst hn2
    exact (List.getElem?_inj hg' hnodup).mp (by rw [hn, hg])
  · intro hv g
    by_contra hc
    simp only [Bool.not_eq_false] at hc
    obtain ⟨n, _, hn2⟩ := (h1 g i hi).mp hc
    rw [hv] at hn2
    simp at hn2

/-- A confounder without a column is accepted only as the universal one, which has one group with all objects. -/
theorem C40_universal (data : Table) (name : Str) (groups : Option (List Str)) (hcol : data.col name = none) :
    (groups = some ["<ALL>".toList] →
      ∃ c, confounderFromDataframe data name groups = some c ∧ c.groupNames = ["<ALL>".toList] ∧
        ∀ i < data.nRows, c.assignment 0 i = true) ∧
    (groups ≠ some ["<ALL>".toList] → confounderFromDataframe data name groups = none) := by
  unfold confounderFromDataframe
  rw [hcol]
  constructor
  · rintro rfl
    exact ⟨_, if_pos rfl, rfl, fun i _ => rfl⟩
  · intro hne
    cases groups with
    | none => rfl
    | some gs =>
      dsimp only
      rw [if_neg]
      intro hgs
      exact hne (by rw [hgs]; rfl)

/-- With a column, loading fails exactly if group names are given that are not those in the data. -/
theorem C40_loading_succeeds_iff (data : Table) (name : Str) (groups : Option (List Str))
    (col : ℕ → Option Str) (hcol : data.col name = some col) :
    (∃ c, confounderFromDataframe data name groups = some c) ↔
      ∀ gs, groups = some gs → ∀ v, v ∈ gs ↔ ∃ i < data.nRows, col i = some v := by
  unfold confounderFromDataframe
  rw [hcol]
  dsimp only
  cases groups with
  | none => simp
  | some gs =>
    simp only [Option.getD_some, Option.some.injEq, forall_eq']
    constructor
    · rintro ⟨c, hc⟩ v
      split_ifs at hc with hs
      rw [← mem_dropna, ← mem_unique v (dropna data.nRows col)]
      exact ⟨hs.1 v, hs.2 v⟩
    · intro h
      rw [if_pos]
      · exact ⟨_, rfl⟩
      · constructor
        · intro g hg
          rw [mem_unique, mem_dropna, ← h]; exact hg
        · intro g hg
          rw [mem_unique, mem_dropna, ← h] at hg; exact hg

/-- Non-vacuity. -/
example : ∃ c, confounderFromDataframe exData ['G'] (some [['N']]) = some c ∧ c.assignment 0 0 = true ∧
    c.assignment 0 1 = false ∧ c.assignment 0 2 = true := ⟨_, rfl, by decide, by decide, by decide⟩

/-! ## C41: costs -/

theorem idxOf_gives {f : CostFile} {a b : Str} {c : ℝ} (hi : f.index.count a = 1) (hc : f.columns.Nodup)
    (h : Gives f a b c) : f.entry (f.index.idxOf a) (f.columns.idxOf b) = c := by
  obtain ⟨r, s, hr, hs, rfl⟩ := h
  have h1 : f.columns.idxOf b = s := by
    obtain ⟨hlt, rfl⟩ := List.getElem?_eq_some_iff.mp hs
    exact hc.idxOf_getElem s hlt
  have h2 : f.index.idxOf a = r := by
    obtain ⟨hlt, ha⟩ := List.getElem?_eq_some_iff.mp hr
    have hmem : a ∈ f.index := by rw [← ha]; exact List.getElem_mem hlt
    have h3 : f.index.idxOf a < f.index.length := List.idxOf_lt_length_iff.mpr hmem
    by_contra hne
    have h4 : f.index.idxOf a < r := by
      rcases lt_trichotomy (f.index.idxOf a) r with h | h | h
      · exact h
      · exact absurd h hne
      · have h5 : f.index.idxOf a ≤ r := by
          have := List.idxOf_le_length (a := a) (l := f.index.take (r + 1))
          rw [show f.index = f.index.take (r + 1) ++ f.index.drop (r + 1) by simp]
          rw [List.idxOf_append_of_mem]
          · have hm : a ∈ f.index.take (r + 1) := by
              rw [List.mem_take_iff_getElem]
              exact ⟨r, by simp; omega, ha⟩
            have := List.idxOf_lt_length_iff.mpr hm
            rw [List.length_take] at this
            omega
          · rw [List.mem_take_iff_getElem]
            exact ⟨r, by simp; omega, ha⟩
        omega
    -- two occurrences
    have h6 : f.index = f.index.take r ++ f.index.drop r := by simp
    rw [h6, List.count_append] at hi
    have h7 : 0 < (f.index.take r).count a := by
      rw [List.count_pos_iff, List.mem_take_iff_getElem]
      exact ⟨f.index.idxOf a, by simp; omega, List.getElem_idxOf h3⟩
    have h8 : 0 < (f.index.drop r).count a := by
      rw [List.count_pos_iff, List.mem_drop_iff_getElem]
      exact ⟨0, by omega, by simpa using ha⟩
    omega
  rw [h1, h2]

/-- The shape of a result. -/
theorem readGeo_cases {names : List Str} {f : CostFile} {m : ℕ → ℕ → ℝ}
    (h : readGeoCostMatrix names f = some m) :
    (∀ x ∈ names, f.index.count x = 1 ∧ x ∈ f.columns) ∧ (∀ x ∈ f.columns, x ∈ names) ∧
    ∃ m0 : ℕ → ℕ → ℝ, (∀ i j a b, names[i]? = some a → names[j]? = some b → Gives f a b (m0 i j)) ∧
      ((¬ Allclose names.length m0 ∧ m = fun i j => (m0 i j + m0 j i) / 2) ∨ (Allclose names.length m0 ∧ m = m0)) := by
  unfold readGeoCostMatrix at h
  split_ifs at h with hset
  unfold sortedCosts at h
  split_ifs at h with hloc
  dsimp only at h
  refine ⟨hloc, hset.1,
    fun i j => f.entry (f.index.idxOf (names.getD i [])) (f.columns.idxOf (names.getD j [])), ?_, ?_⟩
  rotate_left
  · split_ifs at h with hall
    · right
      simp only [Option.some.injEq] at h
      exact ⟨hall, h.symm⟩
    · left
      simp only [Option.some.injEq] at h
      exact ⟨hall, h.symm⟩
  · intro i j a b ha hb
    have ha' : names.getD i [] = a := by simp [List.getD, ha]
    have hb' : names.getD j [] = b := by simp [List.getD, hb]
    dsimp only
    rw [ha', hb']
    have h1 := hloc a (List.mem_of_getElem? ha)
    have h2 := hloc b (List.mem_of_getElem? hb)
    refine ⟨f.index.idxOf a, f.columns.idxOf b, ?_, ?_, rfl⟩
    · have : a ∈ f.index := List.count_pos_iff.mp (by omega)
      rw [List.getElem?_eq_getElem (List.idxOf_lt_length_iff.mpr this), List.getElem_idxOf]
    · rw [List.getElem?_eq_getElem (List.idxOf_lt_length_iff.mpr h2.2), List.getElem_idxOf]

/-- The entry for two objects is the cost the file gives for their names if the two given costs are within the
tolerance of each other, and otherwise possibly their mean. -/
theorem C41_entry (names : List Str) (f : CostFile) (m : ℕ → ℕ → ℝ)
    (h : readGeoCostMatrix names f = some m) (i j : ℕ) (a b : Str) (ha : names[i]? = some a) (hb : names[j]? = some b) :
    ∃ c c', Gives f a b c ∧ Gives f b a c' ∧
      (m i j = (c + c') / 2 ∨ (m i j = c ∧ |c - c'| ≤ 1 / 10 ^ 8 + 1 / 10 ^ 5 * |c'|)) := by
  obtain ⟨_, _, m0, hm0, hcase⟩ := readGeo_cases h
  refine ⟨m0 i j, m0 j i, hm0 i j a b ha hb, hm0 j i b a hb ha, ?_⟩
  rcases hcase with ⟨_, rfl⟩ | ⟨hall, rfl⟩
  · left; rfl
  · right
    exact ⟨rfl, hall i (List.getElem?_eq_some_iff.mp ha).1 j (List.getElem?_eq_some_iff.mp hb).1⟩

/-- The whole matrix: if the two costs of every pair are within the tolerance of each other, every entry is the cost that the
file gives for the two names, and otherwise every entry is the mean of the two costs of the pair. -/
theorem C41_entries (names : List Str) (f : CostFile) (m : ℕ → ℕ → ℝ) (hc : f.columns.Nodup)
    (h : readGeoCostMatrix names f = some m) (i j : ℕ) (a b : Str) (c c' : ℝ) (ha : names[i]? = some a) (hb : names[j]? = some b)
    (hg : Gives f a b c) (hg' : Gives f b a c') :
    ((∀ x ∈ names, ∀ y ∈ names, ∀ v w, Gives f x y v → Gives f y x w → |v - w| ≤ 1 / 10 ^ 8 + 1 / 10 ^ 5 * |w|) → m i j = c) ∧
    ((∃ x ∈ names, ∃ y ∈ names, ∃ v w, Gives f x y v ∧ Gives f y x w ∧ 1 / 10 ^ 8 + 1 / 10 ^ 5 * |w| < |v - w|) →
      m i j = (c + c') / 2) := by
  obtain ⟨hloc, _, m0, hm0, hcase⟩ := readGeo_cases h
  have hmem : ∀ {i : ℕ} {a : Str}, names[i]? = some a → a ∈ names := fun h => List.mem_of_getElem? h
  have hget : ∀ i < names.length, names[i]? = some (names.getD i []) := by
    intro i hi; simp [List.getD, hi]
  have heq : ∀ (i j : ℕ) (a b : Str) (c : ℝ), names[i]? = some a → names[j]? = some b → Gives f a b c → m0 i j = c := by
    intro i j a b c ha hb hg
    rw [← idxOf_gives (hloc a (hmem ha)).1 hc hg, ← idxOf_gives (hloc a (hmem ha)).1 hc (hm0 i j a b ha hb)]
  constructor
  · intro hall
    rcases hcase with ⟨hn, rfl⟩ | ⟨_, rfl⟩
    · exfalso
      apply hn
      intro i hi j hj
      exact hall _ (hmem (hget i hi)) _ (hmem (hget j hj)) _ _ (hm0 i j _ _ (hget i hi) (hget j hj)) (hm0 j i _ _ (hget j hj) (hget i hi))
    · exact heq i j a b c ha hb hg
  · rintro ⟨x, hx, y, hy, v, w, h1, h2, hlt⟩
    rcases hcase with ⟨hn, rfl⟩ | ⟨hall, rfl⟩
    · dsimp only
      rw [heq i j a b c ha hb hg, heq j i b a c' hb ha hg']
    · exfalso
      obtain ⟨r, hr⟩ := List.getElem?_of_mem hx
      obtain ⟨s, hs⟩ := List.getElem?_of_mem hy
      have h3 := hall r (List.getElem?_eq_some_iff.mp hr).1 s (List.getElem?_eq_some_iff.mp hs).1
      rw [heq r s x y v hr hs h1, heq s r y x w hs hr h2] at h3
      exact absurd h3 (not_le.mpr hlt)

/-- The loaded matrix is symmetric up to numpy's tolerance; exactly symmetric if the file is, or if some pair of given
costs differs by more than the tolerance. Missing for the full property: files that are nearly symmetric are not
symmetrised (see `C41_symmetric_false`). -/
theorem C41_symmetric_partial (names : List Str) (f : CostFile) (m : ℕ → ℕ → ℝ) (hc : f.columns.Nodup)
    (h : readGeoCostMatrix names f = some m) :
    (∀ i < names.length, ∀ j < names.length, |m i j - m j i| ≤ 1 / 10 ^ 8 + 1 / 10 ^ 5 * |m j i|) ∧
    ((∃ a ∈ names, ∃ b ∈ names, ∃ c c', Gives f a b c ∧ Gives f b a c' ∧ 1 / 10 ^ 8 + 1 / 10 ^ 5 * |c'| < |c - c'|) →
      ∀ i j, m i j = m j i) ∧
    ((∀ a ∈ names, ∀ b ∈ names, ∀ c c', Gives f a b c → Gives f b a c' → c = c') →
      ∀ i < names.length, ∀ j < names.length, m i j = m j i) := by
  obtain ⟨hloc, _, m0, hm0, hcase⟩ := readGeo_cases h
  have hget : ∀ i < names.length, names[i]? = some (names.getD i []) := by
    intro i hi; simp [List.getD, hi]
  refine ⟨?_, ?_, ?_⟩
  · rcases hcase with ⟨_, rfl⟩ | ⟨hall, rfl⟩
    · intro i _ j _
      dsimp only
      rw [add_comm (m0 i j) (m0 j i), sub_self, abs_zero]
      positivity
    · exact hall
  · rintro ⟨a, ha, b, hb, c, c', hg, hg', hlt⟩
    rcases hcase with ⟨_, rfl⟩ | ⟨hall, rfl⟩
    · intro i j; dsimp only; rw [add_comm (m0 i j)]
    · exfalso
      obtain ⟨i, hi⟩ := List.getElem?_of_mem ha
      obtain ⟨j, hj⟩ := List.getElem?_of_mem hb
      have h1 := hall i (List.getElem?_eq_some_iff.mp hi).1 j (List.getElem?_eq_some_iff.mp hj).1
      have e1 : m i j = c := by
        rw [← idxOf_gives (hloc a ha).1 hc hg, ← idxOf_gives (hloc a ha).1 hc (hm0 i j a b hi hj)]
      have e2 : m j i = c' := by
        rw [← idxOf_gives (hloc b hb).1 hc hg', ← idxOf_gives (hloc b hb).1 hc (hm0 j i b a hj hi)]
      rw [e1, e2] at h1
      exact absurd h1 (not_le.mpr hlt)
  · intro hsym i hi j hj
    have h1 : m0 i j = m0 j i := hsym _ (List.mem_of_getElem? (hget i hi)) _ (List.mem_of_getElem? (hget j hj)) _ _
      (hm0 i j _ _ (hget i hi) (hget j hj)) (hm0 j i _ _ (hget j hj) (hget i hi))
    rcases hcase with ⟨_, rfl⟩ | ⟨_, rfl⟩
    · dsimp only; rw [add_comm]
    · exact h1

/-- Whatever the order of rows and columns: two files that give the same costs load as the same matrix. -/
theorem C41_order_irrelevant (names : List Str) (f f' : CostFile) (m m' : ℕ → ℕ → ℝ)
    (hc' : f'.columns.Nodup) (h : readGeoCostMatrix names f = some m) (h' : readGeoCostMatrix names f' = some m')
    (hsame : ∀ a ∈ names, ∀ b ∈ names, ∀ c, Gives f a b c → Gives f' a b c) :
    ∀ i < names.length, ∀ j < names.length, m' i j = m i j := by
  obtain ⟨hloc, _, m0, hm0, hcase⟩ := readGeo_cases h
  obtain ⟨hloc', _, m0', hm0', hcase'⟩ := readGeo_cases h'
  have hget : ∀ i < names.length, names[i]? = some (names.getD i []) := by
    intro i hi; simp [List.getD, hi]
  have heq : ∀ i < names.length, ∀ j < names.length, m0' i j = m0 i j := by
    intro i hi j hj
    have hi' := List.mem_of_getElem? (hget i hi)
    have hj' := List.mem_of_getElem? (hget j hj)
    have h1 := hsame _ hi' _ hj' _ (hm0 i j _ _ (hget i hi) (hget j hj))
    have h2 := hm0' i j _ _ (hget i hi) (hget j hj)
    rw [← idxOf_gives (hloc' _ hi').1 hc' h1, ← idxOf_gives (hloc' _ hi').1 hc' h2]
  have hall : Allclose names.length m0' ↔ Allclose names.length m0 := by
    unfold Allclose
    constructor
    · intro hA i hi j hj
      have := hA i hi j hj
      rwa [heq i hi j hj, heq j hj i hi] at this
    · intro hA i hi j hj
      rw [heq i hi j hj, heq j hj i hi]
      exact hA i hi j hj
  intro i hi j hj
  rcases hcase with ⟨hn, rfl⟩ | ⟨ha, rfl⟩ <;> rcases hcase' with ⟨hn', rfl⟩ | ⟨ha', rfl⟩
  · dsimp only; rw [heq i hi j hj, heq j hj i hi]
  · exact absurd (hall.mp ha') hn
  · exact absurd (hall.mpr ha) hn'
  · exact heq i hi j hj

/-- Loading fails exactly if the names in the file are not those of the objects. -/
theorem C41_loading_succeeds_iff (names : List Str) (f : CostFile) :
    (∃ m, readGeoCostMatrix names f = some m) ↔
      (∀ x, x ∈ f.columns ↔ x ∈ names) ∧ ∀ x ∈ names, f.index.count x = 1 := by
  unfold readGeoCostMatrix sortedCosts
  constructor
  · rintro ⟨m, h⟩
    split_ifs at h with h1 h2
    exact ⟨fun x => ⟨h1.1 x, h1.2 x⟩, fun x hx => (h2 x hx).1⟩
  · rintro ⟨h1, h2⟩
    rw [if_pos ⟨fun x hx => (h1 x).mp hx, fun x hx => (h1 x).mpr hx⟩]
    rw [if_pos (fun x hx => ⟨h2 x hx, (h1 x).mpr hx⟩)]
    dsimp only
    split_ifs
    · exact ⟨_, rfl⟩
    · exact ⟨_, rfl⟩

/-- A nearly symmetric file: costs 100000 and 100001. -/
def nearlySymmetric : CostFile :=
  ⟨[['A'], ['B']], [['B'], ['A']], fun r s => if r = s then (if r = 0 then 100000 else 100001) else 0⟩

theorem nearlySymmetric_facts :
    nearlySymmetric.index.idxOf ['A'] = 0 ∧ nearlySymmetric.index.idxOf ['B'] = 1 ∧
    nearlySymmetric.columns.idxOf ['A'] = 1 ∧ nearlySymmetric.columns.idxOf ['B'] = 0 ∧
    nearlySymmetric.entry 0 0 = 100000 ∧ nearlySymmetric.entry 1 1 = 100001 ∧
    nearlySymmetric.entry 0 1 = 0 ∧ nearlySymmetric.entry 1 0 = 0 := by
  refine ⟨by decide, by decide, by decide, by decide, ?_, ?_, ?_, ?_⟩ <;> simp [nearlySymmetric]

/-- The loaded matrix need not be symmetric. -/
theorem C41_symmetric_false :
    ∃ names f m, f.columns.Nodup ∧ readGeoCostMatrix names f = some m ∧ ∃ i j, i < names.length ∧ j < names.length ∧ m i j ≠ m j i := by
  have hall : Allclose 2 (fun i j => nearlySymmetric.entry (nearlySymmetric.index.idxOf ([['A'], ['B']].getD i []))
      (nearlySymmetric.columns.idxOf ([['A'], ['B']].getD j []))) := by
    intro i hi j hj
    obtain ⟨e1, e2, e3, e4, e5, e6, e7, e8⟩ := nearlySymmetric_facts
    have : i = 0 ∨ i = 1 := by omega
    have : j = 0 ∨ j = 1 := by omega
    rcases ‹i = 0 ∨ i = 1› with rfl | rfl <;> rcases ‹j = 0 ∨ j = 1› with rfl | rfl <;>
      simp only [List.getD_cons_zero, List.getD_cons_succ, e1, e2, e3, e4, e5, e6, e7, e8] <;> norm_num [abs_le]
  refine ⟨[['A'], ['B']], nearlySymmetric, fun i j =>
    nearlySymmetric.entry (nearlySymmetric.index.idxOf ([['A'], ['B']].getD i []))
      (nearlySymmetric.columns.idxOf ([['A'], ['B']].getD j [])), by decide, ?_, 0, 1, by decide, by decide, ?_⟩
  · unfold readGeoCostMatrix sortedCosts
    rw [if_pos (by decide), if_pos (by decide)]
    dsimp only
    exact if_neg (not_not.mpr hall)
  · obtain ⟨e1, e2, e3, e4, e5, e6, e7, e8⟩ := nearlySymmetric_facts
    simp only [List.getD_cons_zero, List.getD_cons_succ, e1, e2, e3, e4, e5, e6]
    norm_num

/-! ## C42: scaling of counts -/

/-- Rows with a total up to the limit are unchanged, others are scaled proportionally to a total of exactly the limit;
no count grows. -/
theorem C42_scale_counts (eps scaleTo : ℝ) (n : ℕ) (counts : ℕ → ℝ) (hto : 0 < scaleTo)
    (hpos : ∀ s < n, 0 ≤ counts s) :
    (∑ s ∈ Finset.range n, counts s ≤ scaleTo → ∀ s < n, scaleCounts eps scaleTo n counts s = counts s) ∧
    (scaleTo < ∑ s ∈ Finset.range n, counts s →
      ∑ s ∈ Finset.range n, scaleCounts eps scaleTo n counts s = scaleTo ∧
      ∃ r, 0 < r ∧ r < 1 ∧ ∀ s, scaleCounts eps scaleTo n counts s = r * counts s) ∧
    (∀ s < n, 0 ≤ scaleCounts eps scaleTo n counts s ∧ scaleCounts eps scaleTo n counts s ≤ counts s) ∧
    ∑ s ∈ Finset.range n, scaleCounts eps scaleTo n counts s ≤ scaleTo := by
  have hsum : 0 ≤ ∑ s ∈ Finset.range n, counts s := Finset.sum_nonneg (fun s hs => hpos s (Finset.mem_range.mp hs))
  have key : (∑ s ∈ Finset.range n, counts s ≤ scaleTo → ∀ s < n, scaleCounts eps scaleTo n counts s = counts s) ∧
      (scaleTo < ∑ s ∈ Finset.range n, counts s →
        ∃ r, 0 < r ∧ r < 1 ∧ r * (∑ s ∈ Finset.range n, counts s) = scaleTo ∧
          ∀ s, scaleCounts eps scaleTo n counts s = r * counts s) := by
    constructor
    · intro hle s hs
      unfold scaleCounts
      by_cases h0 : ∑ s ∈ Finset.range n, counts s = 0
      · have : counts s = 0 := by
          have := (Finset.sum_eq_zero_iff_of_nonneg (fun t ht => hpos t (Finset.mem_range.mp ht))).mp h0 s
            (Finset.mem_range.mpr hs)
          exact this
        rw [this, zero_mul]
      · rw [if_neg h0]
        have hp : 0 < ∑ s ∈ Finset.range n, counts s := lt_of_le_of_ne hsum (Ne.symm h0)
        rw [if_neg]
        · ring
        · rw [not_lt, le_div_iff₀ hp]; linarith
    · intro hlt
      have hp : 0 < ∑ s ∈ Finset.range n, counts s := lt_trans hto hlt
      have h1 : scaleTo / (∑ s ∈ Finset.range n, counts s) < 1 := by rw [div_lt_one hp]; exact hlt
      refine ⟨scaleTo / (∑ s ∈ Finset.range n, counts s), div_pos hto hp, h1, by field_simp, ?_⟩
      intro s
      unfold scaleCounts
      rw [if_neg hp.ne', if_pos h1, mul_comm]
  obtain ⟨k1, k2⟩ := key
  have k2' : scaleTo < ∑ s ∈ Finset.range n, counts s →
      ∑ s ∈ Finset.range n, scaleCounts eps scaleTo n counts s = scaleTo := by
    intro hlt
    obtain ⟨r, _, _, h3, h4⟩ := k2 hlt
    simp only [h4, ← Finset.mul_sum]
    exact h3
  refine ⟨k1, ?_, ?_, ?_⟩
  · intro hlt
    obtain ⟨r, h1, h2, _, h4⟩ := k2 hlt
    exact ⟨k2' hlt, r, h1, h2, h4⟩
  · intro s hs
    rcases le_or_gt (∑ s ∈ Finset.range n, counts s) scaleTo with hle | hlt
    · rw [k1 hle s hs]; exact ⟨hpos s hs, le_refl _⟩
    · obtain ⟨r, h1, h2, _, h4⟩ := k2 hlt
      rw [h4]
      have := hpos s hs
      constructor
      · positivity
      · nlinarith
  · rcases le_or_gt (∑ s ∈ Finset.range n, counts s) scaleTo with hle | hlt
    · rw [Finset.sum_congr rfl (fun s hs => k1 hle s (Finset.mem_range.mp hs))]
      exact hle
    · exact le_of_eq (k2' hlt)

/-- Non-vacuity: three states with counts 1, 2, 3, scaled to 2. -/
example : (0 : ℝ) < 2 ∧ (2 : ℝ) < ∑ s ∈ Finset.range 3, ((s : ℝ) + 1) := by
  constructor
  · norm_num
  · simp [Finset.sum_range_succ]; norm_num

/-! ## C56: simulated sites -/

/-- A site with a non-zero cluster id belongs to exactly one simulated cluster, shared with exactly the sites of the same
id; a site with id 0 belongs to none; every simulated cluster has a site. -/
theorem C56_clusters (n : ℕ) (cluster : ℕ → ℤ) :
    (∀ i < n, cluster i ≠ 0 → ∃! k, k < (assignToCluster n cluster).1.length ∧ (assignToCluster n cluster).2 k i = true) ∧
    (∀ i < n, cluster i = 0 → ∀ k, (assignToCluster n cluster).2 k i = false) ∧
    (∀ k, ∀ i < n, ∀ j < n, (assignToCluster n cluster).2 k i = true →
      ((assignToCluster n cluster).2 k j = true ↔ cluster j = cluster i)) ∧
    (∀ k < (assignToCluster n cluster).1.length, ∃ i < n, (assignToCluster n cluster).2 k i = true) := by
  set ids := (assignToCluster n cluster).1 with hids
  have hmem : ∀ z, z ∈ ids ↔ ∃ i < n, cluster i = z ∧ z ≠ 0 := by
    intro z
    simp only [hids, assignToCluster, mem_unique, List.mem_filter, List.mem_map, List.mem_range]
    constructor
    · rintro ⟨⟨i, hi, h1⟩, h2⟩
      exact ⟨i, hi, h1, by simpa using h2⟩
    · rintro ⟨i, hi, h1, h2⟩
      exact ⟨⟨i, hi, h1⟩, by simpa using h2⟩
  have hnd : ids.Nodup := unique_nodup _
  have hm : ∀ k i, (assignToCluster n cluster).2 k i = true ↔ i < n ∧ ids[k]? = some (cluster i) := by
    intro k i
    have : (assignToCluster n cluster).2 k i =
        match ids[k]? with | some z => decide (i < n) && (cluster i == z) | none => false := rfl
    rw [this]
    cases hk : ids[k]? with
    | none => simp
    | some z =>
      simp only [Bool.and_eq_true, decide_eq_true_eq, beq_iff_eq, Option.some.injEq]
      constructor
      · rintro ⟨h1, h2⟩; exact ⟨h1, h2.symm⟩
      · rintro ⟨h1, h2⟩; exact ⟨h1, h2.symm⟩
  refine ⟨?_, ?_, ?_, ?_⟩
  · intro i hi hz
    obtain ⟨k, hk⟩ := List.getElem?_of_mem ((hmem (cluster i)).mpr ⟨i, hi, rfl, hz⟩)
    refine ⟨k, ⟨(List.getElem?_eq_some_iff.mp hk).1, (hm k i).mpr ⟨hi, hk⟩⟩, ?_⟩
    rintro k' ⟨hk', h2⟩
    exact (List.getElem?_inj hk' hnd).mp (by rw [((hm k' i).mp h2).2, hk])
  · intro i hi hz k
    by_contra hc
    simp only [Bool.not_eq_false] at hc
    have h1 := ((hm k i).mp hc).2
    obtain ⟨_, _, _, h3⟩ := (hmem _).mp (List.mem_of_getElem? h1)
    exact h3 hz
  · intro k i hi j hj h1
    rw [hm]
    rw [hm] at h1
    rw [h1.2]
    constructor
    · rintro ⟨_, h⟩; simpa using h.symm
    · intro h; exact ⟨hj, by rw [h]⟩
  · intro k hk
    obtain ⟨i, hi, h1, _⟩ := (hmem ids[k]).mp (List.getElem_mem hk)
    exact ⟨i, hi, (hm k i).mpr ⟨hi, by rw [h1]; simp [hk]⟩⟩

/-- A site belongs to exactly one group of a simulated confounder, shared with exactly the sites with the same entry.
Missing for the full property: a site without an entry should belong to no group (see the next theorem). -/
theorem C56_groups_partial (n : ℕ) (conf : ℕ → Str) :
    (∀ i < n, ∃! q, q < (assignToConfounder n conf).1.length ∧ (assignToConfounder n conf).2 q i = true) ∧
    (∀ q, ∀ i < n, (assignToConfounder n conf).2 q i = true → (assignToConfounder n conf).1[q]? = some (conf i)) ∧
    (∀ q, ∀ i < n, ∀ j < n, (assignToConfounder n conf).2 q i = true →
      ((assignToConfounder n conf).2 q j = true ↔ conf j = conf i)) := by
  set ids := (assignToConfounder n conf).1 with hids
  have hmem : ∀ z, z ∈ ids ↔ ∃ i < n, conf i = z := by
    intro z
    simp only [hids, assignToConfounder, mem_unique, List.mem_map, List.mem_range]
  have hnd : ids.Nodup := unique_nodup _
  have hm : ∀ k i, (assignToConfounder n conf).2 k i = true ↔ i < n ∧ ids[k]? = some (conf i) := by
    intro k i
    have : (assignToConfounder n conf).2 k i =
        match ids[k]? with | some z => decide (i < n) && (conf i == z) | none => false := rfl
    rw [this]
    cases hk : ids[k]? with
    | none => simp
    | some z =>
      simp only [Bool.and_eq_true, decide_eq_true_eq, beq_iff_eq, Option.some.injEq]
      constructor
      · rintro ⟨h1, h2⟩; exact ⟨h1, h2.symm⟩
      · rintro ⟨h1, h2⟩; exact ⟨h1, h2.symm⟩
  refine ⟨?_, ?_, ?_⟩
  · intro i hi
    obtain ⟨k, hk⟩ := List.getElem?_of_mem ((hmem (conf i)).mpr ⟨i, hi, rfl⟩)
    refine ⟨k, ⟨(List.getElem?_eq_some_iff.mp hk).1, (hm k i).mpr ⟨hi, hk⟩⟩, ?_⟩
    rintro k' ⟨hk', h2⟩
    exact (List.getElem?_inj hk' hnd).mp (by rw [((hm k' i).mp h2).2, hk])
  · intro q i _ h
    exact ((hm q i).mp h).2
  · intro k i hi j hj h1
    rw [hm]
    rw [hm] at h1
    rw [h1.2]
    constructor
    · rintro ⟨_, h⟩; simpa using h.symm
    · intro h; exact ⟨hj, by rw [h]⟩

/-- The same from the canvas file: a site with an entry is in the group of that name, together with exactly the sites with the same
entry, and those without entry if the entry is `0`. Sites without entry share a group called `0`. -/
theorem C56_groups_of_the_canvas (n : ℕ) (cell : ℕ → Str) (i : ℕ) (hi : i < n) :
    ∃! q, (assignToConfounder n (canvasColumn cell)).2 q i = true ∧
      (assignToConfounder n (canvasColumn cell)).1[q]? = some (if cell i = [] then ['0'] else cell i) ∧
      ∀ j < n, ((assignToConfounder n (canvasColumn cell)).2 q j = true ↔
        cell j = cell i ∨ (cell j = [] ∧ cell i = ['0']) ∨ (cell i = [] ∧ cell j = ['0'])) := by
  have hc : ∀ k, canvasColumn cell k = if cell k = [] then ['0'] else cell k := by
    intro k
    unfold canvasColumn
    cases h : cell k <;> simp
  obtain ⟨h1, h2, h3⟩ := C56_groups_partial n (canvasColumn cell)
  obtain ⟨q, ⟨_, hq⟩, hu⟩ := h1 i hi
  refine ⟨q, ⟨hq, ?_, ?_⟩, ?_⟩
  · rw [h2 q i hi hq, hc]
  · intro j hj
    rw [h3 q i hi j hj hq, hc, hc]
    by_cases hi0 : cell i = [] <;> by_cases hj0 : cell j = [] <;> simp [hi0, hj0, eq_comm]
  · rintro q' ⟨hq', hn, _⟩
    exact hu q' ⟨(List.getElem?_eq_some_iff.1 hn).1, hq'⟩

/-- Sites without an entry are put in a common group, named `0`. -/
theorem C56_groups_missing_false :
    ∃ (n : ℕ) (cell : ℕ → Str) (i q : ℕ), i < n ∧ cell i = [] ∧
      (assignToConfounder n (canvasColumn cell)).2 q i = true ∧
      (assignToConfounder n (canvasColumn cell)).1[q]? = some ['0'] :=
  ⟨2, fun i => if i = 0 then ['a'] else [], 1, 0, by decide, by decide, by decide, by decide⟩

/-! ## C57: rows of the data file -/

/-- Reordering the rows of the data file reorders objects, their locations, features and groups in the same way, and
changes nothing else. -/
theorem C57_row_order_irrelevant (ws : Char → Bool) (isNA : Str → Bool) (float : Option Str → Option ℝ)
    (file file' states : CsvFile) (groups : List (Str × Option (List Str))) (π : Equiv.Perm ℕ)
    (hr : RowsReordered π file file') (d : Dataset) (h : readFeatures ws isNA float file states groups = some d) :
    ∃ d', readFeatures ws isNA float file' states groups = some d' ∧
      (∀ i < file.nRows, d'.objects.ids[i]? = d.objects.ids[π i]? ∧
        d'.objects.locations[i]? = d.objects.locations[π i]? ∧ d'.objects.names[i]? = d.objects.names[π i]?) ∧
      (∀ i f s, d'.features.values i f s = d.features.values (π i) f s) ∧
      d'.features.states = d.features.states ∧ d'.features.stateNames = d.features.stateNames ∧
      d'.features.naNumber = d.features.naNumber ∧
      List.Forall₂ (fun c' c => c'.1 = c.1 ∧ c'.2.groupNames = c.2.groupNames ∧
        ∀ g i, c'.2.assignment g i = c.2.assignment g (π i)) d'.confounders d.confounders := by
  have hcol := fun name => col_reordered (ws := ws) (isNA := isNA) hr name
  have hn : (readDataCsv ws isNA file').nRows = (readDataCsv ws isNA file).nRows := hr.1
  have hπ : ∀ i, π i < (readDataCsv ws isNA file).nRows ↔ i < (readDataCsv ws isNA file).nRows := hr.2.2.1
  unfold readFeatures at h ⊢
  have he : encodeStates (readDataCsv ws isNA file') (readDataCsv ws isNA states) =
      (encodeStates (readDataCsv ws isNA file) (readDataCsv ws isNA states)).map (Encoded.reorder π) :=
    encodeLoop_reorder hn hπ hcol (readDataCsv ws isNA states).nRows (readDataCsv ws isNA states).cols 0
      { values := fun _ _ _ => false, states := fun _ _ => false, stateNames := [], naNumber := 0 }
  have hm := mapM_reorder hn hπ hcol groups
  dsimp only at h ⊢
  rw [he, hm]
  simp only [Option.bind_eq_bind] at h ⊢
  cases h1 : encodeStates (readDataCsv ws isNA file) (readDataCsv ws isNA states) with
  | none => simp [h1] at h
  | some e =>
    simp only [h1, Option.bind_some] at h
    cases h2 : objectsFromDataframe float (readDataCsv ws isNA file) with
    | none => simp [h2] at h
    | some o =>
      simp only [h2, Option.bind_some] at h
      cases h3 : groups.mapM (readConfounder (readDataCsv ws isNA file)) with
      | none => simp [h3] at h
      | some cs =>
        simp only [h3, Option.bind_some, Option.some.injEq] at h
        subst h
        -- the objects
        unfold objectsFromDataframe at h2 ⊢
        rw [hcol, hcol, hcol, hcol]
        simp only [Option.bind_eq_bind] at h2 ⊢
        cases hx : (readDataCsv ws isNA file).col "x".toList with
        | none => simp only [hx, Option.bind_none, reduceCtorEq] at h2
        | some x =>
          cases hy : (readDataCsv ws isNA file).col "y".toList with
          | none => simp only [hx, hy, Option.bind_none, Option.bind_some, reduceCtorEq] at h2
          | some y =>
            cases hid : (readDataCsv ws isNA file).col "id".toList with
            | none => simp only [hx, hy, hid, Option.bind_none, Option.bind_some, reduceCtorEq] at h2
            | some id =>
              simp only [hx, hy, hid, Option.bind_some, Option.some.injEq] at h2
              subst h2
              simp only [Option.map_some, Option.bind_some]
              refine ⟨_, rfl, ?_, ?_, rfl, rfl, rfl, ?_⟩
              · intro i hi
                have hi1 : i < (readDataCsv ws isNA file').nRows := by rw [hn]; exact hi
                have hi2 : π i < (readDataCsv ws isNA file).nRows := (hπ i).mpr hi
                dsimp only
                refine ⟨?_, ?_, ?_⟩
                · rw [List.getElem?_map, List.getElem?_map, List.getElem?_range hi1, List.getElem?_range hi2]; rfl
                · rw [List.getElem?_map, List.getElem?_map, List.getElem?_range hi1, List.getElem?_range hi2]; rfl
                · rw [List.getElem?_map, List.getElem?_map, List.getElem?_range hi1, List.getElem?_range hi2]
                  cases (readDataCsv ws isNA file).col "name".toList <;> rfl
              · intro i f s; rfl
              · dsimp only
                rw [List.forall₂_map_left_iff, List.forall₂_same]
                intro c _
                exact ⟨rfl, rfl, fun _ _ => rfl⟩

/-- White space around the cells of the data and state files makes no difference. -/
theorem C57_whitespace_irrelevant (ws : Char → Bool) (isNA : Str → Bool) (float : Option Str → Option ℝ)
    (file file' states states' : CsvFile) (groups : List (Str × Option (List Str)))
    (h : SameUpToWhitespace ws isNA file file') (h' : SameUpToWhitespace ws isNA states states') :
    readFeatures ws isNA float file' states' groups = readFeatures ws isNA float file states groups := by
  have key : ∀ f f', SameUpToWhitespace ws isNA f f' → readDataCsv ws isNA f' = readDataCsv ws isNA f := by
    rintro f f' ⟨h1, h2, h3⟩
    unfold readDataCsv
    rw [h1, h2]
    congr 1
    apply List.map_congr_left
    intro p _
    congr 1
    funext i
    rcases h3 i p.2 with ⟨ha, hb⟩ | ⟨ha, hb, core, pre, post, pre', post', hws, hc, hc'⟩
    · rw [ha, hb]; rfl
    · rw [ha, hb, hc, hc']
      have w1 : ∀ ch ∈ pre, ws ch = true := fun ch hch => hws ch (by simp [hch])
      have w2 : ∀ ch ∈ post, ws ch = true := fun ch hch => hws ch (by simp [hch])
      have w3 : ∀ ch ∈ pre', ws ch = true := fun ch hch => hws ch (by simp [hch])
      have w4 : ∀ ch ∈ post', ws ch = true := fun ch hch => hws ch (by simp [hch])
      rw [strip_append_right w2, strip_append_left w1, strip_append_right w4, strip_append_left w3]
  unfold readFeatures
  rw [key _ _ h, key _ _ h']

/-- The loaded object, its features and groups come from one row of the file. -/
theorem C57_row_alignment (ws : Char → Bool) (isNA : Str → Bool) (float : Option Str → Option ℝ)
    (file states : CsvFile) (groups : List (Str × Option (List Str))) (d : Dataset)
    (h : readFeatures ws isNA float file states groups = some d) (i : ℕ) (hi : i < file.nRows) :
    d.objects.ids[i]? = some (entryOf (readDataCsv ws isNA file) "id".toList i) ∧
    d.objects.locations[i]? = some (float (entryOf (readDataCsv ws isNA file) "x".toList i),
      float (entryOf (readDataCsv ws isNA file) "y".toList i)) ∧
    (∀ f name, states.header[f]? = some name →
      (entryOf (readDataCsv ws isNA file) name i = none → ∀ s, d.features.values i f s = false) ∧
      ∀ v, entryOf (readDataCsv ws isNA file) name i = some v → ∃ k,
        (∃ names, d.features.stateNames[f]? = some names ∧ names[k]? = some v) ∧
        ∀ s, d.features.values i f s = true ↔ s = k) ∧
    (∀ c ∈ d.confounders, ((readDataCsv ws isNA file).col c.1).isSome → ∀ g, c.2.assignment g i = true ↔
      ∃ n, c.2.groupNames[g]? = some n ∧ entryOf (readDataCsv ws isNA file) c.1 i = some n) := by
  unfold readFeatures at h
  dsimp only at h
  simp only [Option.bind_eq_bind] at h
  cases h1 : encodeStates (readDataCsv ws isNA file) (readDataCsv ws isNA states) with
  | none => simp [h1] at h
  | some e =>
    simp only [h1, Option.bind_some] at h
    cases h2 : objectsFromDataframe float (readDataCsv ws isNA file) with
    | none => simp [h2] at h
    | some o =>
      simp only [h2, Option.bind_some] at h
      cases h3 : groups.mapM (readConfounder (readDataCsv ws isNA file)) with
      | none => simp [h3] at h
      | some cs =>
        simp only [h3, Option.bind_some, Option.some.injEq] at h
        subst h
        have hi1 : i < (readDataCsv ws isNA file).nRows := hi
        dsimp only
        refine ⟨?_, ?_, ?_, ?_⟩
        · unfold objectsFromDataframe at h2
          cases hx : (readDataCsv ws isNA file).col "x".toList with
          | none => simp only [hx, Option.bind_eq_bind, Option.bind_none, reduceCtorEq] at h2
          | some x =>
            cases hy : (readDataCsv ws isNA file).col "y".toList with
            | none => simp only [hx, hy, Option.bind_eq_bind, Option.bind_none, Option.bind_some, reduceCtorEq] at h2
            | some y =>
              cases hid : (readDataCsv ws isNA file).col "id".toList with
              | none => simp only [hx, hy, hid, Option.bind_eq_bind, Option.bind_none, Option.bind_some, reduceCtorEq] at h2
              | some id =>
                simp only [hx, hy, hid, Option.bind_eq_bind, Option.bind_some, Option.some.injEq] at h2
                subst h2
                dsimp only
                rw [List.getElem?_map, List.getElem?_range hi1, entryOf, hid]; rfl
        · unfold objectsFromDataframe at h2
          cases hx : (readDataCsv ws isNA file).col "x".toList with
          | none => simp only [hx, Option.bind_eq_bind, Option.bind_none, reduceCtorEq] at h2
          | some x =>
            cases hy : (readDataCsv ws isNA file).col "y".toList with
            | none => simp only [hx, hy, Option.bind_eq_bind, Option.bind_none, Option.bind_some, reduceCtorEq] at h2
            | some y =>
              cases hid : (readDataCsv ws isNA file).col "id".toList with
              | none => simp only [hx, hy, hid, Option.bind_eq_bind, Option.bind_none, Option.bind_some, reduceCtorEq] at h2
              | some id =>
                simp only [hx, hy, hid, Option.bind_eq_bind, Option.bind_some, Option.some.injEq] at h2
                subst h2
                dsimp only
                rw [List.getElem?_map, List.getElem?_range hi1, entryOf, entryOf, hx, hy]; rfl
        · intro f name hname
          have hp : ∃ c, (readDataCsv ws isNA states).cols[f]? = some (name, c) := by
            refine ⟨fun r => if isNA (states.cell r f) then none else some (strip ws (states.cell r f)), ?_⟩
            simp only [readDataCsv, List.getElem?_map, List.getElem?_zipIdx, hname, Option.map_some, Nat.zero_add]
          obtain ⟨c, hc⟩ := hp
          refine ⟨fun hv => C39_encoded_missing _ _ _ h1 f _ hc i hv, fun v hv => ?_⟩
          obtain ⟨k, _, hk⟩ := C39_encoded_value _ _ _ h1 f _ hc i hi1 v hv
          exact ⟨k, hk⟩
        · intro c hc hcol g
          obtain ⟨col, hcol⟩ := Option.isSome_iff_exists.mp hcol
          have hread : ∃ gs, confounderFromDataframe (readDataCsv ws isNA file) c.1 gs = some c.2 := by
            clear h1 h2
            induction groups generalizing cs with
            | nil =>
              simp only [List.mapM_nil, Option.pure_def, Option.some.injEq] at h3
              subst h3; simp at hc
            | cons p r ih =>
              rw [List.mapM_cons] at h3
              cases hp : readConfounder (readDataCsv ws isNA file) p with
              | none => simp [hp] at h3
              | some x =>
                cases hr : r.mapM (readConfounder (readDataCsv ws isNA file)) with
                | none => simp [hp, hr] at h3
                | some y =>
                  simp only [hp, hr, Option.bind_eq_bind, Option.bind_some, Option.pure_def,
                    Option.some.injEq] at h3
                  subst h3
                  rcases List.mem_cons.mp hc with rfl | hc
                  · unfold readConfounder at hp
                    cases hq : confounderFromDataframe (readDataCsv ws isNA file) p.1 p.2 with
                    | none => simp [hq] at hp
                    | some z =>
                      simp only [hq, Option.bind_eq_bind, Option.bind_some, Option.some.injEq] at hp
                      subst hp
                      exact ⟨p.2, hq⟩
                  · exact ih y hr hc
          obtain ⟨gs, hgs⟩ := hread
          have := (C40_groups _ _ _ _ _ hcol hgs).1 g i hi1
          rw [this]
          simp [entryOf, hcol]

/-- Non-vacuity: a file with two objects. -/
def exFile : CsvFile := ⟨2, ["id".toList, "x".toList, "y".toList, "fam".toList, "F".toList],
  fun i j => ([["a".toList, "1".toList, "2".toList, "g".toList, " B ".toList],
    ["b".toList, "3".toList, "4".toList, "h".toList, "A".toList]].getD i []).getD j []⟩
def exStatesFile : CsvFile := ⟨2, ["F".toList], fun i _ => if i = 0 then "A".toList else "B".toList⟩

example : ∃ d, readFeatures (fun c => c == ' ') (fun s => s == []) (fun _ => none) exFile exStatesFile
      [("fam".toList, none), ("u".toList, some ["<ALL>".toList])] = some d ∧
    d.features.values 0 0 1 = true ∧ (d.confounders.map (fun c => c.2.groupNames)) = [["g".toList, "h".toList], ["<ALL>".toList]] := by
  refine ⟨_, rfl, by decide, by decide⟩

example : RowsReordered (Equiv.swap 0 1) exFile { exFile with cell := fun i j => exFile.cell (Equiv.swap 0 1 i) j } := by
  refine ⟨rfl, rfl, ?_, fun _ _ => rfl⟩
  intro i
  by_cases h0 : i = 0
  · subst h0; simp [exFile]
  · by_cases h1 : i = 1
    · subst h1; simp [exFile]
    · rw [Equiv.swap_apply_of_ne_of_ne h0 h1]

end SBayes.Data
