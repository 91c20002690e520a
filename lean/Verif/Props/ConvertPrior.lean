import Verif.Model.ConvertPrior
import Verif.Lemmas.Tools
/-
C109: prior parameters converted from CSV to JSON.
-/
namespace SBayes.Data

/-! ### Specification -/

/-- A table with pairwise different columns and as many cells in every row. -/
structure CountsCsv.Regular (t : CountsCsv) : Prop where
  columns : t.header.Nodup
  cells : ∀ r ∈ t.rows, r.2.length = t.header.length

/-- The last row of the feature has the number `v` in the column of the state. -/
def CountsCsv.Gives (t : CountsCsv) (f s : Str) (v : ℝ) : Prop :=
  ∃ before cells after, t.rows = before ++ (f, cells) :: after ∧ (∀ r ∈ after, r.1 ≠ f) ∧
    ∃ j : ℕ, t.header[j]? = some s ∧ cells[j]? = some (CountCell.number v)

/-- The table contains a text where a number is expected. -/
def CountsCsv.HasText (t : CountsCsv) : Prop := ∃ r ∈ t.rows, ∃ j < t.header.length, ∃ w, r.2[j]? = some (CountCell.text w)

/-! ### Rows -/

theorem rowDict_none : ∀ (ks : List Str) (cs : List CountCell),
    rowDict ks cs = none ↔ ∃ j < ks.length, ∃ w, cs[j]? = some (CountCell.text w)
  | [], cs => by simp [rowDict]
  | k :: ks, [] => by simp [rowDict]
  | k :: ks, c :: cs => by
    have ih := rowDict_none ks cs
    constructor
    · intro h
      cases c with
      | missing =>
        obtain ⟨j, hj, w, hw⟩ := ih.1 h
        exact ⟨j + 1, by simpa using hj, w, by simpa using hw⟩
      | number v =>
        simp only [rowDict, Option.map_eq_none_iff] at h
        obtain ⟨j, hj, w, hw⟩ := ih.1 h
        exact ⟨j + 1, by simpa using hj, w, by simpa using hw⟩
      | text w => exact ⟨0, by simp, w, rfl⟩
    · rintro ⟨j, hj, w, hw⟩
      cases j with
      | zero =>
        simp only [List.getElem?_cons_zero, Option.some.injEq] at hw
        subst hw; rfl
      | succ j =>
        have h := ih.2 ⟨j, by simpa using hj, w, by simpa using hw⟩
        cases c with
        | missing => exact h
        | number v => simp [rowDict, h]
        | text w => rfl

theorem rowDict_keys : ∀ (ks : List Str) (cs : List CountCell) (d : List (Str × ℝ)), rowDict ks cs = some d →
    ∀ p ∈ d, p.1 ∈ ks
  | [], cs, d, h, p, hp => by simp [rowDict] at h; subst h; simp at hp
  | k :: ks, [], d, h, p, hp => by simp [rowDict] at h; subst h; simp at hp
  | k :: ks, .missing :: cs, d, h, p, hp => List.mem_cons_of_mem _ (rowDict_keys ks cs d h p hp)
  | k :: ks, .number v :: cs, d, h, p, hp => by
    simp only [rowDict, Option.map_eq_some_iff] at h
    obtain ⟨d', h', rfl⟩ := h
    rcases List.mem_cons.1 hp with rfl | hp
    · simp
    · exact List.mem_cons_of_mem _ (rowDict_keys ks cs d' h' p hp)
  | k :: ks, .text w :: cs, d, h, p, hp => by simp [rowDict] at h

theorem lookup_none_of {β : Type*} {d : List (Str × β)} {s : Str} (h : ∀ p ∈ d, p.1 ≠ s) : d.lookup s = none := by
  rw [List.lookup_eq_none_iff]
  intro p hp
  simpa using (h p hp).symm

theorem rowDict_lookup : ∀ (ks : List Str) (cs : List CountCell) (d : List (Str × ℝ)), ks.Nodup → cs.length = ks.length →
    rowDict ks cs = some d → ∀ s v, d.lookup s = some v ↔ ∃ j : ℕ, ks[j]? = some s ∧ cs[j]? = some (CountCell.number v)
  | [], cs, d, _, _, h, s, v => by simp [rowDict] at h; subst h; simp
  | k :: ks, [], d, _, hl, h, s, v => by simp at hl
  | k :: ks, c :: cs, d, hn, hl, h, s, v => by
    rw [List.nodup_cons] at hn
    have hl' : cs.length = ks.length := by simpa using hl
    have split : (∃ j : ℕ, (k :: ks)[j]? = some s ∧ (c :: cs)[j]? = some (CountCell.number v)) ↔
        (k = s ∧ c = .number v) ∨ ∃ j : ℕ, ks[j]? = some s ∧ cs[j]? = some (CountCell.number v) := by
      constructor
      · rintro ⟨j, h1, h2⟩
        cases j with
        | zero => left; exact ⟨by simpa using h1, by simpa using h2⟩
        | succ j => right; exact ⟨j, by simpa using h1, by simpa using h2⟩
      · rintro (⟨rfl, rfl⟩ | ⟨j, h1, h2⟩)
        · exact ⟨0, rfl, rfl⟩
        · exact ⟨j + 1, by simpa using h1, by simpa using h2⟩
    rw [split]
    cases c with
    | missing =>
      rw [rowDict_lookup ks cs d hn.2 hl' h s v]
      simp
    | number u =>
      simp only [rowDict, Option.map_eq_some_iff] at h
      obtain ⟨d', h', rfl⟩ := h
      have ih := rowDict_lookup ks cs d' hn.2 hl' h' s v
      by_cases hk : s = k
      · subst hk
        have hno : ¬ ∃ j : ℕ, ks[j]? = some s ∧ cs[j]? = some (CountCell.number v) := by
          rintro ⟨j, h1, _⟩
          exact hn.1 (List.mem_of_getElem? h1)
        simp [hno]
      · rw [List.lookup_cons, beq_false_of_ne hk]
        dsimp only
        rw [ih]
        simp [Ne.symm hk]
    | text w => simp [rowDict] at h

/-! ### The dictionary of all rows -/

theorem setRow_lookup (d : List (Str × List (Str × ℝ))) (k : Str) (x : List (Str × ℝ)) (f : Str) :
    (setRow d k x).lookup f = if f = k then some x else d.lookup f := by
  induction d with
  | nil =>
    simp only [setRow, List.lookup_cons, List.lookup_nil]
    by_cases h : f = k
    · simp [h]
    · rw [beq_false_of_ne h, if_neg h]
  | cons p r ih =>
    obtain ⟨a, b⟩ := p
    simp only [setRow]
    by_cases h1 : a = k
    · subst h1
      simp only [if_pos, List.lookup_cons]
      by_cases h : f = a
      · simp [h]
      · rw [beq_false_of_ne h, if_neg h]
    · rw [if_neg h1]
      simp only [List.lookup_cons, ih]
      by_cases h : f = a
      · subst h; simp [h1]
      · rw [beq_false_of_ne h]

theorem convertRows_none (header : List Str) : ∀ (rows : List (Str × List CountCell)) (d : List (Str × List (Str × ℝ))),
    convertRows header d rows = none ↔ ∃ r ∈ rows, rowDict header r.2 = none
  | [], d => by simp [convertRows]
  | r :: rs, d => by
    rw [convertRows]
    cases h : rowDict header r.2 with
    | none => simp [h]
    | some x => simp [h, convertRows_none header rs]

/-- Looking up a feature gives the entries of its last row. -/
theorem convertRows_lookup (header : List Str) : ∀ (rows : List (Str × List CountCell)) (d d' : List (Str × List (Str × ℝ))),
    convertRows header d rows = some d' → ∀ f x, d'.lookup f = some x ↔
      (∃ before cells after, rows = before ++ (f, cells) :: after ∧ (∀ r ∈ after, r.1 ≠ f) ∧ rowDict header cells = some x) ∨
      ((∀ r ∈ rows, r.1 ≠ f) ∧ d.lookup f = some x)
  | [], d, d', h, f, x => by
    simp only [convertRows, Option.some.injEq] at h
    subst h
    simp
  | r :: rs, d, d', h, f, x => by
    rw [convertRows] at h
    cases hx : rowDict header r.2 with
    | none => simp [hx] at h
    | some y =>
      simp only [hx, Option.bind_eq_bind, Option.bind_some] at h
      rw [convertRows_lookup header rs _ d' h f x, setRow_lookup]
      constructor
      · rintro (⟨b, c, a, rfl, h2, h3⟩ | ⟨h1, h2⟩)
        · exact Or.inl ⟨r :: b, c, a, rfl, h2, h3⟩
        · by_cases hf : f = r.1
          · subst hf
            rw [if_pos rfl, Option.some.injEq] at h2
            subst h2
            exact Or.inl ⟨[], r.2, rs, rfl, h1, hx⟩
          · rw [if_neg hf] at h2
            refine Or.inr ⟨?_, h2⟩
            intro q hq
            rcases List.mem_cons.1 hq with rfl | hq
            · exact Ne.symm hf
            · exact h1 q hq
      · rintro (⟨b, c, a, h1, h2, h3⟩ | ⟨h1, h2⟩)
        · cases b with
          | nil =>
            simp only [List.nil_append, List.cons.injEq] at h1
            obtain ⟨rfl, rfl⟩ := h1
            dsimp only at hx
            rw [hx, Option.some.injEq] at h3
            subst h3
            exact Or.inr ⟨h2, by simp⟩
          | cons q b =>
            simp only [List.cons_append, List.cons.injEq] at h1
            obtain ⟨rfl, rfl⟩ := h1
            exact Or.inl ⟨b, c, a, rfl, h2, h3⟩
        · refine Or.inr ⟨fun q hq => h1 q (List.mem_cons_of_mem _ hq), ?_⟩
          rw [if_neg (fun hf => h1 r (by simp) hf.symm), h2]

/-- What the file contains is what the table gives. -/
theorem convertPrior_spec (t : CountsCsv) (ht : t.Regular) (d : List (Str × List (Str × ℝ))) (h : convertPrior t = some d) (f s : Str) (v : ℝ) :
    (∃ x, d.lookup f = some x ∧ x.lookup s = some v) ↔ t.Gives f s v := by
  unfold convertPrior at h
  have key : ∀ cells, (f, cells) ∈ t.rows → ∀ x, rowDict t.header cells = some x →
      (x.lookup s = some v ↔ ∃ j : ℕ, t.header[j]? = some s ∧ cells[j]? = some (CountCell.number v)) :=
    fun cells hc x hx => rowDict_lookup t.header cells x ht.columns (ht.cells _ hc) hx s v
  constructor
  · rintro ⟨x, hx, hv⟩
    rcases (convertRows_lookup t.header t.rows [] d h f x).1 hx with ⟨b, c, a, h1, h2, h3⟩ | ⟨_, h2⟩
    · exact ⟨b, c, a, h1, h2, (key c (by rw [h1]; simp) x h3).1 hv⟩
    · simp at h2
  · rintro ⟨b, c, a, h1, h2, h3⟩
    have hc : (f, c) ∈ t.rows := by rw [h1]; simp
    cases hx : rowDict t.header c with
    | none =>
      have := (convertRows_none t.header t.rows []).2 ⟨(f, c), hc, hx⟩
      rw [this] at h; simp at h
    | some x =>
      exact ⟨x, (convertRows_lookup t.header t.rows [] d h f x).2 (Or.inl ⟨b, c, a, h1, h2, hx⟩), (key c hc x hx).2 h3⟩

/-! ### C109 -/

/-- **C109** The conversion fails exactly if the table contains a text where a number is expected. -/
theorem C109_fails_iff_text (t : CountsCsv) : convertPrior t = none ↔ t.HasText := by
  unfold convertPrior CountsCsv.HasText
  rw [convertRows_none]
  simp only [rowDict_none]

/-- **C109** The converted file can be used as prior for a model exactly if the table has a number for every state of every feature of the
model. Other rows and columns do not matter. -/
theorem C109_usable_iff_complete (t : CountsCsv) (ht : t.Regular) (d : List (Str × List (Str × ℝ))) (h : convertPrior t = some d)
    (names : List (Str × List Str)) (initial : ℝ) :
    (∃ conc, parseConcentration initial d names = some conc) ↔ ∀ f ∈ names, ∀ s ∈ f.2, ∃ v, t.Gives f.1 s v := by
  have row : ∀ f : Str × List Str, (∃ c, f.2.mapM (fun s => do
      let df ← d.lookup f.1
      let v ← df.lookup s
      some (initial + v)) = some c) ↔ ∀ s ∈ f.2, ∃ v, t.Gives f.1 s v := by
    rintro ⟨f, ss⟩
    dsimp only
    induction ss with
    | nil => simp
    | cons s ss ih =>
      rw [List.mapM_cons]
      constructor
      · rintro ⟨c, hc⟩ s' hs'
        simp only [Option.bind_eq_bind, Option.bind_eq_some_iff, Option.pure_def] at hc
        obtain ⟨u, ⟨df, h1, v, h2, h3⟩, w, h4, h5⟩ := hc
        rcases List.mem_cons.1 hs' with rfl | hs'
        · exact ⟨v, (convertPrior_spec t ht d h f s' v).1 ⟨df, h1, h2⟩⟩
        · exact ih.1 ⟨w, h4⟩ s' hs'
      · intro hall
        obtain ⟨v, hv⟩ := hall s (by simp)
        obtain ⟨x, h1, h2⟩ := (convertPrior_spec t ht d h f s v).2 hv
        obtain ⟨w, hw⟩ := ih.2 (fun s' hs' => hall s' (List.mem_cons_of_mem _ hs'))
        refine ⟨(initial + v) :: w, ?_⟩
        simp only [Option.bind_eq_bind, Option.pure_def] at hw ⊢
        rw [hw]
        simp [h1, h2]
  unfold parseConcentration
  induction names with
  | nil => simp
  | cons f fs ih =>
    rw [List.mapM_cons]
    constructor
    · rintro ⟨c, hc⟩ f' hf'
      rw [Option.bind_eq_bind, Option.bind_eq_some_iff] at hc
      obtain ⟨u, h1, h2⟩ := hc
      rw [Option.bind_eq_bind, Option.bind_eq_some_iff] at h2
      obtain ⟨w, h3, _⟩ := h2
      rcases List.mem_cons.1 hf' with rfl | hf'
      · exact (row f').1 ⟨u, h1⟩
      · exact ih.1 ⟨w, h3⟩ f' hf'
    · intro hall
      obtain ⟨u, hu⟩ := (row f).2 (hall f (by simp))
      obtain ⟨w, hw⟩ := ih.2 (fun f' hf' => hall f' (List.mem_cons_of_mem _ hf'))
      exact ⟨u :: w, by rw [hu, hw]; rfl⟩

/-- **C109** The concentration of a state is the number the table gives, plus the initial count of the prior (which is 1). -/
theorem C109_concentrations (t : CountsCsv) (ht : t.Regular) (d : List (Str × List (Str × ℝ))) (h : convertPrior t = some d)
    (names : List (Str × List Str)) (initial : ℝ) (conc : List (List ℝ)) (hc : parseConcentration initial d names = some conc) :
    List.Forall₂ (fun f row => List.Forall₂ (fun s c => ∃ v, t.Gives f.1 s v ∧ c = initial + v) f.2 row) names conc := by
  have row : ∀ (f : Str) (ss : List Str) (c : List ℝ), ss.mapM (fun s => do
      let df ← d.lookup f
      let v ← df.lookup s
      some (initial + v)) = some c → List.Forall₂ (fun s c => ∃ v, t.Gives f s v ∧ c = initial + v) ss c := by
    intro f ss
    induction ss with
    | nil => intro c hc; simp at hc; subst hc; exact .nil
    | cons s ss ih =>
      intro c hc
      rw [List.mapM_cons] at hc
      simp only [Option.bind_eq_bind, Option.bind_eq_some_iff, Option.pure_def, Option.some.injEq] at hc
      obtain ⟨u, ⟨df, h1, v, h2, h3⟩, w, h4, h5⟩ := hc
      subst h3 h5
      refine .cons ⟨v, (convertPrior_spec t ht d h f s v).1 ⟨df, h1, h2⟩, rfl⟩ (ih w ?_)
      simpa only [Option.bind_eq_bind] using h4
  unfold parseConcentration at hc
  induction names generalizing conc with
  | nil => simp at hc; subst hc; exact .nil
  | cons f fs ih =>
    rw [List.mapM_cons, Option.bind_eq_bind, Option.bind_eq_some_iff] at hc
    obtain ⟨u, h1, h2⟩ := hc
    rw [Option.bind_eq_bind, Option.bind_eq_some_iff] at h2
    obtain ⟨w, h3, h4⟩ := h2
    simp only [Option.pure_def, Option.some.injEq] at h4
    subst h4
    exact .cons (row f.1 f.2 u h1) (ih w h3)

/-- The table gives at most one number for a feature and a state. -/
theorem C109_gives_unique (t : CountsCsv) (ht : t.Regular) (f s : Str) (v v' : ℝ) (h : t.Gives f s v) (h' : t.Gives f s v')
    (hok : ¬ t.HasText) : v = v' := by
  cases hd : convertPrior t with
  | none => exact absurd ((C109_fails_iff_text t).1 hd) hok
  | some d =>
    obtain ⟨x, h1, h2⟩ := (convertPrior_spec t ht d hd f s v).2 h
    obtain ⟨x', h1', h2'⟩ := (convertPrior_spec t ht d hd f s v').2 h'
    rw [h1, Option.some.injEq] at h1'
    subst h1'
    rw [h2, Option.some.injEq] at h2'
    exact h2'

/-- A table with two features; only the first has a third state. -/
def demoCounts : CountsCsv := ⟨[['A'], ['B'], ['C']],
  [(['F', '1'], [.number 2, .number 0, .number 5]), (['F', '2'], [.number 1, .number 7, .missing])]⟩

theorem demoCounts_regular : demoCounts.Regular := ⟨by decide, by decide⟩

/-- The hypotheses are met: the table of the example is converted, and usable for a model with one feature and two of its states in another
order. -/
example : ∃ d conc, convertPrior demoCounts = some d ∧ parseConcentration 1 d [(['F', '2'], [['B'], ['A']])] = some conc ∧
    conc = [[1 + 7, 1 + 1]] := ⟨_, _, rfl, rfl, rfl⟩

/-- **C109** Finding: a feature that has two rows in the table is not reported; only the last row counts, also where it has no number. -/
theorem C109_repeated_features_are_reported_false : ∃ (t : CountsCsv) (d : List (Str × List (Str × ℝ))), t.Regular ∧ convertPrior t = some d ∧
    (∃ r ∈ t.rows, r.1 = ['F'] ∧ r.2[0]? = some (.number 2)) ∧ parseConcentration 1 d [(['F'], [['A']])] = none :=
  ⟨⟨[['A'], ['B']], [(['F'], [.number 2, .number 1]), (['F'], [.missing, .number 1])]⟩, _, ⟨by decide, by decide⟩, rfl,
    ⟨_, by simp; left; rfl, rfl, rfl⟩, rfl⟩

end SBayes.Data
