import Verif.Lemmas.DataFile
import Verif.Model.Tools
import Mathlib.Data.List.DropRight
/- Lemmas for Props/Tools.lean. -/
namespace SBayes.Data

theorem strip_strip (ws : Char → Bool) (s : Str) : strip ws (strip ws s) = strip ws s := by
  have e : ∀ t : Str, strip ws t = List.rdropWhile ws (List.dropWhile ws t) := fun t => rfl
  rw [e s]
  set t := List.dropWhile ws s with ht
  rw [e]
  have hpre : List.rdropWhile ws t <+: t := List.rdropWhile_prefix ws t
  have hdrop : List.dropWhile ws (List.rdropWhile ws t) = List.rdropWhile ws t := by
    cases hu : List.rdropWhile ws t with
    | nil => rfl
    | cons a r =>
      rw [hu] at hpre
      obtain ⟨w, hw⟩ := hpre
      have hne : t ≠ [] := by rw [← hw]; simp
      have h1 := List.head_dropWhile_not (p := ws) (l := s) (by rw [← ht]; exact hne)
      have h2 : (List.dropWhile ws s).head (by rw [← ht]; exact hne) = a := by
        simp only [← ht, ← hw]; rfl
      rw [h2] at h1
      rw [List.dropWhile_cons_of_neg (by simp [h1])]
  rw [hdrop]
  exact List.rdropWhile_idempotent ws t

theorem lookup_of_nodup {β : Type*} {l : List (Str × β)} (hnd : (l.map (fun p => p.1)).Nodup) {p : Str × β} (hp : p ∈ l) :
    l.lookup p.1 = some p.2 := by
  induction l with
  | nil => simp at hp
  | cons q r ih =>
    rw [List.map_cons, List.nodup_cons] at hnd
    rcases List.mem_cons.mp hp with rfl | hp'
    · obtain ⟨a, b⟩ := p; simp
    · obtain ⟨a, b⟩ := q
      have hne : p.1 ≠ a := by
        intro h
        exact hnd.1 (List.mem_map.mpr ⟨p, hp', h⟩)
      rw [List.lookup_cons, beq_false_of_ne hne]
      exact ih hnd.2 hp'

theorem read_cols_fst (ws : Char → Bool) (isNA : Str → Bool) (file : CsvFile) :
    (readDataCsv ws isNA file).cols.map (fun p => p.1) = file.header := by
  simp [readDataCsv, List.map_map, Function.comp_def, List.zipIdx_map_fst]

/-- The state of the collection after the files `P`. -/
structure Collected (ws : Char → Bool) (isNA : Str → Bool) (P : List CsvFile) (acc : List (Str × List Str)) : Prop where
  nodup : (acc.map (fun p => p.1)).Nodup
  cols : ∀ p ∈ acc, ∀ g ∈ P, ∃ c, (readDataCsv ws isNA g).col p.1 = some c
  vals : ∀ p ∈ acc, ∀ v, v ∈ p.2 ↔ ∃ g ∈ P, ∃ i < g.nRows, entryOf (readDataCsv ws isNA g) p.1 i = some v
  sorted : ∀ p ∈ acc, p.2.Pairwise (· < ·)

theorem collect_spec {ws : Char → Bool} {isNA : Str → Bool} {file : CsvFile} {d : List (Str × List Str)}
    (hnd : file.header.Nodup) (h : collectFeatureStates ws isNA file = some d) : Collected ws isNA [file] d := by
  unfold collectFeatureStates at h
  split_ifs at h
  simp only [Option.some.injEq] at h
  subst h
  have hnd' : ((readDataCsv ws isNA file).cols.map (fun p => p.1)).Nodup := by rw [read_cols_fst]; exact hnd
  constructor
  · rw [List.map_map]
    exact (List.Nodup.sublist (List.Sublist.map _ List.filter_sublist) hnd')
  · intro p hp g hg
    simp only [List.mem_map, List.mem_filter] at hp
    obtain ⟨q, ⟨hq, _⟩, rfl⟩ := hp
    rw [List.mem_singleton] at hg
    subst hg
    exact ⟨q.2, lookup_of_nodup hnd' hq⟩
  · intro p hp v
    simp only [List.mem_map, List.mem_filter] at hp
    obtain ⟨q, ⟨hq, _⟩, rfl⟩ := hp
    dsimp only
    rw [mem_unique, mem_dropna]
    have hcol : (readDataCsv ws isNA file).col q.1 = some q.2 := lookup_of_nodup hnd' hq
    simp [entryOf, hcol]
  · intro p hp
    simp only [List.mem_map] at hp
    obtain ⟨q, _, rfl⟩ := hp
    exact unique_sorted _

theorem merge_spec {ws : Char → Bool} {isNA : Str → Bool} {P : List CsvFile} {file : CsvFile}
    {old new acc : List (Str × List Str)} (ho : Collected ws isNA P old) (hn : Collected ws isNA [file] new)
    (h : mergeStates old new = some acc) : Collected ws isNA (P ++ [file]) acc := by
  unfold mergeStates at h
  split_ifs at h with hkeys
  simp only [Option.some.injEq] at h
  subst h
  have hlook : ∀ q ∈ old, ∃ q' ∈ new, q'.1 = q.1 ∧ new.lookup q.1 = some q'.2 := by
    intro q hq
    obtain ⟨q', hq', he⟩ := List.mem_map.mp (hkeys.1 q hq)
    exact ⟨q', hq', he, by rw [← he]; exact lookup_of_nodup hn.nodup hq'⟩
  constructor
  · rw [List.map_map]; exact ho.nodup
  · intro p hp g hg
    obtain ⟨q, hq, rfl⟩ := List.mem_map.mp hp
    rcases List.mem_append.mp hg with hg | hg
    · exact ho.cols q hq g hg
    · obtain ⟨q', hq', he, _⟩ := hlook q hq
      dsimp only
      rw [← he]
      exact hn.cols q' hq' g hg
  · intro p hp v
    obtain ⟨q, hq, rfl⟩ := List.mem_map.mp hp
    obtain ⟨q', hq', he, hl⟩ := hlook q hq
    dsimp only
    rw [mem_unique, hl, Option.getD_some, List.mem_append, ho.vals q hq, hn.vals q' hq', he]
    constructor
    · rintro (⟨g, hg, h⟩ | ⟨g, hg, h⟩)
      · exact ⟨g, by simp [hg], h⟩
      · exact ⟨g, List.mem_append_right _ hg, h⟩
    · rintro ⟨g, hg, h⟩
      rcases List.mem_append.mp hg with hg | hg
      · exact Or.inl ⟨g, hg, h⟩
      · exact Or.inr ⟨g, hg, h⟩
  · intro p hp
    obtain ⟨q, _, rfl⟩ := List.mem_map.mp hp
    exact unique_sorted _

theorem mergeFiles_spec {ws : Char → Bool} {isNA : Str → Bool} : ∀ (rest P : List CsvFile) (acc acc' : List (Str × List Str)),
    (∀ g ∈ rest, g.header.Nodup) → Collected ws isNA P acc → mergeFiles ws isNA acc rest = some acc' →
    Collected ws isNA (P ++ rest) acc' := by
  intro rest
  induction rest with
  | nil =>
    intro P acc acc' _ h1 h2
    simp only [mergeFiles, Option.some.injEq] at h2
    subst h2
    simpa using h1
  | cons file rest ih =>
    intro P acc acc' hnd h1 h2
    rw [mergeFiles] at h2
    cases hc : collectFeatureStates ws isNA file with
    | none => simp [hc] at h2
    | some new =>
      cases hm : mergeStates acc new with
      | none => simp [hc, hm] at h2
      | some acc1 =>
        simp only [hc, hm, Option.bind_eq_bind, Option.bind_some] at h2
        have := ih (P ++ [file]) acc1 acc' (fun g hg => hnd g (List.mem_cons_of_mem _ hg))
          (merge_spec h1 (collect_spec (hnd file List.mem_cons_self) hc) hm) h2
        simpa using this

theorem le_foldr_max {l : List ℕ} {x : ℕ} (h : x ∈ l) : x ≤ l.foldr max 0 := by
  induction l with
  | nil => simp at h
  | cons a r ih =>
    rw [List.foldr_cons]
    rcases List.mem_cons.mp h with rfl | h
    · exact le_max_left _ _
    · exact le_trans (ih h) (le_max_right _ _)

/-- Reading the written state file. -/
theorem statesFile_cols {ws : Char → Bool} {isNA : Str → Bool} {d : List (Str × List Str)} {T : CsvFile}
    (h : statesFile d = some T) (hNA : isNA [] = true)
    (hv : ∀ p ∈ d, ∀ v ∈ p.2, isNA v = false ∧ strip ws v = v) :
    (readDataCsv ws isNA T).cols = d.map (fun p => (p.1, fun i => p.2[i]?)) ∧
    ∀ p ∈ d, p.2.length ≤ (readDataCsv ws isNA T).nRows := by
  unfold statesFile at h
  split_ifs at h
  simp only [Option.some.injEq] at h
  subst h
  constructor
  · simp only [readDataCsv]
    apply List.ext_getElem?
    intro j
    simp only [List.getElem?_map, List.getElem?_zipIdx, Nat.zero_add]
    cases hj : d[j]? with
    | none => rfl
    | some p =>
      simp only [Option.map_some, Option.some.injEq, Prod.mk.injEq, true_and]
      funext i
      simp only [List.getD, List.getElem?_map, hj, Option.map_some, Option.getD_some]
      cases hi : p.2[i]? with
      | none => simp [hNA]
      | some v =>
        obtain ⟨h1, h2⟩ := hv p (List.mem_of_getElem? hj) v (List.mem_of_getElem? hi)
        simp [h1, h2]
  · intro p hp
    exact le_foldr_max (List.mem_map_of_mem (f := fun p : Str × List Str => p.2.length) hp)

theorem dropna_list (n : ℕ) (l : List Str) (h : l.length ≤ n) : dropna n (fun i => l[i]?) = l := by
  apply List.ext_getElem?
  intro s
  rw [dropna_noGaps]
  · split_ifs with hs
    · rfl
    · rw [List.getElem?_eq_none (by omega)]
  · intro a b hab _ hb
    simp only [isSome_getElem?] at hb ⊢
    omega

/-! ### setItem and lookup -/

theorem lookup_setItem (d : List (Str × ℝ)) (k : Str) (v : ℝ) (x : Str) :
    (setItem d k v).lookup x = if x = k then some v else d.lookup x := by
  induction d with
  | nil =>
    by_cases h : x = k
    · simp [setItem, h]
    · simp [setItem, h, List.lookup_cons, beq_false_of_ne h]
  | cons p r ih =>
    obtain ⟨p1, p2⟩ := p
    rw [setItem]
    by_cases hp : p1 = k
    · rw [if_pos hp]
      by_cases h : x = k
      · simp [h]
      · have h3 : (x == p1) = false := beq_false_of_ne (by rw [hp]; exact h)
        simp [List.lookup_cons, beq_false_of_ne h, h3, h]
    · rw [if_neg hp]
      rw [List.lookup_cons, List.lookup_cons, ih]
      by_cases h2 : x = p1
      · simp [h2, hp]
      · simp [beq_false_of_ne h2]

theorem lookup_foldl_setItem (g : ℕ → ℝ) (l : List Str) (hnd : l.Nodup) : ∀ (n : ℕ) (d : List (Str × ℝ)) (k : ℕ) (s : Str),
    l[k]? = some s → ((l.zipIdx n).foldl (fun d p => setItem d p.1 (g p.2)) d).lookup s = some (g (n + k)) := by
  induction l with
  | nil => intro n d k s h; simp at h
  | cons a r ih =>
    rw [List.nodup_cons] at hnd
    intro n d k s h
    rw [List.zipIdx_cons, List.foldl_cons]
    cases k with
    | zero =>
      simp only [List.getElem?_cons_zero, Option.some.injEq] at h
      subst h
      have hout : ∀ (m : ℕ) (d : List (Str × ℝ)), ((r.zipIdx m).foldl (fun d p => setItem d p.1 (g p.2)) d).lookup a =
          d.lookup a := by
        have hr : ∀ (r : List Str), a ∉ r → ∀ (m : ℕ) (d : List (Str × ℝ)),
            ((r.zipIdx m).foldl (fun d p => setItem d p.1 (g p.2)) d).lookup a = d.lookup a := by
          intro r
          induction r with
          | nil => intro _ m d; rfl
          | cons b r ihr =>
            intro hb m d
            rw [List.mem_cons, not_or] at hb
            rw [List.zipIdx_cons, List.foldl_cons, ihr hb.2, lookup_setItem, if_neg hb.1]
        exact hr r hnd.1
      rw [hout, lookup_setItem, if_pos rfl, Nat.add_zero]
    | succ k =>
      rw [ih hnd.2 (n + 1) _ k s (by simpa using h)]
      congr 2; omega

theorem mapM_option_some {α β : Type*} (l : List α) (f : α → Option β) (g : ℕ → β)
    (h : ∀ k a, l[k]? = some a → f a = some (g k)) : l.mapM f = some ((List.range l.length).map g) := by
  induction l generalizing g with
  | nil => rfl
  | cons a r ih =>
    rw [List.mapM_cons, h 0 a rfl, ih (fun k => g (k + 1)) (fun k b hb => h (k + 1) b (by simpa using hb))]
    simp [List.range_succ_eq_map, Function.comp_def]

end SBayes.Data
