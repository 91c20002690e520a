import Verif.Lemmas.Data
import Mathlib.Logic.Equiv.Basic
import Mathlib.Data.List.TakeWhile
/- Lemmas on files: white space and the order of rows (for Props/Data.lean). -/
namespace SBayes.Data

/-! ### strip -/

theorem dropWhile_append_all {ws : Char → Bool} {pre : Str} (h : ∀ ch ∈ pre, ws ch = true) (s : Str) :
    (pre ++ s).dropWhile ws = s.dropWhile ws := by
  induction pre with
  | nil => rfl
  | cons a r ih =>
    rw [List.cons_append, List.dropWhile_cons_of_pos (h a List.mem_cons_self)]
    exact ih (fun ch hch => h ch (List.mem_cons_of_mem _ hch))

theorem strip_append_right {ws : Char → Bool} {post : Str} (h : ∀ ch ∈ post, ws ch = true) (s : Str) :
    strip ws (s ++ post) = strip ws s := by
  unfold strip
  by_cases hs : s.dropWhile ws = []
  · have hall : ∀ ch ∈ s, ws ch = true := by
      intro ch hch
      have := List.dropWhile_eq_nil_iff.mp hs
      exact this ch hch
    rw [dropWhile_append_all hall, hs]
    have hp : post.dropWhile ws = [] := List.dropWhile_eq_nil_iff.mpr h
    rw [hp]
  · have : (s ++ post).dropWhile ws = s.dropWhile ws ++ post := by
      rw [List.dropWhile_append]
      simp [hs]
    rw [this, List.reverse_append, dropWhile_append_all]
    intro ch hch
    exact h ch (List.mem_reverse.mp hch)

theorem strip_append_left {ws : Char → Bool} {pre : Str} (h : ∀ ch ∈ pre, ws ch = true) (s : Str) :
    strip ws (pre ++ s) = strip ws s := by
  unfold strip
  rw [dropWhile_append_all h]

/-! ### Reordered rows -/

theorem lookup_map {α β γ : Type*} [BEq α] (g : β → γ) (l : List (α × β)) (x : α) :
    (l.map (fun p => (p.1, g p.2))).lookup x = (l.lookup x).map g := by
  induction l with
  | nil => rfl
  | cons p r ih =>
    obtain ⟨a, b⟩ := p
    rw [List.map_cons, List.lookup_cons, List.lookup_cons]
    cases x == a with
    | true => rfl
    | false => exact ih

/-- The columns of the table of a reordered file. -/
theorem col_reordered {ws : Char → Bool} {isNA : Str → Bool} {π : Equiv.Perm ℕ} {file file' : CsvFile}
    (h : RowsReordered π file file') (name : Str) :
    (readDataCsv ws isNA file').col name = ((readDataCsv ws isNA file).col name).map (fun c i => c (π i)) := by
  obtain ⟨_, h2, _, h4⟩ := h
  unfold Table.col
  rw [← lookup_map]
  congr 1
  simp only [readDataCsv, List.map_map, h2]
  apply List.map_congr_left
  intro p _
  simp [h4]

theorem range_map_perm (π : Equiv.Perm ℕ) (n : ℕ) (h : ∀ i, π i < n ↔ i < n) :
    ((List.range n).map π).Perm (List.range n) := by
  rw [List.perm_ext_iff_of_nodup (List.Nodup.map π.injective List.nodup_range) List.nodup_range]
  intro a
  simp only [List.mem_map, List.mem_range]
  constructor
  · rintro ⟨i, hi, rfl⟩; exact (h i).mpr hi
  · intro ha
    refine ⟨π.symm a, ?_, by simp⟩
    rw [← h]; simpa using ha

theorem countP_perm (π : Equiv.Perm ℕ) (n : ℕ) (h : ∀ i, π i < n ↔ i < n) (q : ℕ → Bool) :
    (List.range n).countP (fun i => q (π i)) = (List.range n).countP q := by
  have := (range_map_perm π n h).countP_eq q
  rw [List.countP_map] at this
  exact this

theorem exists_perm {π : Equiv.Perm ℕ} {n : ℕ} (h : ∀ i, π i < n ↔ i < n) (P : ℕ → Prop) :
    (∃ i < n, P (π i)) ↔ ∃ i < n, P i := by
  constructor
  · rintro ⟨i, hi, hp⟩; exact ⟨π i, (h i).mpr hi, hp⟩
  · rintro ⟨i, hi, hp⟩
    refine ⟨π.symm i, ?_, by simpa using hp⟩
    rw [← h]; simpa using hi

/-- The encoding with the objects in another order. -/
def Encoded.reorder (π : Equiv.Perm ℕ) (e : Encoded) : Encoded := { e with values := fun i => e.values (π i) }

def Confounder.reorder (π : Equiv.Perm ℕ) (c : Confounder) : Confounder :=
  { c with assignment := fun g i => c.assignment g (π i) }

theorem dropna_perm {π : Equiv.Perm ℕ} {n : ℕ} (h : ∀ i, π i < n ↔ i < n) (c : ℕ → Option Str) (v : Str) :
    v ∈ dropna n (fun i => c (π i)) ↔ v ∈ dropna n c := by
  rw [mem_dropna, mem_dropna]
  exact exists_perm h (fun i => c i = some v)

theorem encodeFeature_reorder {π : Equiv.Perm ℕ} {n : ℕ} (h : ∀ i, π i < n ↔ i < n) (S f : ℕ)
    (st raw : ℕ → Option Str) (e : Encoded) :
    encodeFeature n S f st (fun i => raw (π i)) (e.reorder π) = (encodeFeature n S f st raw e).map (Encoded.reorder π) := by
  unfold encodeFeature
  simp only [dropna_perm h]
  split_ifs
  · simp only [Option.map_some, Encoded.reorder, Option.some.injEq, Encoded.mk.injEq, true_and]
    congr 1
    exact countP_perm π n h (fun i => ((raw i).bind (fun v => (extToInt (dropna S st)).lookup v)).isNone)
  · rfl

theorem encodeLoop_reorder {π : Equiv.Perm ℕ} {d d' : Table} (hn : d'.nRows = d.nRows)
    (h : ∀ i, π i < d.nRows ↔ i < d.nRows)
    (hc : ∀ name, d'.col name = (d.col name).map (fun c i => c (π i))) (S : ℕ) :
    ∀ (cols : List (Str × (ℕ → Option Str))) (f : ℕ) (e : Encoded),
      encodeLoop d' S f cols (e.reorder π) = (encodeLoop d S f cols e).map (Encoded.reorder π) := by
  intro cols
  induction cols with
  | nil => intro f e; rfl
  | cons q rest ih =>
    obtain ⟨name, st⟩ := q
    intro f e
    rw [encodeLoop, encodeLoop, hc name]
    cases hcol : d.col name with
    | none => rfl
    | some raw =>
      simp only [Option.map_some, Option.bind_eq_bind, Option.bind_some]
      rw [hn, encodeFeature_reorder h]
      cases encodeFeature d.nRows S f st raw e with
      | none => rfl
      | some e1 =>
        simp only [Option.map_some, Option.bind_some]
        exact ih _ _

theorem confounder_reorder {π : Equiv.Perm ℕ} {d d' : Table} (hn : d'.nRows = d.nRows)
    (h : ∀ i, π i < d.nRows ↔ i < d.nRows)
    (hc : ∀ name, d'.col name = (d.col name).map (fun c i => c (π i))) (name : Str) (gs : Option (List Str)) :
    confounderFromDataframe d' name gs = (confounderFromDataframe d name gs).map (Confounder.reorder π) := by
  unfold confounderFromDataframe
  rw [hc name]
  cases hcol : d.col name with
  | none =>
    cases gs with
    | none => rfl
    | some gs =>
      simp only [Option.map_none]
      split_ifs <;> rfl
  | some c =>
    simp only [Option.map_some, hn]
    have hu : unique (dropna d.nRows (fun i => c (π i))) = unique (dropna d.nRows c) :=
      unique_congr (fun v => dropna_perm h c v)
    rw [hu]
    split_ifs
    · simp only [Option.map_some, Confounder.reorder, Option.some.injEq, Confounder.mk.injEq, true_and]
      funext g i
      rw [decide_eq_decide.mpr (h i)]
    · rfl

theorem mapM_reorder {π : Equiv.Perm ℕ} {d d' : Table} (hn : d'.nRows = d.nRows)
    (h : ∀ i, π i < d.nRows ↔ i < d.nRows)
    (hc : ∀ name, d'.col name = (d.col name).map (fun c i => c (π i))) (l : List (Str × Option (List Str))) :
    l.mapM (readConfounder d') =
      (l.mapM (readConfounder d)).map
        (List.map (fun p : Str × Confounder => (p.1, p.2.reorder π))) := by
  induction l with
  | nil => rfl
  | cons p r ih =>
    rw [List.mapM_cons, List.mapM_cons, ih, readConfounder, readConfounder, confounder_reorder hn h hc]
    cases confounderFromDataframe d p.1 p.2 with
    | none => rfl
    | some x =>
      cases r.mapM (readConfounder d) with
      | none => rfl
      | some y => rfl

end SBayes.Data
