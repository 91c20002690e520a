import Verif.Spec.Data
import Mathlib.Data.List.Sort
import Mathlib.Tactic.Linarith
import Mathlib.Tactic.FieldSimp
import Mathlib.Algebra.BigOperators.Ring.Finset
import Mathlib.Algebra.BigOperators.Fin
import Mathlib.Algebra.Order.BigOperators.Group.Finset
/- Lemmas for Props/Data.lean. -/
namespace SBayes.Data

theorem lookup_dictSet (d : List (Str × ℕ)) (k : Str) (v : ℕ) (x : Str) :
    (dictSet d k v).lookup x = if x = k then some v else d.lookup x := by
  induction d with
  | nil =>
    by_cases h : x = k
    · simp [dictSet, h]
    · simp [dictSet, h, List.lookup_cons, beq_false_of_ne h]
  | cons p r ih =>
    rw [dictSet]
    by_cases hp : p.1 = k
    · rw [if_pos hp]
      by_cases h : x = k
      · simp [h]
      · have h2 : x ≠ p.1 := by rw [hp]; exact h
        obtain ⟨p1, p2⟩ := p
        have h3 : (x == p1) = false := beq_false_of_ne h2
        simp [List.lookup_cons, beq_false_of_ne h, h3, h]
    · rw [if_neg hp]
      rw [List.lookup_cons, List.lookup_cons, ih]
      by_cases h2 : x = p.1
      · have : x ≠ k := by rw [h2]; exact hp
        simp [h2, hp]
      · simp [beq_false_of_ne h2]

theorem lookup_fold_spec (l : List Str) : ∀ (n : ℕ) (d : List (Str × ℕ)) (v : Str) (k : ℕ),
    ((l.zipIdx n).foldl (fun d p => dictSet d p.1 p.2) d).lookup v = some k →
      (d.lookup v = some k ∧ v ∉ l) ∨ (n ≤ k ∧ l[k - n]? = some v) := by
  induction l with
  | nil => intro n d v k h; left; simpa using h
  | cons a r ih =>
    intro n d v k h
    rw [List.zipIdx_cons, List.foldl_cons] at h
    rcases ih _ _ _ _ h with ⟨h1, h2⟩ | ⟨h1, h2⟩
    · rw [lookup_dictSet] at h1
      by_cases hv : v = a
      · rw [if_pos hv] at h1
        right
        simp only [Option.some.injEq] at h1
        subst h1
        simp [hv]
      · rw [if_neg hv] at h1
        left
        exact ⟨h1, by simp [hv, h2]⟩
    · right
      refine ⟨by omega, ?_⟩
      have : k - n = (k - (n + 1)) + 1 := by omega
      rw [this]; simpa using h2

theorem lookup_fold_isSome (l : List Str) : ∀ (n : ℕ) (d : List (Str × ℕ)) (v : Str),
    (v ∈ l ∨ (d.lookup v).isSome) →
    (((l.zipIdx n).foldl (fun d p => dictSet d p.1 p.2) d).lookup v).isSome := by
  induction l with
  | nil => intro n d v h; simpa using h
  | cons a r ih =>
    intro n d v h
    rw [List.zipIdx_cons, List.foldl_cons]
    apply ih
    rw [lookup_dictSet]
    by_cases hv : v = a
    · right; simp [hv]
    · rw [if_neg hv]
      rcases h with h | h
      · left; simpa [hv] using h
      · right; exact h

theorem extToInt_some {l : List Str} {v : Str} {k : ℕ} (h : (extToInt l).lookup v = some k) : l[k]? = some v := by
  rcases lookup_fold_spec l 0 [] v k h with ⟨h1, _⟩ | ⟨_, h2⟩
  · simp at h1
  · simpa using h2

theorem extToInt_isSome {l : List Str} {v : Str} (h : v ∈ l) : ∃ k, (extToInt l).lookup v = some k :=
  Option.isSome_iff_exists.mp (lookup_fold_isSome l 0 [] v (Or.inl h))

theorem mem_dropna {n : ℕ} {c : ℕ → Option Str} {v : Str} : v ∈ dropna n c ↔ ∃ i < n, c i = some v := by
  simp [dropna]

theorem dropna_length_le (n : ℕ) (c : ℕ → Option Str) : (dropna n c).length ≤ n := by
  simpa [dropna] using List.length_filterMap_le c (List.range n)

/-! ### encode_states -/

/-- What one pass of the loop does. -/
theorem encodeFeature_some {n S f : ℕ} {st raw : ℕ → Option Str} {e e' : Encoded}
    (h : encodeFeature n S f st raw e = some e') :
    (∀ i < n, ∀ v, raw i = some v → ∃ s < S, st s = some v) ∧
    e'.stateNames = e.stateNames ++ [dropna S st] ∧
    (∀ s, e'.states f s = (st s).isSome) ∧
    (∀ g s, g ≠ f → e'.states g s = e.states g s) ∧
    (∀ i g s, g ≠ f → e'.values i g s = e.values i g s) ∧
    (∀ i s, raw i = none → e'.values i f s = e.values i f s) ∧
    (∀ i < n, ∀ v, raw i = some v → ∃ k < S, (dropna S st)[k]? = some v ∧ ∀ s, e'.values i f s = (s == k)) ∧
    e'.naNumber = e.naNumber + (List.range n).countP (fun i => (raw i).isNone) := by
  unfold encodeFeature at h
  dsimp only at h
  split_ifs at h with hsub
  have hsub' : ∀ i < n, ∀ v, raw i = some v → v ∈ dropna S st := fun i hi v hv =>
    hsub v (mem_dropna.mpr ⟨i, hi, hv⟩)
  simp only [Option.some.injEq] at h
  subst h
  refine ⟨?_, rfl, ?_, ?_, ?_, ?_, ?_, ?_⟩
  · intro i hi v hv
    exact mem_dropna.mp (hsub' i hi v hv)
  · intro s; simp
  · intro g s hg; simp [hg]
  · intro i g s hg; simp [hg]
  · intro i s hi; simp [hi]
  · intro i hi v hv
    obtain ⟨k, hk⟩ := extToInt_isSome (hsub' i hi v hv)
    refine ⟨k, ?_, extToInt_some hk, ?_⟩
    · have h1 := (List.getElem?_eq_some_iff.mp (extToInt_some hk)).1
      exact lt_of_lt_of_le h1 (dropna_length_le _ _)
    · intro s; simp [hv, hk]
  · dsimp only
    congr 1
    apply List.countP_congr
    intro i hi
    have hi' : i < n := List.mem_range.mp hi
    cases hr : raw i with
    | none => simp
    | some v =>
      obtain ⟨k, hk⟩ := extToInt_isSome (hsub' i hi' v hr)
      simp [hk]

theorem encodeFeature_succeeds {n S f : ℕ} {st raw : ℕ → Option Str} {e : Encoded}
    (h : ∀ i < n, ∀ v, raw i = some v → ∃ s < S, st s = some v) : ∃ e', encodeFeature n S f st raw e = some e' := by
  unfold encodeFeature
  rw [if_pos]
  · exact ⟨_, rfl⟩
  · intro v hv
    obtain ⟨i, hi, hv⟩ := mem_dropna.mp hv
    exact mem_dropna.mpr (h i hi v hv)

/-- What the loop does from feature `f` on. -/
theorem encodeLoop_some (data : Table) (S : ℕ) : ∀ (cols : List (Str × (ℕ → Option Str))) (f : ℕ) (e e' : Encoded),
    encodeLoop data S f cols e = some e' →
    (∀ p ∈ cols, ∃ c, data.col p.1 = some c ∧ ∀ i < data.nRows, ∀ v, c i = some v → ∃ s < S, p.2 s = some v) ∧
    e'.stateNames = e.stateNames ++ cols.map (fun p => dropna S p.2) ∧
    (∀ g p, cols[g]? = some p → ∀ s, e'.states (f + g) s = (p.2 s).isSome) ∧
    (∀ g s, g < f ∨ f + cols.length ≤ g → e'.states g s = e.states g s) ∧
    (∀ i g s, g < f ∨ f + cols.length ≤ g → e'.values i g s = e.values i g s) ∧
    (∀ g p, cols[g]? = some p → ∀ i s, entryOf data p.1 i = none → e'.values i (f + g) s = e.values i (f + g) s) ∧
    (∀ g p, cols[g]? = some p → ∀ i < data.nRows, ∀ v, entryOf data p.1 i = some v →
      ∃ k < S, (dropna S p.2)[k]? = some v ∧ ∀ s, e'.values i (f + g) s = (s == k)) ∧
    e'.naNumber = e.naNumber +
      (cols.map (fun p => (List.range data.nRows).countP (fun i => (entryOf data p.1 i).isNone))).sum := by
  intro cols
  induction cols with
  | nil =>
    intro f e e' h
    simp only [encodeLoop, Option.some.injEq] at h
    subst h
    simp
  | cons q rest ih =>
    obtain ⟨name, st⟩ := q
    intro f e e' h
    rw [encodeLoop] at h
    cases hc : data.col name with
    | none => simp [hc] at h
    | some raw =>
      simp only [hc, Option.bind_eq_bind, Option.bind_some] at h
      cases h1 : encodeFeature data.nRows S f st raw e with
      | none => simp [h1] at h
      | some e1 =>
        simp only [h1, Option.bind_some] at h
        obtain ⟨a1, a2, a3, a4, a5, a6, a7, a8⟩ := encodeFeature_some h1
        obtain ⟨b1, b2, b3, b4, b5, b6, b7, b8⟩ := ih _ _ _ h
        have hsays : ∀ i, entryOf data name i = raw i := fun i => by simp [entryOf, hc]
        refine ⟨?_, ?_, ?_, ?_, ?_, ?_, ?_, ?_⟩
        · intro p hp
          rcases List.mem_cons.mp hp with rfl | hp
          · exact ⟨raw, hc, a1⟩
          · exact b1 p hp
        · rw [b2, a2]; simp
        · intro g p hg s
          cases g with
          | zero =>
            simp only [List.getElem?_cons_zero, Option.some.injEq] at hg
            subst hg
            rw [Nat.add_zero, b4 f s (Or.inl (by omega)), a3]
          | succ g =>
            have := b3 g p (by simpa using hg) s
            rw [← this]; congr 1; omega
        · intro g s hg
          simp only [List.length_cons] at hg
          rw [b4 g s (by omega), a4 g s (by omega)]
        · intro i g s hg
          simp only [List.length_cons] at hg
          rw [b5 i g s (by omega), a5 i g s (by omega)]
        · intro g p hg i s hi
          cases g with
          | zero =>
            simp only [List.getElem?_cons_zero, Option.some.injEq] at hg
            subst hg
            rw [Nat.add_zero, b5 i f s (Or.inl (by omega)), a6 i s (by rw [← hsays]; exact hi)]
          | succ g =>
            have := b6 g p (by simpa using hg) i s hi
            rw [show f + (g + 1) = f + 1 + g by omega, this, a5 i _ s (by omega)]
        · intro g p hg i hi v hv
          cases g with
          | zero =>
            simp only [List.getElem?_cons_zero, Option.some.injEq] at hg
            subst hg
            obtain ⟨k, hk, hk2, hk3⟩ := a7 i hi v (by rw [← hsays]; exact hv)
            exact ⟨k, hk, hk2, fun s => by rw [Nat.add_zero, b5 i f s (Or.inl (by omega)), hk3]⟩
          | succ g =>
            obtain ⟨k, hk, hk2, hk3⟩ := b7 g p (by simpa using hg) i hi v hv
            exact ⟨k, hk, hk2, fun s => by rw [show f + (g + 1) = f + 1 + g by omega, hk3]⟩
        · rw [b8, a8, List.map_cons, List.sum_cons]
          simp only [hsays]
          omega

theorem encodeLoop_succeeds (data : Table) (S : ℕ) : ∀ (cols : List (Str × (ℕ → Option Str))) (f : ℕ) (e : Encoded),
    (∀ p ∈ cols, ∃ c, data.col p.1 = some c ∧ ∀ i < data.nRows, ∀ v, c i = some v → ∃ s < S, p.2 s = some v) →
    ∃ e', encodeLoop data S f cols e = some e' := by
  intro cols
  induction cols with
  | nil => intro f e _; exact ⟨e, rfl⟩
  | cons q rest ih =>
    obtain ⟨name, st⟩ := q
    intro f e h
    obtain ⟨raw, hc, hraw⟩ := h _ (List.mem_cons_self)
    obtain ⟨e1, h1⟩ := encodeFeature_succeeds (f := f) (e := e) hraw
    rw [encodeLoop]
    dsimp only at hc
    simp only [hc, Option.bind_eq_bind, Option.bind_some]
    rw [h1]
    exact ih _ _ (fun p hp => h p (List.mem_cons_of_mem _ hp))

/-- The list of states of a column without gaps. -/
theorem dropna_noGaps (S : ℕ) (st : ℕ → Option Str)
    (h : ∀ s s', s < s' → s' < S → (st s').isSome → (st s).isSome) :
    ∀ s, (dropna S st)[s]? = if s < S then st s else none := by
  induction S with
  | zero => intro s; simp [dropna]
  | succ S ih =>
    intro s
    have ih' := ih (fun a b hab hb => h a b hab (by omega))
    have hd : dropna (S + 1) st = dropna S st ++ (st S).toList := by
      simp only [dropna, List.range_succ, List.filterMap_append]
      congr 1
    rw [hd]
    have hlen : (st S).isSome → (dropna S st).length = S := by
      intro hS
      apply le_antisymm (dropna_length_le _ _)
      by_contra hlt
      push Not at hlt
      have h1 := ih' (dropna S st).length
      rw [if_pos hlt, List.getElem?_eq_none (le_refl _)] at h1
      have h2 := h (dropna S st).length S hlt (by omega) hS
      rw [← h1] at h2
      simp at h2
    cases hst : st S with
    | none =>
      simp only [Option.toList_none, List.append_nil]
      rw [ih']
      by_cases hs : s < S
      · simp [hs, show s < S + 1 by omega]
      · rw [if_neg hs]
        split_ifs with h2
        · have : s = S := by omega
          rw [this, hst]
        · rfl
    | some v =>
      have hl := hlen (by simp [hst])
      simp only [Option.toList_some]
      by_cases hs : s < S
      · rw [List.getElem?_append_left (by omega), ih', if_pos hs, if_pos (by omega)]
      · rw [List.getElem?_append_right (by omega), hl]
        split_ifs with h2
        · have : s = S := by omega
          subst this
          simp [hst]
        · rw [List.getElem?_eq_none]
          simp; omega

/-! ### np.unique -/

theorem mem_insertUnique {α : Type*} [LinearOrder α] (x y : α) (l : List α) :
    y ∈ insertUnique x l ↔ y = x ∨ y ∈ l := by
  induction l with
  | nil => simp [insertUnique]
  | cons z zs ih =>
    rw [insertUnique]
    split_ifs with h1 h2
    · simp
    · subst h2; simp
    · simp [ih]; tauto

theorem insertUnique_sorted {α : Type*} [LinearOrder α] (x : α) (l : List α) (h : l.Pairwise (· < ·)) :
    (insertUnique x l).Pairwise (· < ·) := by
  induction l with
  | nil => simp [insertUnique]
  | cons z zs ih =>
    rw [insertUnique]
    rw [List.pairwise_cons] at h
    split_ifs with h1 h2
    · rw [List.pairwise_cons]
      refine ⟨?_, List.pairwise_cons.mpr h⟩
      intro a ha
      rcases List.mem_cons.mp ha with rfl | ha
      · exact h1
      · exact lt_trans h1 (h.1 a ha)
    · exact List.pairwise_cons.mpr h
    · rw [List.pairwise_cons]
      refine ⟨?_, ih h.2⟩
      intro a ha
      rcases (mem_insertUnique _ _ _).mp ha with rfl | ha
      · exact lt_of_le_of_ne (not_lt.mp h1) (Ne.symm h2)
      · exact h.1 a ha

theorem mem_unique {α : Type*} [LinearOrder α] (y : α) (l : List α) : y ∈ unique l ↔ y ∈ l := by
  induction l with
  | nil => simp [unique]
  | cons a r ih =>
    have : unique (a :: r) = insertUnique a (unique r) := rfl
    rw [this, mem_insertUnique, ih]; simp

theorem unique_sorted {α : Type*} [LinearOrder α] (l : List α) : (unique l).Pairwise (· < ·) := by
  induction l with
  | nil => simp [unique]
  | cons a r ih => exact insertUnique_sorted a _ ih

theorem unique_nodup {α : Type*} [LinearOrder α] (l : List α) : (unique l).Nodup :=
  (unique_sorted l).imp (fun h => ne_of_lt h)

theorem unique_congr {α : Type*} [LinearOrder α] {l l' : List α} (h : ∀ x, x ∈ l ↔ x ∈ l') : unique l = unique l' := by
  apply List.Perm.eq_of_pairwise (le := (· < ·))
  · intro a b _ _ h1 h2; exact absurd h1 (not_lt.mpr h2.le)
  · exact unique_sorted l
  · exact unique_sorted l'
  · rw [List.perm_ext_iff_of_nodup (unique_nodup l) (unique_nodup l')]
    intro a; rw [mem_unique, mem_unique, h]

end SBayes.Data
