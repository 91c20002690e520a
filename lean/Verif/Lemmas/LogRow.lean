import Verif.Lemmas.Log
import Mathlib.Data.Finset.Card
/-
The header and the rows of the statistics file in terms of the columns of Spec/Log.lean.
-/
namespace SBayes.Log

theorem header_eq (S : Schema) (K : ℕ) (contrib : Bool) :
    header S K contrib = (allColumns S K contrib).map (Column.name S) := by
  simp only [header, allColumns, List.map_append, List.map_cons, List.map_nil, List.map_map, List.map_flatMap]
  congr 1
  · congr 1
    · congr 1
      · congr 1
        rw [flatMap_getD S.features ([], [])]
        refine List.flatMap_congr (fun f _ => ?_)
        rw [List.range_succ_eq_map, List.map_cons, List.map_map, map_getD S.confs ([], [])]
        rfl
      · refine List.flatMap_congr (fun i _ => ?_)
        rw [flatMap_getD S.features ([], [])]
        refine List.flatMap_congr (fun f _ => ?_)
        rw [map_getD _ []]
        rfl
    · rw [flatMap_getD S.confs ([], [])]
      refine List.flatMap_congr (fun c _ => ?_)
      rw [flatMap_getD _ []]
      refine List.flatMap_congr (fun g _ => ?_)
      rw [flatMap_getD S.features ([], [])]
      refine List.flatMap_congr (fun f _ => ?_)
      rw [map_getD _ []]
      rfl
  · cases contrib
    · rfl
    · simp only [if_true, List.map_flatMap]
      rfl

theorem count_range (N : ℕ) (p : ℕ → Bool) :
    (List.range N).countP p = ((Finset.range N).filter (fun j => p j = true)).card := by
  rw [List.countP_eq_length_filter]
  rw [← List.toFinset_card_of_nodup (List.nodup_range.filter _)]
  congr 1
  ext j
  simp

/-- The assignments of a row are those of the specification, up to their order. -/
theorem rowItems_perm (S : Schema) (K N : ℕ) (contrib : Bool) (perm : Option (List ℕ)) (x : Snapshot) :
    (rowItems S K N contrib perm x).Perm ((allColumns S K contrib).map
      (fun c => (Column.name S c, Column.quantity N (relabel perm) x c))) := by
  simp only [rowItems, allColumns, List.map_append, List.map_cons, List.map_nil, List.map_map, List.map_flatMap]
  refine List.Perm.append ?_ ?_
  · refine List.Perm.of_eq ?_
    congr 1
    · congr 1
      · congr 1
        · congr 1
          refine List.map_congr_left (fun i _ => ?_)
          simp only [Function.comp, Column.quantity, count_range]
          rfl
        · rw [zipIdx_flatMap S.features ([], []) (fun f i => (wArealName f.1, ((x.weights i 0 : ℝ) : EReal)) ::
            (S.confs.zipIdx 1).map (fun c => (wConfName c.1.1 f.1, ((x.weights i c.2 : ℝ) : EReal))))]
          refine List.flatMap_congr (fun f _ => ?_)
          rw [List.range_succ_eq_map, List.map_cons, List.map_map,
            zipIdx_map S.confs ([], []) (fun c j => (wConfName c.1 _, ((x.weights (f + 0) j : ℝ) : EReal)))]
          rfl
      · refine List.flatMap_congr (fun i _ => ?_)
        rw [zipIdx_flatMap S.features ([], []) (fun f k => f.2.zipIdx.map (fun s => (arealName i f.1 s.1,
          ((x.clusterEffect (relabel perm i) k s.2 : ℝ) : EReal))))]
        refine List.flatMap_congr (fun f _ => ?_)
        rw [zipIdx_map _ [] (fun s k => (arealName i _ s, ((x.clusterEffect (relabel perm i) (f + 0) k : ℝ) : EReal)))]
        rfl
    · rw [zipIdx_flatMap S.confs ([], []) (fun c ci => c.2.zipIdx.flatMap (fun g => S.features.zipIdx.flatMap (fun f =>
        f.1.2.zipIdx.map (fun s =>
          (confName c.1 g.1 f.1.1 s.1, ((x.confEffect ci g.2 f.2 s.2 : ℝ) : EReal))))))]
      refine List.flatMap_congr (fun c _ => ?_)
      rw [zipIdx_flatMap _ [] (fun g gi => S.features.zipIdx.flatMap (fun f =>
        f.1.2.zipIdx.map (fun s =>
          (confName (S.confs.getD c ([], [])).1 g f.1.1 s.1, ((x.confEffect (c + 0) gi f.2 s.2 : ℝ) : EReal)))))]
      refine List.flatMap_congr (fun g _ => ?_)
      rw [zipIdx_flatMap S.features ([], []) (fun f fi => f.2.zipIdx.map (fun s =>
          (confName (S.confs.getD c ([], [])).1 ((S.confs.getD c ([], [])).2.getD g []) f.1 s.1, ((x.confEffect (c + 0) (g + 0) fi s.2 : ℝ) : EReal))))]
      refine List.flatMap_congr (fun f _ => ?_)
      rw [zipIdx_map _ [] (fun s si => (confName (S.confs.getD c ([], [])).1 ((S.confs.getD c ([], [])).2.getD g [])
        (S.features.getD f ([], [])).1 s, ((x.confEffect (c + 0) (g + 0) (f + 0) si : ℝ) : EReal)))]
      rfl
  · cases contrib
    · exact List.Perm.refl _
    · simp only [if_true, List.map_flatMap]
      refine List.Perm.flatMap_left _ (fun i _ => ?_)
      simp only [List.map_cons, List.map_nil]
      exact (List.perm_middle (l₁ := [_, _]) (l₂ := [])).trans (List.Perm.refl _)

theorem dictGet_isSome (items : List (Str × EReal)) (k : Str) (h : k ∈ items.map Prod.fst) :
    ∃ v, dictGet items k = some v := by
  simp only [List.mem_map] at h
  obtain ⟨kv, hkv, rfl⟩ := h
  rw [dictGet]
  cases hf : items.reverse.find? (fun kv' => decide (kv'.1 = kv.1)) with
  | none =>
    rw [List.find?_eq_none] at hf
    have := hf kv (by simpa using hkv)
    simp at this
  | some v => exact ⟨v.2, rfl⟩

theorem dictGet_mem (items : List (Str × EReal)) (k : Str) (v : EReal) (h : dictGet items k = some v) :
    (k, v) ∈ items := by
  rw [dictGet, Option.map_eq_some_iff] at h
  obtain ⟨kv, hkv, rfl⟩ := h
  have h1 := List.mem_of_find?_eq_some hkv
  have h2 := List.find?_some hkv
  simp at h1 h2
  rw [← h2]
  exact h1

/-- A key assigned only once has the value it was assigned. -/
theorem dictGet_unique (items : List (Str × EReal)) (k : Str) (v : EReal) (h : (k, v) ∈ items)
    (hu : ∀ w, (k, w) ∈ items → w = v) : dictGet items k = some v := by
  obtain ⟨w, hw⟩ := dictGet_isSome items k (List.mem_map.2 ⟨_, h, rfl⟩)
  rw [hw, hu w (dictGet_mem _ _ _ hw)]

theorem mapM_some {α β : Type*} (l : List α) (g : α → Option β) (h : ∀ a ∈ l, ∃ b, g a = some b) :
    ∃ bs, l.mapM g = some bs ∧ bs.length = l.length := by
  induction l with
  | nil => exact ⟨[], rfl, rfl⟩
  | cons a l ih =>
    obtain ⟨b, hb⟩ := h a (by simp)
    obtain ⟨bs, hbs, hl⟩ := ih (fun a ha => h a (by simp [ha]))
    exact ⟨b :: bs, by simp [List.mapM_cons, hb, hbs], by simp [hl]⟩

theorem mapM_eq {α β : Type*} (l : List α) (g : α → Option β) (f : α → β) (h : ∀ a ∈ l, g a = some (f a)) :
    l.mapM g = some (l.map f) := by
  induction l with
  | nil => rfl
  | cons a l ih => simp [List.mapM_cons, h a (by simp), ih (fun a ha => h a (by simp [ha]))]

theorem mapM_getElem {α β : Type*} (l : List α) (g : α → Option β) (bs : List β) (h : l.mapM g = some bs) :
    ∀ (i : ℕ) (hi : i < l.length), ∃ b, bs[i]? = some b ∧ g l[i] = some b := by
  induction l generalizing bs with
  | nil => intro i hi; simp at hi
  | cons a l ih =>
    simp only [List.mapM_cons, Option.bind_eq_bind, Option.bind_eq_some_iff, Option.pure_def,
      Option.some.injEq] at h
    obtain ⟨b, hb, bs', hbs', rfl⟩ := h
    intro i hi
    cases i with
    | zero => exact ⟨b, rfl, hb⟩
    | succ i => exact ih bs' hbs' i (by simpa using hi)

end SBayes.Log
