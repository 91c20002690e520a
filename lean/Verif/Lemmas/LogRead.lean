import Verif.Lemmas.LogNames
/-
Reading the files back: lines and fields, names recovered from the header, columns of a data frame.
-/
namespace SBayes.Log

/-! ### Collecting second parts -/

def addNew (acc : List Str) (x : Str) : List Str := if x ∈ acc then acc else acc ++ [x]

theorem addNew_old (l acc : List Str) (h : ∀ x ∈ l, x ∈ acc) : l.foldl addNew acc = acc := by
  induction l with
  | nil => rfl
  | cons x l ih =>
    simp only [List.foldl_cons]
    rw [show addNew acc x = acc from if_pos (h x (by simp))]
    exact ih (fun y hy => h y (by simp [hy]))

theorem addNew_nodup (l acc : List Str) (hn : l.Nodup) (hd : ∀ x ∈ l, x ∉ acc) : l.foldl addNew acc = acc ++ l := by
  induction l generalizing acc with
  | nil => simp
  | cons x l ih =>
    simp only [List.foldl_cons]
    rw [show addNew acc x = acc ++ [x] from if_neg (hd x (by simp))]
    rw [List.nodup_cons] at hn
    rw [ih _ hn.2 ?_]
    · simp
    · intro y hy h
      simp only [List.mem_append, List.mem_singleton] at h
      rcases h with h | rfl
      · exact hd y (by simp [hy]) h
      · exact hn.1 hy

theorem addNew_blocks (l acc : List Str) (rep : Str → List Str) (hn : l.Nodup) (hd : ∀ x ∈ l, x ∉ acc)
    (h1 : ∀ g ∈ l, rep g ≠ []) (h2 : ∀ g ∈ l, ∀ x ∈ rep g, x = g) :
    (l.flatMap rep).foldl addNew acc = acc ++ l := by
  induction l generalizing acc with
  | nil => simp
  | cons g l ih =>
    rw [List.nodup_cons] at hn
    simp only [List.flatMap_cons, List.foldl_append]
    have : (rep g).foldl addNew acc = acc ++ [g] := by
      cases hr : rep g with
      | nil => exact absurd hr (h1 g (by simp))
      | cons x xs =>
        have hx : x = g := h2 g (by simp) x (by simp [hr])
        subst hx
        simp only [List.foldl_cons]
        rw [show addNew acc x = acc ++ [x] from if_neg (hd x (by simp))]
        exact addNew_old _ _ (fun y hy => by
          rw [h2 x (by simp) y (by simp [hr, hy])]; simp)
    rw [this, ih _ hn.2 ?_ (fun g hg => h1 g (by simp [hg])) (fun g hg => h2 g (by simp [hg]))]
    · simp
    · intro y hy h
      simp only [List.mem_append, List.mem_singleton] at h
      rcases h with h | rfl
      · exact hd y (by simp [hy]) h
      · exact hn.1 hy

theorem collect_eq (pre : Str) (skip columns : List Str) (second : Str → Str)
    (h : ∀ k ∈ columns.filter (startsWith pre), ∃ a r, split3 k = some (a, second k, r)) :
    collect pre skip columns = some ((((columns.filter (startsWith pre)).map second).filter
      (fun x => decide (x ∉ skip))).foldl addNew []) := by
  suffices H : ∀ acc : List Str, columns.foldlM (fun acc key =>
      if startsWith pre key then
        match split3 key with
        | none => none
        | some (_, x, _) => some (if x ∈ skip then acc else if x ∈ acc then acc else acc ++ [x])
      else some acc) acc = some ((((columns.filter (startsWith pre)).map second).filter
      (fun x => decide (x ∉ skip))).foldl addNew acc) from H []
  intro acc
  induction columns generalizing acc with
  | nil => rfl
  | cons k l ih =>
    simp only [List.foldlM_cons, Option.bind_eq_bind]
    by_cases hk : startsWith pre k = true
    · obtain ⟨a, r, hs⟩ := h k (by simp [hk])
      rw [if_pos hk, hs]
      simp only [Option.bind_some]
      rw [ih (fun k' hk' => h k' (by rw [List.filter_cons_of_pos hk]; exact List.mem_cons_of_mem _ hk'))]
      rw [List.filter_cons_of_pos hk, List.map_cons]
      by_cases hx : second k ∈ skip
      · rw [if_pos hx, List.filter_cons_of_neg (by simpa using hx)]
      · rw [if_neg hx, List.filter_cons_of_pos (by simpa using hx)]
        rfl
    · rw [if_neg hk]
      simp only [Option.bind_some]
      rw [ih (fun k' hk' => h k' (by rw [List.filter_cons_of_neg hk]; exact hk')), List.filter_cons_of_neg hk]

/-- Second part of a name. -/
def secondPart (k : Str) : Str := ((split3 k).map (fun x => x.2.1)).getD []

theorem secondPart_eq {a b r : Str} (ha : '_' ∉ a) (hb : '_' ∉ b) :
    secondPart (a ++ '_' :: (b ++ '_' :: r)) = b := by
  rw [secondPart, split3_eq ha hb]; rfl

theorem fs_ne {S : Schema} (hS : GoodNames S) (mk : Str → Str → Str) :
    S.features.flatMap (fun f => f.2.map (fun s => mk f.1 s)) ≠ [] := by
  cases hf : S.features with
  | nil => exact absurd hf hS.features_ne
  | cons f fs =>
    intro h
    simp only [List.flatMap_cons, List.append_eq_nil_iff, List.map_eq_nil_iff] at h
    exact hS.states_ne f (by simp [hf]) h.1

theorem clusterNames_header {S : Schema} (hS : GoodNames S) (K : ℕ) (b : Bool) :
    clusterNames (header S K b) = some ((List.range K).map aName) := by
  rw [clusterNames, collect_eq _ _ _ secondPart, filter_areal hS]
  · congr 1
    rw [List.filter_eq_self.2 (by simp), arealBlock, List.map_flatMap]
    have := addNew_blocks ((List.range K).map aName) []
      (fun a => S.features.flatMap (fun f => f.2.map (fun _ => a)))
      (List.nodup_range.map (fun i j h => aName_inj h)) (by simp) (fun g _ => fs_ne hS (fun _ _ => g)) ?_
    · rw [List.nil_append] at this
      rw [← this, List.flatMap_map]
      congr 1
      refine List.flatMap_congr (fun i _ => ?_)
      rw [List.map_flatMap]
      refine List.flatMap_congr (fun f _ => ?_)
      rw [List.map_map]
      refine List.map_congr_left (fun s _ => ?_)
      simp only [Function.comp]
      rw [arealName_eq, secondPart_eq plain_areal (aName_plain i)]
    · intro g _ x hx
      simp only [List.mem_flatMap, List.mem_map] at hx
      obtain ⟨f, _, s, _, rfl⟩ := hx
      rfl
  · rw [filter_areal hS]
    intro k hk
    simp only [arealBlock, List.mem_flatMap, List.mem_map] at hk
    obtain ⟨i, _, f, _, t, _, rfl⟩ := hk
    rw [arealName_eq, secondPart_eq plain_areal (aName_plain i), split3_eq plain_areal (aName_plain i)]
    exact ⟨_, _, rfl⟩

theorem groups_header {S : Schema} (hS : GoodNames S) (K : ℕ) (b : Bool) :
    groupsByConfounder (header S K b) = some S.confs := by
  have h1 : collect (lit "w_") [lit "areal"] (header S K b) = some (S.confs.map Prod.fst) := by
    rw [collect_eq _ _ _ secondPart, filter_w hS]
    · congr 1
      have e : ((weightBlock S).map secondPart).filter (fun x => decide (x ∉ [lit "areal"])) =
          S.features.flatMap (fun _ => S.confs.map Prod.fst) := by
        rw [weightBlock, List.map_flatMap, List.filter_flatMap]
        refine List.flatMap_congr (fun f _ => ?_)
        rw [List.map_cons, wArealName_eq, secondPart_eq plain_w plain_areal, List.filter_cons_of_neg (by simp),
          List.map_map]
        have : S.confs.map (secondPart ∘ fun c => wConfName c.1 f.1) = S.confs.map Prod.fst := by
          refine List.map_congr_left (fun c hc => ?_)
          simp only [Function.comp]
          rw [wConfName_eq, secondPart_eq plain_w (hS.conf_plain c hc)]
        rw [this, List.filter_eq_self.2]
        intro x hx
        simp only [List.mem_map] at hx
        obtain ⟨c, hc, rfl⟩ := hx
        simpa using (conf_ne hS hc).1
      rw [e]
      cases hf : S.features with
      | nil => exact absurd hf hS.features_ne
      | cons f fs =>
        rw [List.flatMap_cons, List.foldl_append, addNew_nodup _ _ hS.confs_nodup (by simp), List.nil_append]
        refine addNew_old _ _ (fun x hx => ?_)
        obtain ⟨_, _, hx⟩ := List.mem_flatMap.1 hx
        exact hx
    · rw [filter_w hS]
      intro k hk
      simp only [weightBlock, List.mem_flatMap, List.mem_cons, List.mem_map] at hk
      obtain ⟨f, _, rfl | ⟨c, hc, rfl⟩⟩ := hk
      · rw [wArealName_eq, secondPart_eq plain_w plain_areal, split3_eq plain_w plain_areal]
        exact ⟨_, _, rfl⟩
      · rw [wConfName_eq, secondPart_eq plain_w (hS.conf_plain c hc), split3_eq plain_w (hS.conf_plain c hc)]
        exact ⟨_, _, rfl⟩
  have h2 : ∀ c ∈ S.confs, collect (c.1 ++ lit "_") [] (header S K b) = some c.2 := by
    intro c hc
    have hp := hS.conf_plain c hc
    rw [collect_eq _ _ _ secondPart, filter_conf hS K b c hc]
    · congr 1
      rw [List.filter_eq_self.2 (by simp), oneConfBlock, List.map_flatMap]
      have := addNew_blocks c.2 [] (fun a => S.features.flatMap (fun f => f.2.map (fun _ => a)))
        (hS.groups_nodup c hc) (by simp) (fun g _ => fs_ne hS (fun _ _ => g)) ?_
      · rw [List.nil_append] at this
        refine Eq.trans ?_ this
        congr 1
        refine List.flatMap_congr (fun g hg => ?_)
        rw [List.map_flatMap]
        refine List.flatMap_congr (fun f _ => ?_)
        rw [List.map_map]
        refine List.map_congr_left (fun s _ => ?_)
        simp only [Function.comp]
        rw [confName_eq, secondPart_eq hp (hS.group_plain c hc g hg)]
      · intro g _ x hx
        simp only [List.mem_flatMap, List.mem_map] at hx
        obtain ⟨f, _, s, _, rfl⟩ := hx
        rfl
    · rw [filter_conf hS K b c hc]
      intro k hk
      simp only [oneConfBlock, List.mem_flatMap, List.mem_map] at hk
      obtain ⟨g, hg, f, _, t, _, rfl⟩ := hk
      rw [confName_eq, secondPart_eq hp (hS.group_plain c hc g hg), split3_eq hp (hS.group_plain c hc g hg)]
      exact ⟨_, _, rfl⟩
  rw [groupsByConfounder, h1]
  simp only
  rw [List.mapM_map]
  rw [mapM_eq S.confs _ id]
  · simp
  · intro c hc
    simp only [Function.comp]
    rw [h2 c hc]
    rfl

/-! ### Features and states -/

theorem modify_last {α : Type*} (ss : List α) (x : α) (f : α → α) :
    (ss ++ [x]).modify ss.length f = ss ++ [f x] := by
  induction ss with
  | nil => rfl
  | cons y ss ih => simpa using ih

theorem extract_states (plen : ℕ) (key : Str → Str) (f : Str) (hkey : ∀ s, (key s).drop (plen + 1) = f ++ '_' :: s)
    (hp : '_' ∉ f) (fs : List Str) (ss : List (List Str)) (hl : fs.length = ss.length) (hf : f ∉ fs)
    (states cur : List Str) :
    (states.map key).foldl (extractStep plen) (fs ++ [f], ss ++ [cur]) = (fs ++ [f], ss ++ [cur ++ states]) := by
  induction states generalizing cur with
  | nil => simp
  | cons s states ih =>
    simp only [List.map_cons, List.foldl_cons]
    have : extractStep plen (fs ++ [f], ss ++ [cur]) (key s) = (fs ++ [f], ss ++ [cur ++ [s]]) := by
      simp only [extractStep, hkey, partition2_eq hp]
      rw [if_pos (by simp)]
      simp only [Prod.mk.injEq, true_and]
      rw [List.idxOf_append_of_notMem hf, List.idxOf_cons_self, Nat.add_zero, hl]
      exact modify_last _ _ _
    rw [this, ih]
    simp

theorem extract_feature (plen : ℕ) (key : Str → Str) (f : Str) (hkey : ∀ s, (key s).drop (plen + 1) = f ++ '_' :: s)
    (hp : '_' ∉ f) (fs : List Str) (ss : List (List Str)) (hl : fs.length = ss.length) (hf : f ∉ fs)
    (states : List Str) (hs : states ≠ []) :
    (states.map key).foldl (extractStep plen) (fs, ss) = (fs ++ [f], ss ++ [states]) := by
  cases states with
  | nil => exact absurd rfl hs
  | cons s states =>
    simp only [List.map_cons, List.foldl_cons]
    have : extractStep plen (fs, ss) (key s) = (fs ++ [f], ss ++ [[s]]) := by
      simp only [extractStep, hkey, partition2_eq hp]
      rw [if_neg hf]
      simp only [Prod.mk.injEq, true_and]
      rw [List.idxOf_append_of_notMem hf, List.idxOf_cons_self, Nat.add_zero, hl]
      exact modify_last _ _ _
    rw [this, extract_states plen key f hkey hp fs ss hl hf]
    simp

theorem extract_all (plen : ℕ) (key : Str → Str → Str)
    (hkey : ∀ f s, (key f s).drop (plen + 1) = f ++ '_' :: s) (l : List (Str × List Str))
    (hn : (l.map Prod.fst).Nodup) (hp : ∀ f ∈ l, '_' ∉ f.1) (hs : ∀ f ∈ l, f.2 ≠ [])
    (fs : List Str) (ss : List (List Str)) (hl : fs.length = ss.length) (hd : ∀ f ∈ l, f.1 ∉ fs) :
    (l.flatMap (fun f => f.2.map (key f.1))).foldl (extractStep plen) (fs, ss) =
      (fs ++ l.map Prod.fst, ss ++ l.map Prod.snd) := by
  induction l generalizing fs ss with
  | nil => simp
  | cons f l ih =>
    simp only [List.map_cons, List.nodup_cons] at hn
    rw [List.flatMap_cons, List.foldl_append,
      extract_feature plen (key f.1) f.1 (hkey f.1) (hp f (by simp)) fs ss hl (hd f (by simp)) f.2 (hs f (by simp)),
      ih hn.2 (fun g hg => hp g (by simp [hg])) (fun g hg => hs g (by simp [hg])) _ _ (by simp [hl])]
    · simp
    · intro g hg h
      simp only [List.mem_append, List.mem_singleton] at h
      rcases h with h | h
      · exact hd g (by simp [hg]) h
      · exact hn.1 (h ▸ List.mem_map_of_mem hg)

theorem extract_header {S : Schema} (hS : GoodNames S) (K : ℕ) (b : Bool) (i : ℕ) (hi : i < K) :
    extractFeatures (header S K b) (lit "areal_" ++ aName i) = (S.features.map Prod.fst, S.features.map Prod.snd) := by
  have hpre : lit "areal_" ++ aName i ++ lit "_" = lit "areal" ++ '_' :: (aName i ++ ['_']) := by
    simp [lit_areal, lit_us]
  have himp : ∀ s, startsWith (lit "areal_" ++ aName i ++ lit "_") s = true → startsWith (lit "areal_") s = true := by
    intro s h
    obtain ⟨r, rfl⟩ := startsWith_iff.1 h
    exact startsWith_iff.2 ⟨aName i ++ (lit "_" ++ r), by simp⟩
  have h0 : (header S K b).filter (startsWith (lit "areal_" ++ aName i ++ lit "_")) =
      (arealBlock S K).filter (startsWith (lit "areal_" ++ aName i ++ lit "_")) := by
    rw [← filter_areal hS K b, List.filter_filter]
    congr 1
    funext s
    rw [Bool.eq_iff_iff, Bool.and_eq_true]
    exact ⟨fun h => ⟨h, himp s h⟩, fun h => h.1⟩
  rw [extractFeatures, h0, arealBlock,
    filter_flatMap_one (List.range K) aName (List.nodup_range.map (fun i j h => aName_inj h)) _ _ i (by simpa using hi)]
  · have := extract_all (lit "areal_" ++ aName i).length (arealName i) ?_ S.features hS.features_nodup
      hS.feature_plain hS.states_ne [] [] rfl (by simp)
    · simpa using this
    · intro f s
      rw [arealName_eq]
      have : lit "areal" ++ '_' :: (aName i ++ '_' :: (f ++ '_' :: s)) =
          (lit "areal_" ++ aName i ++ ['_']) ++ (f ++ '_' :: s) := by simp [lit_areal]
      rw [this]
      exact List.drop_left' (by simp only [List.length_append, List.length_singleton])
  · intro s hs
    simp only [List.mem_flatMap, List.mem_map] at hs
    obtain ⟨f, _, t, _, rfl⟩ := hs
    rw [hpre, arealName_eq, startsWith_append, ← List.singleton_append, ← List.singleton_append (l := aName i ++ _),
      startsWith_append, startsWith_tok (aName_plain i) (aName_plain i)]
    simp
  · intro j _ hne s hs
    simp only [List.mem_flatMap, List.mem_map] at hs
    obtain ⟨f, _, t, _, rfl⟩ := hs
    rw [hpre, arealName_eq, startsWith_append, ← List.singleton_append, ← List.singleton_append (l := aName j ++ _),
      startsWith_append, startsWith_tok (aName_plain i) (aName_plain j)]
    simpa using fun h : aName i = aName j => hne h.symm

/-! ### Lines and fields -/

theorem split_fileText (ls : List Str) (h : ∀ l ∈ ls, '\n' ∉ l) : (fileText ls).splitOn '\n' = ls ++ [[]] := by
  induction ls with
  | nil => simp [fileText]
  | cons l ls ih =>
    have : fileText (l :: ls) = l ++ '\n' :: fileText ls := by simp [fileText]
    rw [this, List.splitOn_append_cons_self_of_not_mem (h l (by simp)), ih (fun l hl => h l (by simp [hl]))]
    rfl

theorem split_tabJoin (fs : List Str) (h : ∀ f ∈ fs, '\t' ∉ f) (hne : fs ≠ []) : (tabJoin fs).splitOn '\t' = fs :=
  List.splitOn_intercalate '\t' h hne

theorem mem_intercalate {c : Char} {ls : List Str} {sep : Str} (h : c ∈ sep.intercalate ls) :
    c ∈ sep ∨ ∃ l ∈ ls, c ∈ l := by
  induction ls with
  | nil => simp at h
  | cons x ls ih =>
    cases ls with
    | nil => exact Or.inr ⟨x, by simp, by simpa using h⟩
    | cons y ls =>
      rw [List.intercalate_cons_cons] at h
      simp only [List.mem_append] at h
      rcases h with (h | h) | h
      · exact Or.inr ⟨x, by simp, h⟩
      · exact Or.inl h
      · rcases ih h with h | ⟨l, hl, hc⟩
        · exact Or.inl h
        · exact Or.inr ⟨l, by simp only [List.mem_cons] at hl ⊢; exact Or.inr hl, hc⟩

theorem tabJoin_no_newline {fs : List Str} (h : ∀ f ∈ fs, '\n' ∉ f) : '\n' ∉ tabJoin fs := by
  intro hm
  rcases mem_intercalate hm with hm | ⟨l, hl, hc⟩
  · revert hm; decide
  · exact h l hl hc

theorem tabJoin_length {fs : List Str} (h : 2 ≤ fs.length) : (tabJoin fs).length ≠ 0 := by
  match fs, h with
  | a :: b :: fs, _ =>
    rw [tabJoin, List.intercalate_cons_cons]
    simp

theorem readStats_written {α β : Type*} (parse : Str → EReal) (fmt : EReal → Str) (cs : List β) (name : β → Str)
    (q : α → β → EReal) (rs : List α) (hcs : 2 ≤ cs.length) (hname : ∀ c ∈ cs, '\t' ∉ name c ∧ '\n' ∉ name c)
    (hfmt : ∀ v, '\t' ∉ fmt v ∧ '\n' ∉ fmt v) :
    readStats parse (fileText (tabJoin (cs.map name) :: rs.map (fun r => tabJoin (cs.map (fun c => fmt (q r c)))))) =
      { columns := cs.map name, rows := rs.map (fun r => cs.map (fun c => parse (fmt (q r c)))) } := by
  have hne : cs.map name ≠ [] := by
    intro h
    rw [List.map_eq_nil_iff] at h
    subst h
    simp at hcs
  have hne' : ∀ r, cs.map (fun c => fmt (q r c)) ≠ [] := by
    intro r h
    rw [List.map_eq_nil_iff] at h
    subst h
    simp at hcs
  rw [readStats, split_fileText]
  · rw [List.filter_append, List.filter_eq_self.2]
    · simp only [List.headD_cons, List.drop_succ_cons, List.drop_zero, List.length_nil, ne_eq,
        not_true_eq_false, decide_false, Bool.false_eq_true, not_false_eq_true, List.filter_cons_of_neg,
        List.filter_nil, List.append_nil, List.map_map]
      rw [split_tabJoin _ _ hne]
      · congr 1
        refine List.map_congr_left (fun r _ => ?_)
        simp only [Function.comp]
        rw [split_tabJoin _ _ (hne' r), List.map_map]
        · rfl
        · intro f hf
          simp only [List.mem_map] at hf
          obtain ⟨c, _, rfl⟩ := hf
          exact (hfmt _).1
      · intro f hf
        simp only [List.mem_map] at hf
        obtain ⟨c, hc, rfl⟩ := hf
        exact (hname c hc).1
    · intro l hl
      simp only [List.mem_cons, List.mem_map] at hl
      rcases hl with rfl | ⟨r, _, rfl⟩
      · simpa using tabJoin_length (fs := cs.map name) (by simpa using hcs)
      · simpa using tabJoin_length (fs := cs.map (fun c => fmt (q r c))) (by simpa using hcs)
  · intro l hl
    simp only [List.mem_cons, List.mem_map] at hl
    rcases hl with rfl | ⟨r, _, rfl⟩
    · refine tabJoin_no_newline (fun f hf => ?_)
      simp only [List.mem_map] at hf
      obtain ⟨c, hc, rfl⟩ := hf
      exact (hname c hc).2
    · refine tabJoin_no_newline (fun f hf => ?_)
      simp only [List.mem_map] at hf
      obtain ⟨c, hc, rfl⟩ := hf
      exact (hfmt _).2

theorem frame_col {α β : Type*} (cs : List β) (name : β → Str) (q : α → β → EReal) (rs : List α)
    (hn : (cs.map name).Nodup) (c : β) (hc : c ∈ cs) :
    Frame.col { columns := cs.map name, rows := rs.map (fun r => cs.map (q r)) } (name c) =
      some (rs.map (fun r => q r c)) := by
  rw [Frame.col, if_pos (List.mem_map_of_mem hc)]
  congr 1
  simp only [List.map_map]
  refine List.map_congr_left (fun r _ => ?_)
  simp only [Function.comp]
  obtain ⟨i, hi, rfl⟩ := List.getElem_of_mem hc
  have : (cs.map name).idxOf (name cs[i]) = i := by
    have h := hn.idxOf_getElem i (by simpa using hi)
    simpa using h
  rw [this, List.getD_eq_getElem _ _ (by simpa using hi)]
  simp

/-! ### Clusters -/

theorem decode_encode (c : List Bool) : decodeCluster (encodeCluster c) = c := by
  rw [decodeCluster, encodeCluster, List.map_map]
  conv_rhs => rw [← List.map_id c]
  refine List.map_congr_left (fun b _ => ?_)
  cases b <;> rfl

theorem encode_chars {c : List Bool} {ch : Char} (h : ch ∈ encodeCluster c) : ch = '1' ∨ ch = '0' := by
  simp only [encodeCluster, List.mem_map] at h
  obtain ⟨b, _, rfl⟩ := h
  cases b <;> simp

theorem parse_format (cs : List (List Bool)) (h : cs ≠ []) : parseClusters (formatClusters cs) = cs := by
  rw [parseClusters, formatClusters, split_tabJoin]
  · rw [List.map_map]
    conv_rhs => rw [← List.map_id cs]
    exact List.map_congr_left (fun c _ => decode_encode c)
  · intro f hf
    simp only [List.mem_map] at hf
    obtain ⟨c, _, rfl⟩ := hf
    intro hm
    rcases encode_chars hm with h | h <;> exact absurd h (by decide)
  · simpa using h

theorem format_no_newline (cs : List (List Bool)) : '\n' ∉ formatClusters cs := by
  refine tabJoin_no_newline (fun f hf => ?_)
  simp only [List.mem_map] at hf
  obtain ⟨c, _, rfl⟩ := hf
  intro hm
  rcases encode_chars hm with h | h <;> exact absurd h (by decide)

theorem format_length (cs : List (List Bool)) (h : cs ≠ []) (hr : ∀ c ∈ cs, c ≠ []) :
    (formatClusters cs).length ≠ 0 := by
  match cs, h with
  | [c], _ =>
    have := hr c (by simp)
    simpa [formatClusters, tabJoin, encodeCluster] using this
  | a :: b :: cs, _ => exact tabJoin_length (by simp)

theorem appendSample_eq (K : ℕ) (pre : ℕ → List (List Bool)) (x : List (List Bool)) (hx : x.length = K) :
    appendSample ((List.range K).map pre) x = some ((List.range K).map (fun i => pre i ++ [x.getD i []])) := by
  rw [appendSample, if_pos (by simp [hx])]
  congr 1
  refine (zipIdx_map ((List.range K).map pre) [] (fun a i => match x[i]? with | some c => a ++ [c] | none => a) 0).trans ?_
  simp only [List.length_map, List.length_range, Nat.add_zero]
  refine List.map_congr_left (fun i hi => ?_)
  have hi : i < K := by simpa using hi
  rw [List.getElem?_eq_getElem (by omega), List.getD_eq_getElem _ _ (by simpa using hi),
    List.getD_eq_getElem _ _ (by omega)]
  simp

theorem foldlM_appendSample (K : ℕ) (xs : List (List (List Bool))) (hx : ∀ x ∈ xs, x.length = K)
    (pre : ℕ → List (List Bool)) :
    xs.foldlM appendSample ((List.range K).map pre) =
      some ((List.range K).map (fun i => pre i ++ xs.map (fun x => x.getD i []))) := by
  induction xs generalizing pre with
  | nil => simp
  | cons x xs ih =>
    rw [List.foldlM_cons, appendSample_eq K pre x (hx x (by simp))]
    simp only [Option.bind_eq_bind, Option.bind_some]
    rw [ih (fun x h => hx x (by simp [h]))]
    simp

theorem npArray_eq (K N : ℕ) (pre : ℕ → List (List Bool)) (m : ℕ) (hm : ∀ i < K, (pre i).length = m)
    (hN : ∀ i < K, ∀ c ∈ pre i, c.length = N) : npArray ((List.range K).map pre) = some ((List.range K).map pre) := by
  have hall : ∀ c ∈ ((List.range K).map pre).flatten, c.length = N := by
    intro c hc
    obtain ⟨l, hl, hcl⟩ := List.mem_flatten.1 hc
    obtain ⟨i, hi, rfl⟩ := List.mem_map.1 hl
    exact hN i (List.mem_range.1 hi) c hcl
  refine if_pos ⟨fun a ha => ?_, fun c hc => ?_⟩
  · obtain ⟨i, hi, rfl⟩ := List.mem_map.1 ha
    have hi := List.mem_range.1 hi
    rw [hm i hi]
    cases K with
    | zero => omega
    | succ K => rw [List.range_succ_eq_map]; exact (hm 0 (by omega)).symm
  · rw [hall c hc]
    cases hf : ((List.range K).map pre).flatten with
    | nil => rw [hf] at hc; simp at hc
    | cons b l => exact (hall b (by rw [hf]; simp)).symm

/-- The lines of a clusters file, without the conversion to an array. -/
theorem foldlM_lines (K : ℕ) (hK : 0 < K) (xs : List (List (List Bool))) (hx : ∀ x ∈ xs, x.length = K) :
    (xs.map formatClusters).foldlM (fun acc l => appendSample acc (parseClusters l)) (List.replicate K []) =
      some ((List.range K).map (fun i => xs.map (fun x => x.getD i []))) := by
  have hxne : ∀ x ∈ xs, x ≠ [] := by
    intro x h h0
    have := hx x h
    rw [h0] at this
    simp at this
    omega
  have hrep : List.replicate K ([] : List (List Bool)) = (List.range K).map (fun _ => []) := by
    simp
  rw [hrep, List.foldlM_map]
  have hfold : ∀ (l : List (List (List Bool))) (acc), (∀ x ∈ l, x ≠ []) →
      l.foldlM (fun acc x => appendSample acc (parseClusters (formatClusters x))) acc =
      l.foldlM appendSample acc := by
    intro l
    induction l with
    | nil => intro _ _; rfl
    | cons x l ih =>
      intro acc h
      rw [List.foldlM_cons, List.foldlM_cons, parse_format x (h x (by simp))]
      congr 1
      funext acc'
      exact ih acc' (fun y hy => h y (by simp [hy]))
  rw [hfold xs _ hxne, foldlM_appendSample K xs hx]
  simp

theorem readClusters_written (K : ℕ) (hK : 0 < K) (N : ℕ) (hN : 0 < N) (xs : List (List (List Bool))) (hne : xs ≠ [])
    (hx : ∀ x ∈ xs, x.length = K) (hrN : ∀ x ∈ xs, ∀ c ∈ x, c.length = N) :
    readClusters (fileText (xs.map formatClusters)) =
      some ((List.range K).map (fun i => xs.map (fun x => x.getD i []))) := by
  have hr : ∀ x ∈ xs, ∀ c ∈ x, c ≠ [] := fun x hxm c hc h0 => by
    have := hrN x hxm c hc
    rw [h0] at this
    simp at this
    omega
  have hxne : ∀ x ∈ xs, x ≠ [] := by
    intro x h h0
    have := hx x h
    rw [h0] at this
    simp at this
    omega
  rw [readClusters, split_fileText]
  · rw [List.filter_append, List.filter_eq_self.2]
    · have hn : (((xs.map formatClusters ++ [[]]).headD []).splitOn '\t').length = K := by
        cases xs with
        | nil => exact absurd rfl hne
        | cons x xs =>
          simp only [List.map_cons, List.cons_append, List.headD_cons]
          have h := congrArg List.length (parse_format x (hxne x (by simp)))
          rw [parseClusters, List.length_map] at h
          rw [h, hx x (by simp)]
      simp only [List.length_nil, ne_eq, not_true_eq_false, decide_false, Bool.false_eq_true,
        not_false_eq_true, List.filter_cons_of_neg, List.filter_nil, List.append_nil]
      rw [hn, foldlM_lines K hK xs hx, Option.bind_some]
      refine npArray_eq K N _ xs.length (fun i _ => by simp) fun i hi c hc => ?_
      obtain ⟨x, hxm, rfl⟩ := List.mem_map.1 hc
      have hl := hx x hxm
      rw [List.getD_eq_getElem _ _ (by omega)]
      exact hrN x hxm _ (List.getElem_mem _)
    · intro l hl
      simp only [List.mem_map] at hl
      obtain ⟨x, hxm, rfl⟩ := hl
      simpa using format_length x (hxne x hxm) (hr x hxm)
  · intro l hl
    simp only [List.mem_map] at hl
    obtain ⟨x, hxm, rfl⟩ := hl
    exact format_no_newline x

end SBayes.Log
