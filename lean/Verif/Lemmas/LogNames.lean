import Verif.Lemmas.LogRow
/-
Column names: what their first parts are, that they are distinct, and what the readers of results.py get from them.
-/
namespace SBayes.Log

/-! ### Strings with underscores -/

theorem cancel {a b r t : Str} (ha : '_' ∉ a) (hb : '_' ∉ b) (h : a ++ '_' :: r = b ++ '_' :: t) :
    a = b ∧ r = t := by
  induction a generalizing b with
  | nil =>
    cases b with
    | nil => exact ⟨rfl, by simpa using h⟩
    | cons y b => simp at h; exact absurd h.1 (by rintro rfl; simp at hb)
  | cons x a ih =>
    cases b with
    | nil => simp at h; exact absurd h.1.symm (by rintro rfl; simp at ha)
    | cons y b =>
      simp at h ha hb
      obtain ⟨rfl, h⟩ := h
      obtain ⟨rfl, h'⟩ := ih ha.2 hb.2 h
      exact ⟨rfl, h'⟩

theorem startsWith_iff {pre s : Str} : startsWith pre s = true ↔ ∃ r, s = pre ++ r := by
  rw [startsWith, List.isPrefixOf_iff_prefix]
  exact ⟨fun ⟨r, h⟩ => ⟨r, h.symm⟩, fun ⟨r, h⟩ => ⟨r, h.symm⟩⟩

/-- `(c ++ "_")` is a prefix of a name with first part `d` exactly if `c = d`. -/
theorem startsWith_tok {c d r : Str} (hc : '_' ∉ c) (hd : '_' ∉ d) :
    startsWith (c ++ ['_']) (d ++ '_' :: r) = decide (c = d) := by
  rw [Bool.eq_iff_iff, startsWith_iff, decide_eq_true_iff]
  constructor
  · rintro ⟨t, h⟩
    exact (cancel hd hc (by simpa using h)).1.symm
  · rintro rfl
    exact ⟨r, by simp⟩

theorem startsWith_plain {c s : Str} (hs : '_' ∉ s) : startsWith (c ++ ['_']) s = false := by
  rw [Bool.eq_false_iff]
  intro h
  obtain ⟨r, rfl⟩ := startsWith_iff.1 h
  simp at hs

theorem startsWith_append {c x y : Str} : startsWith (c ++ x) (c ++ y) = startsWith x y := by
  rw [Bool.eq_iff_iff, startsWith_iff, startsWith_iff]
  simp

theorem takeWhile_tok {a r : Str} (ha : '_' ∉ a) : (a ++ '_' :: r).takeWhile (fun ch => ch != '_') = a := by
  induction a with
  | nil => simp
  | cons x a ih =>
    simp at ha
    simp [ih ha.2, Ne.symm ha.1]

theorem dropWhile_tok {a r : Str} (ha : '_' ∉ a) : (a ++ '_' :: r).dropWhile (fun ch => ch != '_') = '_' :: r := by
  induction a with
  | nil => simp
  | cons x a ih =>
    simp at ha
    simp [ih ha.2, Ne.symm ha.1]

theorem split3_eq {a b r : Str} (ha : '_' ∉ a) (hb : '_' ∉ b) :
    split3 (a ++ '_' :: (b ++ '_' :: r)) = some (a, b, r) := by
  rw [split3, dropWhile_tok ha]
  simp only
  rw [dropWhile_tok hb]
  simp only
  rw [takeWhile_tok ha, takeWhile_tok hb]

theorem partition2_eq {a r : Str} (ha : '_' ∉ a) : partition2 (a ++ '_' :: r) = (a, r) := by
  rw [partition2, takeWhile_tok ha, dropWhile_tok ha]
  rfl

theorem num_plain (n : ℕ) : '_' ∉ num n := Nat.underscore_not_in_toDigits

theorem num_inj {m n : ℕ} (h : num m = num n) : m = n := by
  rw [← Nat.ofDigitChars_ten_toDigits (n := m), ← Nat.ofDigitChars_ten_toDigits (n := n)]
  exact congrArg (fun l => Nat.ofDigitChars 10 l 0) h

/-! ### The shape of each name -/

/-- Name of the `i`-th areal effect in the columns: `a1`, `a2`, ... -/
def aName (i : ℕ) : Str := 'a' :: num (i + 1)

theorem aName_plain (i : ℕ) : '_' ∉ aName i := by
  simp only [aName, List.mem_cons, not_or]
  exact ⟨by decide, num_plain _⟩

theorem aName_inj {i j : ℕ} (h : aName i = aName j) : i = j := by
  simp only [aName, List.cons.injEq, true_and] at h
  have := num_inj h
  omega

theorem lit_us : lit "_" = ['_'] := rfl
theorem lit_w : lit "w_" = lit "w" ++ ['_'] := by decide
theorem lit_size : lit "size_a" = lit "size" ++ ['_', 'a'] := by decide
theorem lit_post : lit "post_a" = lit "post" ++ ['_', 'a'] := by decide
theorem lit_lh : lit "lh_a" = lit "lh" ++ ['_', 'a'] := by decide
theorem lit_prior : lit "prior_a" = lit "prior" ++ ['_', 'a'] := by decide
theorem lit_wareal : lit "w_areal_" = lit "w" ++ ('_' :: (lit "areal" ++ ['_'])) := by decide
theorem lit_areala : lit "areal_a" = lit "areal" ++ ['_', 'a'] := by decide
theorem lit_areal : lit "areal_" = lit "areal" ++ ['_'] := by decide

theorem sizeName_eq (i : ℕ) : sizeName i = lit "size" ++ '_' :: ('a' :: num i) := by
  simp only [sizeName, lit_size, List.append_assoc, List.cons_append, List.nil_append]
theorem wArealName_eq (f : Str) : wArealName f = lit "w" ++ '_' :: (lit "areal" ++ '_' :: f) := by
  simp only [wArealName, lit_wareal, List.append_assoc, List.cons_append, List.nil_append]
theorem wConfName_eq (c f : Str) : wConfName c f = lit "w" ++ '_' :: (c ++ '_' :: f) := by
  simp only [wConfName, lit_w, lit_us, List.append_assoc, List.cons_append, List.nil_append]
theorem arealName_eq (i : ℕ) (f s : Str) :
    arealName i f s = lit "areal" ++ '_' :: (aName i ++ '_' :: (f ++ '_' :: s)) := by
  simp only [arealName, aName, lit_areala, lit_us, List.append_assoc, List.cons_append, List.nil_append]
theorem confName_eq (c g f s : Str) : confName c g f s = c ++ '_' :: (g ++ '_' :: (f ++ '_' :: s)) := by
  simp only [confName, lit_us, List.append_assoc, List.cons_append, List.nil_append]
theorem postName_eq (i : ℕ) : postName i = lit "post" ++ '_' :: ('a' :: num i) := by
  simp only [postName, lit_post, List.append_assoc, List.cons_append, List.nil_append]
theorem lhName_eq (i : ℕ) : lhName i = lit "lh" ++ '_' :: ('a' :: num i) := by
  simp only [lhName, lit_lh, List.append_assoc, List.cons_append, List.nil_append]
theorem priorName_eq (i : ℕ) : priorName i = lit "prior" ++ '_' :: ('a' :: num i) := by
  simp only [priorName, lit_prior, List.append_assoc, List.cons_append, List.nil_append]

theorem plain_size : '_' ∉ lit "size" := by decide
theorem plain_w : '_' ∉ lit "w" := by decide
theorem plain_areal : '_' ∉ lit "areal" := by decide
theorem plain_post : '_' ∉ lit "post" := by decide
theorem plain_lh : '_' ∉ lit "lh" := by decide
theorem plain_prior : '_' ∉ lit "prior" := by decide

/-! ### Blocks of the header -/

def fixedBlock : List Str := [lit "Sample", lit "posterior", lit "likelihood", lit "prior"]
def sizeBlock (K : ℕ) : List Str := (List.range K).map sizeName
def weightBlock (S : Schema) : List Str :=
  S.features.flatMap (fun f => wArealName f.1 :: S.confs.map (fun c => wConfName c.1 f.1))
def arealBlock (S : Schema) (K : ℕ) : List Str :=
  (List.range K).flatMap (fun a => S.features.flatMap (fun f => f.2.map (fun s => arealName a f.1 s)))
def confBlock (S : Schema) : List Str :=
  S.confs.flatMap (fun c => c.2.flatMap (fun g => S.features.flatMap (fun f =>
    f.2.map (fun s => confName c.1 g f.1 s))))
def contribBlock (K : ℕ) (contrib : Bool) : List Str :=
  if contrib then (List.range K).flatMap (fun i => [postName i, lhName i, priorName i]) else []

theorem header_blocks (S : Schema) (K : ℕ) (contrib : Bool) : header S K contrib =
    fixedBlock ++ sizeBlock K ++ weightBlock S ++ arealBlock S K ++ confBlock S ++ contribBlock K contrib := rfl

theorem fixed_plain : ∀ s ∈ fixedBlock, '_' ∉ s := by decide

theorem size_form {K : ℕ} {s : Str} (h : s ∈ sizeBlock K) : ∃ r, s = lit "size" ++ '_' :: r := by
  simp only [sizeBlock, List.mem_map] at h
  obtain ⟨i, _, rfl⟩ := h
  exact ⟨_, sizeName_eq i⟩

theorem weight_form {S : Schema} {s : Str} (h : s ∈ weightBlock S) : ∃ r, s = lit "w" ++ '_' :: r := by
  simp only [weightBlock, List.mem_flatMap, List.mem_cons, List.mem_map] at h
  obtain ⟨f, _, rfl | ⟨c, _, rfl⟩⟩ := h
  · exact ⟨_, wArealName_eq _⟩
  · exact ⟨_, wConfName_eq _ _⟩

theorem areal_form {S : Schema} {K : ℕ} {s : Str} (h : s ∈ arealBlock S K) : ∃ r, s = lit "areal" ++ '_' :: r := by
  simp only [arealBlock, List.mem_flatMap, List.mem_map] at h
  obtain ⟨i, _, f, _, t, _, rfl⟩ := h
  exact ⟨_, arealName_eq _ _ _⟩

theorem conf_form {S : Schema} {s : Str} (h : s ∈ confBlock S) : ∃ c ∈ S.confs, ∃ r, s = c.1 ++ '_' :: r := by
  simp only [confBlock, List.mem_flatMap, List.mem_map] at h
  obtain ⟨c, hc, g, _, f, _, t, _, rfl⟩ := h
  exact ⟨c, hc, _, confName_eq _ _ _ _⟩

theorem contrib_form {K : ℕ} {b : Bool} {s : Str} (h : s ∈ contribBlock K b) :
    ∃ d ∈ [lit "post", lit "lh", lit "prior"], ∃ r, s = d ++ '_' :: r := by
  cases b with
  | false => simp [contribBlock] at h
  | true =>
    simp only [contribBlock, if_true, List.mem_flatMap, List.mem_cons, List.not_mem_nil, or_false] at h
    obtain ⟨i, _, rfl | rfl | rfl⟩ := h
    · exact ⟨_, by simp, _, postName_eq i⟩
    · exact ⟨_, by simp, _, lhName_eq i⟩
    · exact ⟨_, by simp, _, priorName_eq i⟩

theorem filter_false {α : Type*} {l : List α} {p : α → Bool} (h : ∀ a ∈ l, p a = false) : l.filter p = [] := by
  rw [List.filter_eq_nil_iff]
  intro a ha
  simp [h a ha]

theorem filter_true {α : Type*} {l : List α} {p : α → Bool} (h : ∀ a ∈ l, p a = true) : l.filter p = l :=
  List.filter_eq_self.2 h

variable {S : Schema} (hS : GoodNames S)
include hS

theorem conf_ne {c : Str × List Str} (hc : c ∈ S.confs) : c.1 ≠ lit "areal" ∧ c.1 ≠ lit "w" ∧ c.1 ≠ lit "size" ∧
    c.1 ≠ lit "post" ∧ c.1 ≠ lit "lh" ∧ c.1 ≠ lit "prior" := by
  have := hS.conf_free c hc
  simpa only [List.mem_cons, List.not_mem_nil, or_false, not_or, ne_eq, lit] using this

theorem filter_w (K : ℕ) (b : Bool) : (header S K b).filter (startsWith (lit "w_")) = weightBlock S := by
  rw [header_blocks]
  simp only [List.filter_append]
  rw [lit_w]
  rw [filter_false (l := fixedBlock) (fun s hs => startsWith_plain (fixed_plain s hs)),
    filter_false (l := sizeBlock K), filter_true (l := weightBlock S), filter_false (l := arealBlock S K),
    filter_false (l := confBlock S), filter_false (l := contribBlock K b)]
  · simp
  · intro s hs
    obtain ⟨d, hd, r, rfl⟩ := contrib_form hs
    simp only [List.mem_cons, List.not_mem_nil, or_false] at hd
    rcases hd with rfl | rfl | rfl
    · rw [startsWith_tok plain_w plain_post]; decide
    · rw [startsWith_tok plain_w plain_lh]; decide
    · rw [startsWith_tok plain_w plain_prior]; decide
  · intro s hs
    obtain ⟨c, hc, r, rfl⟩ := conf_form hs
    rw [startsWith_tok plain_w (hS.conf_plain c hc), decide_eq_false_iff_not]
    exact fun h => (conf_ne hS hc).2.1 h.symm
  · intro s hs
    obtain ⟨r, rfl⟩ := areal_form hs
    rw [startsWith_tok plain_w plain_areal]; decide
  · intro s hs
    obtain ⟨r, rfl⟩ := weight_form hs
    rw [startsWith_tok plain_w plain_w]; decide
  · intro s hs
    obtain ⟨r, rfl⟩ := size_form hs
    rw [startsWith_tok plain_w plain_size]; decide

theorem filter_areal (K : ℕ) (b : Bool) : (header S K b).filter (startsWith (lit "areal_")) = arealBlock S K := by
  rw [header_blocks]
  simp only [List.filter_append]
  rw [lit_areal]
  rw [filter_false (l := fixedBlock) (fun s hs => startsWith_plain (fixed_plain s hs)),
    filter_false (l := sizeBlock K), filter_false (l := weightBlock S), filter_true (l := arealBlock S K),
    filter_false (l := confBlock S), filter_false (l := contribBlock K b)]
  · simp
  · intro s hs
    obtain ⟨d, hd, r, rfl⟩ := contrib_form hs
    simp only [List.mem_cons, List.not_mem_nil, or_false] at hd
    rcases hd with rfl | rfl | rfl
    · rw [startsWith_tok plain_areal plain_post]; decide
    · rw [startsWith_tok plain_areal plain_lh]; decide
    · rw [startsWith_tok plain_areal plain_prior]; decide
  · intro s hs
    obtain ⟨c, hc, r, rfl⟩ := conf_form hs
    rw [startsWith_tok plain_areal (hS.conf_plain c hc), decide_eq_false_iff_not]
    exact fun h => (conf_ne hS hc).1 h.symm
  · intro s hs
    obtain ⟨r, rfl⟩ := areal_form hs
    rw [startsWith_tok plain_areal plain_areal]; decide
  · intro s hs
    obtain ⟨r, rfl⟩ := weight_form hs
    rw [startsWith_tok plain_areal plain_w]; decide
  · intro s hs
    obtain ⟨r, rfl⟩ := size_form hs
    rw [startsWith_tok plain_areal plain_size]; decide

/-- Columns of one confounder. -/
def oneConfBlock (S : Schema) (c : Str × List Str) : List Str :=
  c.2.flatMap (fun g => S.features.flatMap (fun f => f.2.map (fun s => confName c.1 g f.1 s)))

omit hS in
theorem confBlock_eq : confBlock S = S.confs.flatMap (oneConfBlock S) := rfl

omit hS in
theorem oneConf_form {c : Str × List Str} {s : Str} (h : s ∈ oneConfBlock S c) : ∃ r, s = c.1 ++ '_' :: r := by
  simp only [oneConfBlock, List.mem_flatMap, List.mem_map] at h
  obtain ⟨g, _, f, _, t, _, rfl⟩ := h
  exact ⟨_, confName_eq _ _ _ _⟩

omit hS in
theorem filter_flatMap_one {α β : Type*} (l : List α) (key : α → Str) (hn : (l.map key).Nodup) (g : α → List β)
    (p : β → Bool) (a : α) (ha : a ∈ l) (h1 : ∀ b ∈ g a, p b = true)
    (h0 : ∀ a' ∈ l, key a' ≠ key a → ∀ b ∈ g a', p b = false) :
    (l.flatMap g).filter p = g a := by
  induction l with
  | nil => simp at ha
  | cons x l ih =>
    simp only [List.map_cons, List.nodup_cons, List.mem_map, not_exists, not_and] at hn
    simp only [List.flatMap_cons, List.filter_append]
    rcases List.mem_cons.1 ha with rfl | ha'
    · rw [filter_true h1, filter_false (l := l.flatMap g), List.append_nil]
      intro b hb
      obtain ⟨a', ha', hb⟩ := List.mem_flatMap.1 hb
      exact h0 a' (by simp [ha']) (hn.1 a' ha') b hb
    · rw [filter_false (l := g x), List.nil_append]
      · exact ih hn.2 ha' (fun a' h => h0 a' (by simp [h]))
      · intro b hb
        exact h0 x (by simp) (fun h => hn.1 a ha' h.symm) b hb

theorem filter_conf (K : ℕ) (b : Bool) (c : Str × List Str) (hc : c ∈ S.confs) :
    (header S K b).filter (startsWith (c.1 ++ lit "_")) = oneConfBlock S c := by
  have hp := hS.conf_plain c hc
  obtain ⟨n1, n2, n3, n4, n5, n6⟩ := conf_ne hS hc
  rw [header_blocks]
  simp only [List.filter_append]
  rw [lit_us]
  rw [filter_false (l := fixedBlock) (fun s hs => startsWith_plain (fixed_plain s hs)),
    filter_false (l := sizeBlock K), filter_false (l := weightBlock S), filter_false (l := arealBlock S K),
    filter_false (l := contribBlock K b), confBlock_eq,
    filter_flatMap_one S.confs Prod.fst hS.confs_nodup (oneConfBlock S) _ c hc]
  · simp
  · intro s hs
    obtain ⟨r, rfl⟩ := oneConf_form hs
    rw [startsWith_tok hp hp]; simp
  · intro c' hc' hne s hs
    obtain ⟨r, rfl⟩ := oneConf_form hs
    rw [startsWith_tok hp (hS.conf_plain c' hc'), decide_eq_false_iff_not]
    exact fun h => hne h.symm
  · intro s hs
    obtain ⟨d, hd, r, rfl⟩ := contrib_form hs
    simp only [List.mem_cons, List.not_mem_nil, or_false] at hd
    rcases hd with rfl | rfl | rfl
    · rw [startsWith_tok hp plain_post]; simpa using n4
    · rw [startsWith_tok hp plain_lh]; simpa using n5
    · rw [startsWith_tok hp plain_prior]; simpa using n6
  · intro s hs
    obtain ⟨r, rfl⟩ := areal_form hs
    rw [startsWith_tok hp plain_areal]; simpa using n1
  · intro s hs
    obtain ⟨r, rfl⟩ := weight_form hs
    rw [startsWith_tok hp plain_w]; simpa using n2
  · intro s hs
    obtain ⟨r, rfl⟩ := size_form hs
    rw [startsWith_tok hp plain_size]; simpa using n3

/-! ### Distinct names -/

omit hS in
theorem plain_ne {a b r : Str} (ha : '_' ∉ a) : a ≠ b ++ '_' :: r := by
  rintro rfl
  simp at ha

theorem fs_nodup (mk : Str → Str → Str)
    (hmk : ∀ f s, ∀ f' s', mk f s = mk f' s' → f ++ '_' :: s = f' ++ '_' :: s') :
    (S.features.flatMap (fun f => f.2.map (fun s => mk f.1 s))).Nodup := by
  rw [List.nodup_flatMap]
  constructor
  · intro f hf
    refine (hS.states_nodup f hf).map_on ?_
    intro s _ s' _ h
    have := hmk _ _ _ _ h
    simpa using this
  · have := hS.features_nodup
    rw [List.Nodup, List.pairwise_map] at this
    refine this.imp_of_mem ?_
    intro f f' hf hf' hne x hx hx'
    simp only [List.mem_map] at hx hx'
    obtain ⟨s, _, rfl⟩ := hx
    obtain ⟨s', _, h⟩ := hx'
    exact hne (cancel (hS.feature_plain f' hf') (hS.feature_plain f hf) (hmk _ _ _ _ h)).1.symm

theorem header_nodup (K : ℕ) (b : Bool) : (header S K b).Nodup := by
  rw [header_blocks]
  have dis : ∀ {A B : List Str}, (∀ s ∈ A, ∀ t ∈ B, s ≠ t) → List.Disjoint A B := by
    intro A B h s hs ht
    exact h s hs s ht rfl
  have tokne : ∀ {d e r t : Str}, '_' ∉ d → '_' ∉ e → d ≠ e → d ++ '_' :: r ≠ e ++ '_' :: t := by
    intro d e r t hd he hne h
    exact hne (cancel hd he h).1
  -- individual blocks
  have nF : fixedBlock.Nodup := by decide
  have nS : (sizeBlock K).Nodup := by
    refine List.nodup_range.map ?_
    intro i j h
    rw [sizeName_eq, sizeName_eq] at h
    have h := (cancel plain_size plain_size h).2
    exact num_inj (by simpa using h)
  have nW : (weightBlock S).Nodup := by
    rw [weightBlock, List.nodup_flatMap]
    have key : ∀ {c c' f f' : Str}, '_' ∉ c → '_' ∉ c' →
        lit "w" ++ '_' :: (c ++ '_' :: f) = lit "w" ++ '_' :: (c' ++ '_' :: f') → c = c' ∧ f = f' := by
      intro c c' f f' hc hc' h
      exact cancel hc hc' (cancel plain_w plain_w h).2
    constructor
    · intro f hf
      rw [List.nodup_cons]
      constructor
      · simp only [List.mem_map, not_exists, not_and]
        intro c hc h
        rw [wConfName_eq, wArealName_eq] at h
        exact (conf_ne hS hc).1 (key (hS.conf_plain c hc) plain_areal h).1
      · have := hS.confs_nodup
        rw [List.Nodup, List.pairwise_map] at this ⊢
        refine this.imp_of_mem ?_
        intro c c' hc hc' hne h
        rw [wConfName_eq, wConfName_eq] at h
        exact hne (key (hS.conf_plain c hc) (hS.conf_plain c' hc') h).1
    · have := hS.features_nodup
      rw [List.Nodup, List.pairwise_map] at this
      refine this.imp ?_
      intro f f' hne x hx hx'
      have hform : ∀ {g : Str × List Str}, x ∈ (wArealName g.1 :: S.confs.map (fun c => wConfName c.1 g.1)) →
          ∃ c, '_' ∉ c ∧ x = lit "w" ++ '_' :: (c ++ '_' :: g.1) := by
        intro g hg
        simp only [List.mem_cons, List.mem_map] at hg
        rcases hg with rfl | ⟨c, hc, rfl⟩
        · exact ⟨_, plain_areal, wArealName_eq _⟩
        · exact ⟨_, hS.conf_plain c hc, wConfName_eq _ _⟩
      obtain ⟨c, hc, h⟩ := hform hx
      obtain ⟨c', hc', h'⟩ := hform hx'
      exact hne (key hc hc' (h.symm.trans h')).2
  have nA : (arealBlock S K).Nodup := by
    rw [arealBlock, List.nodup_flatMap]
    constructor
    · intro i _
      refine fs_nodup hS _ ?_
      intro f s f' s' h
      rw [arealName_eq, arealName_eq] at h
      exact (cancel (aName_plain i) (aName_plain i) (cancel plain_areal plain_areal h).2).2
    · refine List.nodup_range.imp ?_
      intro i j hne x hx hx'
      simp only [List.mem_flatMap, List.mem_map] at hx hx'
      obtain ⟨f, _, s, _, rfl⟩ := hx
      obtain ⟨f', _, s', _, h⟩ := hx'
      rw [arealName_eq, arealName_eq] at h
      exact hne (aName_inj (cancel (aName_plain j) (aName_plain i) (cancel plain_areal plain_areal h).2).1.symm)
  have nC : (confBlock S).Nodup := by
    rw [confBlock_eq, List.nodup_flatMap]
    constructor
    · intro c hc
      have hp := hS.conf_plain c hc
      rw [oneConfBlock, List.nodup_flatMap]
      constructor
      · intro g hg
        have hq := hS.group_plain c hc g hg
        refine fs_nodup hS _ ?_
        intro f s f' s' h
        rw [confName_eq, confName_eq] at h
        exact (cancel hq hq (cancel hp hp h).2).2
      · refine (hS.groups_nodup c hc).imp_of_mem ?_
        intro g g' hg hg' hne x hx hx'
        simp only [List.mem_flatMap, List.mem_map] at hx hx'
        obtain ⟨f, _, s, _, rfl⟩ := hx
        obtain ⟨f', _, s', _, h⟩ := hx'
        rw [confName_eq, confName_eq] at h
        exact hne (cancel (hS.group_plain c hc g' hg') (hS.group_plain c hc g hg) (cancel hp hp h).2).1.symm
    · have := hS.confs_nodup
      rw [List.Nodup, List.pairwise_map] at this
      refine this.imp_of_mem ?_
      intro c c' hc hc' hne x hx hx'
      obtain ⟨r, rfl⟩ := oneConf_form hx
      obtain ⟨r', h⟩ := oneConf_form hx'
      exact hne (cancel (hS.conf_plain c hc) (hS.conf_plain c' hc') h).1
  have nP : (contribBlock K b).Nodup := by
    cases b with
    | false => simp [contribBlock]
    | true =>
      simp only [contribBlock, if_true]
      rw [List.nodup_flatMap]
      constructor
      · intro i _
        simp only [List.nodup_cons, List.mem_cons, List.not_mem_nil, or_false, not_or, not_false_eq_true,
          List.nodup_nil, and_true]
        exact ⟨⟨tokne plain_post plain_lh (by decide), tokne plain_post plain_prior (by decide)⟩,
          tokne plain_lh plain_prior (by decide)⟩
      · refine List.nodup_range.imp ?_
        intro i j hne x hx hx'
        have hform : ∀ k, x ∈ [postName k, lhName k, priorName k] →
            ∃ d, '_' ∉ d ∧ x = d ++ '_' :: ('a' :: num k) := by
          intro k hk
          simp only [List.mem_cons, List.not_mem_nil, or_false] at hk
          rcases hk with rfl | rfl | rfl
          · exact ⟨_, plain_post, postName_eq k⟩
          · exact ⟨_, plain_lh, lhName_eq k⟩
          · exact ⟨_, plain_prior, priorName_eq k⟩
        obtain ⟨d, hd, h⟩ := hform i hx
        obtain ⟨d', hd', h'⟩ := hform j hx'
        have := (cancel hd hd' (h.symm.trans h')).2
        exact hne (num_inj (by simpa using this))
  have dplain : ∀ {d : Str}, d ∈ [lit "post", lit "lh", lit "prior"] → '_' ∉ d := by
    intro d hd
    simp only [List.mem_cons, List.not_mem_nil, or_false] at hd
    rcases hd with rfl | rfl | rfl
    exacts [plain_post, plain_lh, plain_prior]
  rw [List.nodup_append', List.nodup_append', List.nodup_append', List.nodup_append', List.nodup_append']
  refine ⟨⟨⟨⟨⟨nF, nS, dis ?_⟩, nW, dis ?_⟩, nA, dis ?_⟩, nC, dis ?_⟩, nP, dis ?_⟩
  · intro s hs t ht
    obtain ⟨r, rfl⟩ := size_form ht
    exact plain_ne (fixed_plain s hs)
  · intro s hs t ht
    obtain ⟨r, rfl⟩ := weight_form ht
    rcases List.mem_append.1 hs with hs | hs
    · exact plain_ne (fixed_plain s hs)
    · obtain ⟨q, rfl⟩ := size_form hs
      exact tokne plain_size plain_w (by decide)
  · intro s hs t ht
    obtain ⟨r, rfl⟩ := areal_form ht
    simp only [List.mem_append] at hs
    rcases hs with (hs | hs) | hs
    · exact plain_ne (fixed_plain s hs)
    · obtain ⟨q, rfl⟩ := size_form hs
      exact tokne plain_size plain_areal (by decide)
    · obtain ⟨q, rfl⟩ := weight_form hs
      exact tokne plain_w plain_areal (by decide)
  · intro s hs t ht
    obtain ⟨c, hc, r, rfl⟩ := conf_form ht
    have hp := hS.conf_plain c hc
    obtain ⟨n1, n2, n3, n4, n5, n6⟩ := conf_ne hS hc
    simp only [List.mem_append] at hs
    rcases hs with ((hs | hs) | hs) | hs
    · exact plain_ne (fixed_plain s hs)
    · obtain ⟨q, rfl⟩ := size_form hs
      exact tokne plain_size hp n3.symm
    · obtain ⟨q, rfl⟩ := weight_form hs
      exact tokne plain_w hp n2.symm
    · obtain ⟨q, rfl⟩ := areal_form hs
      exact tokne plain_areal hp n1.symm
  · intro s hs t ht
    obtain ⟨d, hd, r, rfl⟩ := contrib_form ht
    have hdp := dplain hd
    simp only [List.mem_append] at hs
    rcases hs with (((hs | hs) | hs) | hs) | hs
    · exact plain_ne (fixed_plain s hs)
    · obtain ⟨q, rfl⟩ := size_form hs
      refine tokne plain_size hdp ?_
      rintro rfl; revert hd; decide
    · obtain ⟨q, rfl⟩ := weight_form hs
      refine tokne plain_w hdp ?_
      rintro rfl; revert hd; decide
    · obtain ⟨q, rfl⟩ := areal_form hs
      refine tokne plain_areal hdp ?_
      rintro rfl; revert hd; decide
    · obtain ⟨c, hc, q, rfl⟩ := conf_form hs
      obtain ⟨n1, n2, n3, n4, n5, n6⟩ := conf_ne hS hc
      refine tokne (hS.conf_plain c hc) hdp ?_
      simp only [List.mem_cons, List.not_mem_nil, or_false] at hd
      rcases hd with rfl | rfl | rfl
      exacts [n4, n5, n6]

end SBayes.Log
