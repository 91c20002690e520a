import Verif.Lemmas.LogRead
/-
Histories of the two text loggers.
-/
namespace SBayes.Log

/-- `matchStep` in terms of the two fields it reads. -/
def matchWith (K N : ℕ) (m : Bool) (sum : ℕ → ℕ → ℕ) (x : Snapshot) : Option (List ℕ) × (ℕ → ℕ → ℕ) :=
  if m then
    let p := bestPermutation K N x.clusters sum
    (some p, fun i j => sum i j + (if x.clusters (relabel (some p) i) j then 1 else 0))
  else (none, sum)

theorem matchStep_eq (K N : ℕ) (st : LogState) (x : Snapshot) :
    matchStep K N st x = matchWith K N st.matchC st.sum x := rfl

/-- All permutations used, and the final sum. -/
def matchRun (K N : ℕ) (m : Bool) (xs : List Snapshot) : List (Option (List ℕ)) × (ℕ → ℕ → ℕ) :=
  xs.foldl (fun acc x => let r := matchWith K N m acc.2 x; (acc.1 ++ [r.1], r.2)) ([], fun _ _ => 0)

theorem matchRun_snoc (K N : ℕ) (m : Bool) (xs : List Snapshot) (x : Snapshot) :
    matchRun K N m (xs ++ [x]) =
      ((matchRun K N m xs).1 ++ [(matchWith K N m (matchRun K N m xs).2 x).1],
        (matchWith K N m (matchRun K N m xs).2 x).2) := by
  simp [matchRun, List.foldl_append]

theorem matchRun_length (K N : ℕ) (m : Bool) (xs : List Snapshot) : (matchRun K N m xs).1.length = xs.length := by
  induction xs using List.reverseRecOn with
  | nil => rfl
  | append_singleton xs x ih => rw [matchRun_snoc]; simp [ih]

/-- The relabelling used for the `t`-th sample. -/
def sigma (K N : ℕ) (xs : List Snapshot) (t : ℕ) : ℕ → ℕ :=
  relabel ((matchRun K N (decide (1 < K)) xs).1.getD t none)

theorem matchRun_prefix (K N : ℕ) (m : Bool) (xs ys : List Snapshot) :
    (matchRun K N m (xs ++ ys)).1.take xs.length = (matchRun K N m xs).1 := by
  induction ys using List.reverseRecOn with
  | nil => rw [List.append_nil, ← matchRun_length K N m xs, List.take_length]
  | append_singleton ys y ih =>
    rw [← List.append_assoc, matchRun_snoc]
    simp only
    rw [List.take_append_of_le_length (by rw [matchRun_length]; simp), ih]

theorem sigma_append (K N : ℕ) (xs ys : List Snapshot) (t : ℕ) (ht : t < xs.length) :
    sigma K N (xs ++ ys) t = sigma K N xs t := by
  rw [sigma, sigma, ← matchRun_prefix K N _ xs ys]
  congr 1
  rw [List.getD_eq_getElem?_getD, List.getD_eq_getElem?_getD, List.getElem?_take, if_pos ht]

/-- The relabelled clusters of the first `t` samples. -/
def pastClusters (xs : List Snapshot) (σ : ℕ → ℕ → ℕ) (t : ℕ) : List (ℕ → ℕ → Bool) :=
  (xs.take t).zipIdx.map (fun x => fun i j => x.1.clusters (σ x.2 i) j)

theorem pastClusters_snoc (xs : List Snapshot) (x : Snapshot) (σ : ℕ → ℕ → ℕ) :
    pastClusters (xs ++ [x]) σ (xs.length + 1) =
      pastClusters xs σ xs.length ++ [fun i j => x.clusters (σ xs.length i) j] := by
  rw [pastClusters, pastClusters, List.take_of_length_le (by simp), List.take_of_length_le (by simp),
    List.zipIdx_append]
  simp

theorem pastClusters_congr (xs ys : List Snapshot) (σ σ' : ℕ → ℕ → ℕ) (t : ℕ) (ht : t ≤ xs.length)
    (h : ∀ u < t, σ u = σ' u) : pastClusters (xs ++ ys) σ t = pastClusters xs σ' t := by
  rw [pastClusters, pastClusters, List.take_append_of_le_length ht]
  refine List.map_congr_left (fun a ha => ?_)
  have : a.2 < t := by
    have := List.snd_lt_of_mem_zipIdx ha
    simp at this
    omega
  rw [h _ this]

theorem sum_eq_count (K N : ℕ) (hK : 1 < K) (xs : List Snapshot) (i j : ℕ) :
    (matchRun K N (decide (1 < K)) xs).2 i j =
      (pastClusters xs (sigma K N xs) xs.length).countP (fun d => d i j) := by
  induction xs using List.reverseRecOn with
  | nil => rfl
  | append_singleton xs x ih =>
    rw [matchRun_snoc, List.length_append, List.length_singleton, pastClusters_snoc]
    rw [show pastClusters xs (sigma K N (xs ++ [x])) xs.length = pastClusters xs (sigma K N xs) xs.length from by
      have := pastClusters_congr xs [] (sigma K N (xs ++ [x])) (sigma K N xs) xs.length le_rfl
        (fun u hu => sigma_append K N xs [x] u hu)
      simpa using this]
    rw [List.countP_append, ← ih]
    simp only [matchWith, hK, decide_true, if_true]
    congr 1
    simp only [List.countP_singleton]
    rw [sigma, matchRun_snoc]
    simp only [matchWith, hK, decide_true, if_true]
    rw [List.getD_append_right _ _ _ _ (by rw [matchRun_length]), matchRun_length]
    simp

theorem agreement_eq (K N : ℕ) (areas : ℕ → ℕ → Bool) (prev : ℕ → ℕ → ℕ) (past : List (ℕ → ℕ → Bool))
    (h : ∀ i j, prev i j = past.countP (fun d => d i j)) (p : List ℕ) (π : ℕ → ℕ)
    (hp : ∀ i < K, p.getD i 0 = π i) : agreement K N areas prev p = agreementWith K N past areas π := by
  rw [agreement, agreementWith]
  refine Finset.sum_congr rfl (fun i hi => Finset.sum_congr rfl (fun j _ => ?_))
  rw [h, hp i (Finset.mem_range.1 hi)]

theorem sigma_permutes (K N : ℕ) (xs : List Snapshot) (t : ℕ) : Permutes K (sigma K N xs t) := by
  by_cases hK : 1 < K
  · by_cases ht : t < xs.length
    · obtain ⟨l, x, r, rfl, rfl⟩ : ∃ l x r, xs = l ++ x :: r ∧ t = l.length :=
        ⟨xs.take t, xs[t], xs.drop (t + 1), by simp, by simp; omega⟩
      rw [show l ++ x :: r = (l ++ [x]) ++ r by simp, sigma_append _ _ _ _ _ (by simp), sigma, matchRun_snoc,
        List.getD_append_right _ _ _ _ (by rw [matchRun_length]), matchRun_length]
      simp only [matchWith, hK, decide_true, if_true, Nat.sub_self, List.getD_cons_zero]
      obtain ⟨τ, hτ⟩ := perm_of_list (bestPermutation_perm K N x.clusters (matchRun K N true l).2)
      refine ⟨τ, fun i => ?_⟩
      rw [relabel]
      exact hτ i
    · refine ⟨Equiv.refl _, fun i => ?_⟩
      rw [sigma, List.getD_eq_default _ _ (by rw [matchRun_length]; omega)]
      rfl
  · refine ⟨Equiv.refl _, fun i => ?_⟩
    have : ∀ xs : List Snapshot, ∀ q ∈ (matchRun K N (decide (1 < K)) xs).1, q = none := by
      intro xs
      induction xs using List.reverseRecOn with
      | nil => simp [matchRun]
      | append_singleton xs x ih =>
        rw [matchRun_snoc]
        intro q hq
        simp only [List.mem_append, List.mem_singleton] at hq
        rcases hq with hq | rfl
        · exact ih q hq
        · simp [matchWith, hK]
    have h2 : (matchRun K N (decide (1 < K)) xs).1.getD t none = none := by
      by_cases ht : t < xs.length
      · rw [List.getD_eq_getElem _ _ (by rw [matchRun_length]; exact ht)]
        exact this xs _ (List.getElem_mem _)
      · rw [List.getD_eq_default _ _ (by rw [matchRun_length]; omega)]
    rw [sigma, h2]
    rfl

theorem sigma_optimal (K N : ℕ) (xs : List Snapshot) (t : ℕ) (x : Snapshot) (hx : xs[t]? = some x)
    (π : ℕ → ℕ) (hπ : Permutes K π) :
    agreementWith K N (pastClusters xs (sigma K N xs) t) x.clusters π ≤
      agreementWith K N (pastClusters xs (sigma K N xs) t) x.clusters (sigma K N xs t) := by
  by_cases hK : 1 < K
  · obtain ⟨ht, rfl⟩ := List.getElem?_eq_some_iff.1 hx
    obtain ⟨l, y, r, rfl, rfl, hy⟩ : ∃ l y r, xs = l ++ y :: r ∧ t = l.length ∧ xs[t] = y :=
      ⟨xs.take t, xs[t], xs.drop (t + 1), by simp, by simp; omega, rfl⟩
    rw [hy, pastClusters_congr l (y :: r) _ (sigma K N l) l.length le_rfl
      (fun u hu => sigma_append K N l (y :: r) u hu)]
    have hsum := sum_eq_count K N hK l
    simp only [hK, decide_true] at hsum
    obtain ⟨τ, hτ⟩ := hπ
    have hq := list_of_perm τ
    have hb := le_bestPermutation K N y.clusters (matchRun K N true l).2 _ hq
    rw [agreement_eq K N _ _ _ hsum _ π, agreement_eq K N _ _ _ hsum _
      (sigma K N (l ++ y :: r) l.length)] at hb
    · exact hb
    · intro i hi
      rw [show l ++ y :: r = (l ++ [y]) ++ r by simp, sigma_append _ _ _ _ _ (by simp), sigma, matchRun_snoc,
        List.getD_append_right _ _ _ _ (by rw [matchRun_length]), matchRun_length]
      simp only [matchWith, hK, decide_true, if_true, Nat.sub_self, List.getD_cons_zero]
      rfl
    · intro i hi
      have := getD_ofFn τ ⟨i, hi⟩
      rw [this]
      exact (hτ ⟨i, hi⟩).symm
  · refine le_of_eq ?_
    rw [agreementWith, agreementWith]
    refine Finset.sum_congr rfl (fun i hi => Finset.sum_congr rfl (fun j _ => ?_))
    have hi := Finset.mem_range.1 hi
    obtain ⟨τ, hτ⟩ := hπ
    obtain ⟨τ', hτ'⟩ := sigma_permutes K N xs t
    have h1 := hτ ⟨i, hi⟩
    have h2 := hτ' ⟨i, hi⟩
    have h3 := (τ ⟨i, hi⟩).2
    have h4 := (τ' ⟨i, hi⟩).2
    simp only at h1 h2
    rw [h1, h2, show ((τ ⟨i, hi⟩ : Fin K) : ℕ) = (τ' ⟨i, hi⟩ : Fin K) by omega]

/-- The first sample is written as it is. -/
theorem sigma_zero (K N : ℕ) (xs : List Snapshot) (i : ℕ) (hi : i < K) : sigma K N xs 0 i = i := by
  by_cases hK : 1 < K
  · cases xs with
    | nil => rfl
    | cons x xs =>
      rw [show x :: xs = ([] ++ [x]) ++ xs by simp, sigma_append _ _ _ _ _ (by simp), sigma, matchRun_snoc]
      simp only [matchWith, hK, decide_true, if_true]
      obtain ⟨ps, h⟩ := getPermutations_eq K
      have : bestPermutation K N x.clusters (matchRun K N true []).2 = List.range K := by
        rw [bestPermutation, h]
        refine maxKey_first _ _ _ (fun y _ => ?_)
        simp [agreement, matchRun]
      rw [this]
      simp only [matchRun, List.foldl_nil, List.nil_append, List.getD_cons_zero]
      rw [relabel]
      rw [List.getD_eq_getElem _ _ (by simpa using hi)]
      simp
  · obtain ⟨τ, hτ⟩ := sigma_permutes K N xs 0
    have := hτ ⟨i, hi⟩
    have h4 := (τ ⟨i, hi⟩).2
    simp only at this
    omega

/-! ### Rows -/

/-- The values of a row in the order of the header. -/
noncomputable def rowVals (S : Schema) (K N : ℕ) (contrib : Bool) (perm : Option (List ℕ)) (x : Snapshot) :
    List EReal :=
  (header S K contrib).map (fun k => (dictGet (rowItems S K N contrib perm x) k).getD 0)

theorem keys_mem (S : Schema) (K N : ℕ) (contrib : Bool) (perm : Option (List ℕ)) (x : Snapshot) (k : Str)
    (hk : k ∈ header S K contrib) : k ∈ (rowItems S K N contrib perm x).map Prod.fst := by
  have h := (rowItems_perm S K N contrib perm x).map Prod.fst
  rw [List.map_map] at h
  refine h.symm.subset ?_
  rw [header_eq] at hk
  exact hk

theorem mapM_row (S : Schema) (K N : ℕ) (contrib : Bool) (perm : Option (List ℕ)) (x : Snapshot) :
    (header S K contrib).mapM (dictGet (rowItems S K N contrib perm x)) = some (rowVals S K N contrib perm x) := by
  refine mapM_eq _ _ _ (fun k hk => ?_)
  obtain ⟨v, hv⟩ := dictGet_isSome _ k (keys_mem S K N contrib perm x k hk)
  rw [hv]; rfl

theorem rowVals_unique (S : Schema) (K N : ℕ) (contrib : Bool) (perm : Option (List ℕ)) (x : Snapshot) (j : ℕ)
    (c : Column) (hc : (allColumns S K contrib)[j]? = some c)
    (hu : ∀ c' ∈ allColumns S K contrib, Column.name S c' = Column.name S c → c' = c) :
    (rowVals S K N contrib perm x)[j]? = some (Column.quantity N (relabel perm) x c) := by
  rw [rowVals, header_eq, List.map_map, List.getElem?_map, hc]
  simp only [Option.map_some, Function.comp, Option.some.injEq]
  have hP := rowItems_perm S K N contrib perm x
  rw [dictGet_unique _ (Column.name S c) (Column.quantity N (relabel perm) x c)]
  · rfl
  · refine hP.symm.subset ?_
    exact List.mem_map.2 ⟨c, List.mem_of_getElem? hc, rfl⟩
  · intro w hw
    have := hP.subset hw
    simp only [List.mem_map, Prod.mk.injEq] at this
    obtain ⟨c', hc', hn, rfl⟩ := this
    rw [hu c' hc' hn]

theorem rowVals_good {S : Schema} (hS : GoodNames S) (K N : ℕ) (contrib : Bool) (perm : Option (List ℕ))
    (x : Snapshot) :
    rowVals S K N contrib perm x = (allColumns S K contrib).map (Column.quantity N (relabel perm) x) := by
  have hn := header_nodup hS K contrib
  rw [header_eq] at hn
  refine List.ext_getElem? (fun j => ?_)
  rw [List.getElem?_map]
  cases hc : (allColumns S K contrib)[j]? with
  | none =>
    rw [rowVals, header_eq, List.map_map, List.getElem?_map, hc]
    rfl
  | some c =>
    rw [rowVals_unique S K N contrib perm x j c hc]
    · rfl
    · intro c' hc' h
      exact List.inj_on_of_nodup_map hn hc' (List.mem_of_getElem? hc) h

/-! ### Histories -/

/-- The clusters of a sample as written. -/
def clusterRows (K N : ℕ) (σ : ℕ → ℕ) (x : Snapshot) : List (List Bool) :=
  (List.range K).map (fun i => (List.range N).map (fun j => x.clusters (σ i) j))

/-- State of the two loggers when `seg` was written since the last opening. -/
structure Synced (S : Schema) (K N : ℕ) (contrib : Bool) (fmt : EReal → Str) (p c : LogState) (seg : List Snapshot)
    (op : Bool) : Prop where
  open_p : p.isOpen = op
  open_c : c.isOpen = op
  match_p : p.matchC = true ∨ K ≤ 1
  match_c : c.matchC = true ∨ K ≤ 1
  match_open : op = true → p.matchC = decide (1 < K) ∧ c.matchC = decide (1 < K)
  cols : op = true → p.columns = header S K contrib
  sum_p : op = true → p.sum = (matchRun K N (decide (1 < K)) seg).2
  sum_c : op = true → c.sum = (matchRun K N (decide (1 < K)) seg).2
  file_p : seg ≠ [] → p.file = tabJoin (header S K contrib) ::
    seg.zipIdx.map (fun x => tabJoin ((rowVals S K N contrib
      ((matchRun K N (decide (1 < K)) seg).1.getD x.2 none) x.1).map fmt))
  file_c : seg ≠ [] → c.file = seg.zipIdx.map (fun x => formatClusters (clusterRows K N (sigma K N seg x.2) x.1))
  ne : op = true → seg ≠ []

theorem write_fields {α : Type*} (seg : List Snapshot) (x : Snapshot) (g g' : ℕ → Snapshot → α)
    (h : ∀ t < seg.length, ∀ y, g t y = g' t y) :
    (seg ++ [x]).zipIdx.map (fun y => g y.2 y.1) = seg.zipIdx.map (fun y => g' y.2 y.1) ++ [g seg.length x] := by
  rw [List.zipIdx_append, List.map_append]
  congr 1
  · refine List.map_congr_left (fun a ha => ?_)
    refine h _ ?_ _
    have := List.snd_lt_of_mem_zipIdx ha
    omega
  · simp

theorem perms_snoc (K N : ℕ) (m : Bool) (seg : List Snapshot) (x : Snapshot) :
    (∀ t < seg.length, (matchRun K N m (seg ++ [x])).1.getD t none = (matchRun K N m seg).1.getD t none) ∧
      (matchRun K N m (seg ++ [x])).1.getD seg.length none = (matchWith K N m (matchRun K N m seg).2 x).1 := by
  rw [matchRun_snoc]
  constructor
  · intro t ht
    rw [List.getD_append _ _ _ _ (by rw [matchRun_length]; exact ht)]
  · rw [List.getD_append_right _ _ _ _ (by rw [matchRun_length]), matchRun_length]
    simp

theorem synced_write (S : Schema) (K N : ℕ) (contrib : Bool) (fmt : EReal → Str) (p c : LogState)
    (seg : List Snapshot) (op : Bool) (h : Synced S K N contrib fmt p c seg op) (x : Snapshot) :
    ∃ p' c', logStep S K N contrib fmt (p, c) (.write x) = some (p', c') ∧
      Synced S K N contrib fmt p' c' (if op then seg ++ [x] else [x]) true := by
  have hm : ∀ b : Bool, (b = true ∨ K ≤ 1) → (if K ≤ 1 then false else b) = decide (1 < K) := by
    intro b hb
    by_cases hK : K ≤ 1
    · simp [hK]
    · rcases hb with rfl | h
      · simp [hK]; omega
      · exact absurd h hK
  have hm' : decide (1 < K) = true ∨ K ≤ 1 := by
    by_cases hK : K ≤ 1
    · exact Or.inr hK
    · left; simp; omega
  cases op with
  | true =>
    obtain ⟨m1, m2⟩ := h.match_open rfl
    have hc := h.cols rfl
    have s1 := h.sum_p rfl
    have s2 := h.sum_c rfl
    have f1 := h.file_p (h.ne rfl)
    have f2 := h.file_c (h.ne rfl)
    obtain ⟨q1, q2⟩ := perms_snoc K N (decide (1 < K)) seg x
    simp only [logStep, writeParams, h.open_p, if_true, matchStep_eq, m1, s1, hc, mapM_row, writeClusters, h.open_c,
      m2, s2]
    refine ⟨_, _, rfl, ?_⟩
    constructor
    · rfl
    · rfl
    · exact hm'
    · exact hm'
    · intro _; exact ⟨rfl, rfl⟩
    · intro _; rfl
    · intro _; rw [matchRun_snoc]
    · intro _; rw [matchRun_snoc]
    · intro _
      simp only
      rw [write_fields seg x (fun t y => tabJoin ((rowVals S K N contrib
        ((matchRun K N (decide (1 < K)) (seg ++ [x])).1.getD t none) y).map fmt)) (fun t y => tabJoin ((rowVals S K N contrib
        ((matchRun K N (decide (1 < K)) seg).1.getD t none) y).map fmt)) (fun t ht y => by rw [q1 t ht]), f1, q2]
      rfl
    · intro _
      simp only
      rw [write_fields seg x (fun t y => formatClusters (clusterRows K N (sigma K N (seg ++ [x]) t) y))
        (fun t y => formatClusters (clusterRows K N (sigma K N seg t) y))
        (fun t ht y => by rw [sigma_append K N seg [x] t ht]), f2]
      congr 3
      rw [sigma, q2]
      rfl
    · intro _; simp
  | false =>
    obtain ⟨q1, q2⟩ := perms_snoc K N (decide (1 < K)) [] x
    rw [List.nil_append] at q2
    have r0 : (matchRun K N (decide (1 < K)) []).2 = fun _ _ => 0 := rfl
    simp only [logStep, writeParams, h.open_p, Bool.false_eq_true, if_false, matchStep_eq, hm _ h.match_p, mapM_row,
      writeClusters, h.open_c, hm _ h.match_c]
    refine ⟨_, _, rfl, ?_⟩
    constructor
    · rfl
    · rfl
    · exact hm'
    · exact hm'
    · intro _; exact ⟨rfl, rfl⟩
    · intro _; rfl
    · intro _
      have := matchRun_snoc K N (decide (1 < K)) [] x
      rw [List.nil_append] at this
      rw [this, r0]
    · intro _
      have := matchRun_snoc K N (decide (1 < K)) [] x
      rw [List.nil_append] at this
      rw [this, r0]
    · intro _
      simp only [List.zipIdx_singleton, List.map_cons, List.map_nil]
      rw [show ([] : List Snapshot).length = 0 from rfl] at q2
      rw [q2, r0]
      rfl
    · intro _
      simp only [List.zipIdx_singleton, List.map_cons, List.map_nil]
      rw [show ([] : List Snapshot).length = 0 from rfl] at q2
      rw [sigma, q2, r0]
      rfl
    · intro _; simp

theorem synced_close (S : Schema) (K N : ℕ) (contrib : Bool) (fmt : EReal → Str) (p c : LogState)
    (seg : List Snapshot) (op : Bool) (h : Synced S K N contrib fmt p c seg op) (p' c' : LogState)
    (hs : logStep S K N contrib fmt (p, c) .close = some (p', c')) :
    Synced S K N contrib fmt p' c' seg false := by
  simp only [logStep, closeLog] at hs
  by_cases hp : p.isOpen = true <;> by_cases hc : c.isOpen = true
  · simp only [hp, hc, if_true, Option.some.injEq, Prod.mk.injEq] at hs
    obtain ⟨rfl, rfl⟩ := hs
    exact ⟨rfl, rfl, h.match_p, h.match_c, by simp, by simp, by simp, by simp, h.file_p, h.file_c, by simp⟩
  · simp [hp, hc] at hs
  · simp [hp, hc] at hs
  · simp [hp, hc] at hs

theorem written_snoc (es : List Event) (e : Event) : written (es ++ [e]) = (match e with
    | .write x => (if (written es).2 then (written es).1 ++ [x] else [x], true)
    | .close => ((written es).1, false)) := by
  simp only [written, List.foldl_append, List.foldl_cons, List.foldl_nil]
  cases e <;> rfl

theorem foldlM_snoc {α σ : Type*} (f : σ → α → Option σ) (l : List α) (a : α) (s : σ) :
    (l ++ [a]).foldlM f s = (l.foldlM f s).bind (fun t => f t a) := by
  rw [List.foldlM_append]
  simp

theorem synced_run (S : Schema) (K N : ℕ) (contrib : Bool) (fmt : EReal → Str) (d d' : List Str) (es : List Event)
    (p c : LogState) (h : logRun S K N contrib fmt (newLogger d true, newLogger d' true) es = some (p, c)) :
    Synced S K N contrib fmt p c (written es).1 (written es).2 := by
  induction es using List.reverseRecOn generalizing p c with
  | nil =>
    simp only [logRun, List.foldlM_nil] at h
    obtain ⟨rfl, rfl⟩ := Prod.mk.inj (Option.some.inj h)
    exact ⟨rfl, rfl, Or.inl rfl, Or.inl rfl, by simp [written], by simp [written], by simp [written],
      by simp [written], by simp [written], by simp [written], by simp [written]⟩
  | append_singleton es e ih =>
    rw [logRun, foldlM_snoc, Option.bind_eq_some_iff] at h
    obtain ⟨⟨p0, c0⟩, h0, h1⟩ := h
    have := ih p0 c0 h0
    rw [written_snoc]
    cases e with
    | write x =>
      obtain ⟨p', c', hs, hsync⟩ := synced_write S K N contrib fmt p0 c0 _ _ this x
      rw [hs] at h1
      obtain ⟨rfl, rfl⟩ := Prod.mk.inj (Option.some.inj h1)
      exact hsync
    | close => exact synced_close S K N contrib fmt p0 c0 _ _ this p c h1

/-- Writing never raises. -/
theorem run_writes (S : Schema) (K N : ℕ) (contrib : Bool) (fmt : EReal → Str) (d d' : List Str)
    (es : List Event) (x : Snapshot) (p c : LogState)
    (h : logRun S K N contrib fmt (newLogger d true, newLogger d' true) es = some (p, c)) :
    ∃ p' c', logRun S K N contrib fmt (newLogger d true, newLogger d' true) (es ++ [.write x]) = some (p', c') := by
  obtain ⟨p', c', hs, _⟩ := synced_write S K N contrib fmt p c _ _ (synced_run S K N contrib fmt d d' es p c h) x
  refine ⟨p', c', ?_⟩
  rw [logRun, foldlM_snoc]
  rw [logRun] at h
  rw [h]
  exact hs

end SBayes.Log
