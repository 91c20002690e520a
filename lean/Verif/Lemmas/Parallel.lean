import Verif.Spec.Parallel
import Verif.Props.Config
namespace SBayes.Par
open Command

/-! ### What a process reads and writes -/

/-- The process reads files in `R` only and changes files in `W` only. -/
def Within (R W : Set Path) : Prog → Prop
  | .done => True
  | .read p next => p ∈ R ∧ ∀ t, Within R W (next t)
  | .op o next => o.path ∈ W ∧ Within R W next

theorem doOp_other {d : Disk} {o : Op} {p : Path} (h : p ≠ o.path) : doOp d o p = d p := by
  cases o <;> simp only [doOp, Op.path] at * <;> exact Function.update_of_ne h _ _

theorem doOp_congr {d d' : Disk} {o : Op} (p : Path) (h : d p = d' p) : doOp d o p = doOp d' o p := by
  by_cases hp : p = o.path
  · subst hp
    cases o <;> simp only [Op.path] at h <;> simp [doOp, Op.path, h]
  · rw [doOp_other hp, doOp_other hp, h]

theorem Within.step {R W : Set Path} {p : Prog} (h : Within R W p) (d : Disk) : Within R W (step d p).2 := by
  cases p with
  | done => trivial
  | read q next =>
    simp only [Par.step]
    cases hd : d q with
    | none => trivial
    | some t => exact h.2 t
  | op o next => exact h.2

theorem step_other {R W : Set Path} {p : Prog} (h : Within R W p) (d : Disk) {q : Path} (hq : q ∉ W) : (step d p).1 q = d q := by
  cases p with
  | done => rfl
  | read r next => simp only [Par.step]; split <;> rfl
  | op o next => exact doOp_other (fun e => hq (e ▸ h.1))

theorem step_congr {R W : Set Path} {p : Prog} (h : Within R W p) {d d' : Disk} {A : Set Path} (hR : R ⊆ A)
    (hd : ∀ q ∈ A, d q = d' q) : (step d p).2 = (step d' p).2 ∧ ∀ q ∈ A, (step d p).1 q = (step d' p).1 q := by
  cases p with
  | done => exact ⟨rfl, hd⟩
  | read r next =>
    have hr := hd r (hR h.1)
    simp only [Par.step]
    rw [← hr]
    cases d r with
    | none => exact ⟨rfl, hd⟩
    | some t => exact ⟨rfl, hd⟩
  | op o next => exact ⟨rfl, fun q hq => doOp_congr q (hd q hq)⟩

/-! ### A pool of processes -/

theorem pool_nil (w : Disk × List Prog) : pool w [] = w := by unfold pool; rfl

theorem pool_cons_some {d : Disk} {ps : List Prog} {i : ℕ} {s : List ℕ} {p : Prog} (h : ps[i]? = some p) :
    pool (d, ps) (i :: s) = pool ((step d p).1, ps.set i (step d p).2) s := by
  rw [pool, h]

theorem pool_cons_none {d : Disk} {ps : List Prog} {i : ℕ} {s : List ℕ} (h : ps[i]? = none) :
    pool (d, ps) (i :: s) = pool (d, ps) s := by
  rw [pool, h]

/-- Induction over the operations of a pool: a property of disk and processes that every operation keeps. -/
theorem pool_induct {motive : Disk → List Prog → Prop}
    (hstep : ∀ d ps i p, motive d ps → ps[i]? = some p → motive (step d p).1 (ps.set i (step d p).2))
    {d : Disk} {ps : List Prog} (h : motive d ps) (s : List ℕ) : motive (pool (d, ps) s).1 (pool (d, ps) s).2 := by
  induction s generalizing d ps with
  | nil => rw [pool_nil]; exact h
  | cons i s ih =>
    cases hp : ps[i]? with
    | none => rw [pool_cons_none hp]; exact ih h
    | some p => rw [pool_cons_some hp]; exact ih (hstep _ _ _ _ h hp)

theorem pool_length (d : Disk) (ps : List Prog) (s : List ℕ) : (pool (d, ps) s).2.length = ps.length := by
  apply pool_induct (motive := fun _ qs => qs.length = ps.length) _ rfl
  intro d qs i p h _
  simpa using h

/-- Process `i` of a pool, and all files in `A` that the others do not touch, are as if it were alone. -/
theorem pool_alone {R A : Set Path} (W : ℕ → Set Path) (hR : R ⊆ A) {i : ℕ} (hA : ∀ j, j ≠ i → Disjoint A (W j))
    (s : List ℕ) : ∀ (d d' : Disk) (ps : List Prog) (p : Prog), ps[i]? = some p →
    (∀ j q, ps[j]? = some q → Within R (W j) q) → (∀ q ∈ A, d q = d' q) →
    (pool (d, ps) s).2[i]? = some (alone d' p (s.count i)).2 ∧
      ∀ q ∈ A, (pool (d, ps) s).1 q = (alone d' p (s.count i)).1 q := by
  induction s with
  | nil =>
    intro d d' ps p hi _ hd
    rw [pool_nil]
    exact ⟨hi, hd⟩
  | cons j s ih =>
    intro d d' ps p hi hW hd
    have hkeep : ∀ q, ps[j]? = some q → ∀ j' q', (ps.set j (step d q).2)[j']? = some q' → Within R (W j') q' := by
      intro q hq j' q' hq'
      rw [List.getElem?_set] at hq'
      split at hq'
      · rename_i e
        split at hq'
        · cases hq'
          subst e
          exact (hW j q hq).step d
        · cases hq'
      · exact hW j' q' hq'
    by_cases hj : j = i
    · subst hj
      rw [pool_cons_some hi, List.count_cons_self]
      obtain ⟨c1, c2⟩ := step_congr (hW j p hi) hR hd
      rw [alone]
      apply ih _ _ _ _ _ (hkeep p hi) c2
      rw [List.getElem?_set_self (List.getElem?_eq_some_iff.mp hi).1, c1]
    · rw [List.count_cons_of_ne hj]
      cases hq : ps[j]? with
      | none => rw [pool_cons_none hq]; exact ih _ _ _ _ hi hW hd
      | some q =>
        rw [pool_cons_some hq]
        apply ih _ _ _ _ _ (hkeep q hq)
        · intro r hr
          rw [step_other (hW j q hq) d (Set.disjoint_left.mp (hA j hj) hr)]
          exact hd r hr
        · rw [List.getElem?_set_ne hj]
          exact hi

/-- Files that no process changes. -/
theorem pool_untouched {R W : Set Path} {d : Disk} {ps : List Prog} (hW : ∀ p ∈ ps, Within R W p) {q : Path} (hq : q ∉ W)
    (s : List ℕ) : (pool (d, ps) s).1 q = d q := by
  have := pool_induct (motive := fun d' qs => d' q = d q ∧ ∀ p ∈ qs, Within R W p) (d := d) (ps := ps) ?_ ⟨rfl, hW⟩ s
  · exact this.1
  · intro d' qs i p h hp
    have hw := h.2 p (List.mem_of_getElem? hp)
    refine ⟨by rw [step_other hw _ hq, h.1], fun r hr => ?_⟩
    rcases List.mem_or_eq_of_mem_set hr with h1 | h1
    · exact h.2 r h1
    · rw [h1]; exact hw.step _

/-! ### Until the end -/

theorem alone_done (d : Disk) (n : ℕ) : alone d .done n = (d, .done) := by
  induction n with
  | zero => rfl
  | succ n ih => exact ih

/-- A process that has come to its end alone has done what `finish` says. -/
theorem alone_finish (n : ℕ) : ∀ (d : Disk) (p : Prog), (alone d p n).2 = .done → (alone d p n).1 = (finish d p).1 := by
  induction n with
  | zero =>
    intro d p h
    change p = .done at h
    subst h
    rfl
  | succ n ih =>
    intro d p h
    rw [alone] at h ⊢
    cases p with
    | done => exact ih _ _ h
    | read q next =>
      simp only [step] at h ⊢
      unfold finish
      cases hd : d q with
      | none =>
        rw [hd] at h
        rw [alone_done]
      | some t =>
        rw [hd] at h
        exact ih _ _ h
    | op o next => exact ih _ _ h

/-- Every process comes to its end. -/
theorem alone_ends (p : Prog) : ∀ d, ∃ n, (alone d p n).2 = .done := by
  induction p with
  | done => exact fun d => ⟨0, rfl⟩
  | read q next ih =>
    intro d
    cases hd : d q with
    | none => exact ⟨1, by simp only [alone, step, hd]⟩
    | some t =>
      obtain ⟨n, hn⟩ := ih t d
      exact ⟨n + 1, by simpa only [alone, step, hd] using hn⟩
  | op o next ih =>
    intro d
    obtain ⟨n, hn⟩ := ih (doOp d o)
    exact ⟨n + 1, hn⟩

theorem finish_congr {R W : Set Path} {A : Set Path} (hR : R ⊆ A) (p : Prog) : ∀ (d d' : Disk), Within R W p →
    (∀ q ∈ A, d q = d' q) → (finish d p).2 = (finish d' p).2 ∧ ∀ q ∈ A, (finish d p).1 q = (finish d' p).1 q := by
  induction p with
  | done => exact fun d d' _ h => ⟨rfl, h⟩
  | read q next ih =>
    intro d d' hw h
    have hq := h q (hR hw.1)
    unfold finish
    rw [← hq]
    cases d q with
    | none => exact ⟨rfl, h⟩
    | some t => exact ih t d d' (hw.2 t) h
  | op o next ih =>
    intro d d' hw h
    exact ih _ _ hw.2 fun q hq => doOp_congr q (h q hq)

theorem finish_other {R W : Set Path} (p : Prog) : ∀ (d : Disk), Within R W p → ∀ q, q ∉ W → (finish d p).1 q = d q := by
  induction p with
  | done => exact fun d _ q _ => rfl
  | read r next ih =>
    intro d hw q hq
    unfold finish
    cases d r with
    | none => rfl
    | some t => exact ih t d (hw.2 t) q hq
  | op o next ih =>
    intro d hw q hq
    unfold finish
    rw [ih _ hw.2 q hq]
    exact doOp_other (fun e => hq (e ▸ hw.1))

/-! ### The log -/

theorem added_congr {R W : Set Path} {log : Path} (p : Prog) : ∀ {d d' : Disk}, Within R W p → (∀ q ∈ R, d q = d' q) →
    added log d p = added log d' p := by
  induction p with
  | done => intros; rfl
  | read q next ih =>
    intro d d' hw h
    unfold added
    rw [← h q hw.1]
    cases d q with
    | none => rfl
    | some t => exact ih t (hw.2 t) h
  | op o next ih =>
    intro d d' hw h
    cases o with
    | create p => exact ih hw.2 h
    | append p t => unfold added; rw [ih hw.2 h]
    | writeAt p pos t => exact ih hw.2 h

/-- Operations on the file are added texts only. -/
def OnlyAdds (log : Path) : Prog → Prop
  | .done => True
  | .read _ next => ∀ t, OnlyAdds log (next t)
  | .op (.append _ _) next => OnlyAdds log next
  | .op (.create p) next => p ≠ log ∧ OnlyAdds log next
  | .op (.writeAt p _ _) next => p ≠ log ∧ OnlyAdds log next

theorem OnlyAdds.step {log : Path} {p : Prog} (h : OnlyAdds log p) (d : Disk) : OnlyAdds log (step d p).2 := by
  cases p with
  | done => trivial
  | read q next =>
    simp only [Par.step]
    cases d q with
    | none => trivial
    | some t => exact h t
  | op o next =>
    cases o with
    | create p => exact h.2
    | append p t => exact h
    | writeAt p pos t => exact h.2

/-- One operation and the log: nothing, or the next text of the process. -/
theorem step_added {R W : Set Path} {log : Path} {p : Prog} (hw : Within R W p) (h : OnlyAdds log p) {d d0 : Disk}
    (hd : ∀ q ∈ R, d q = d0 q) :
    ((step d p).1 log = d log ∧ added log d0 p = added log d0 (step d p).2) ∨
      ∃ t, (step d p).1 log = some ((d log).getD [] ++ t) ∧ added log d0 p = t :: added log d0 (step d p).2 := by
  cases p with
  | done => exact Or.inl ⟨rfl, rfl⟩
  | read q next =>
    left
    rw [added, ← hd q hw.1]
    simp only [Par.step]
    cases d q with
    | none => exact ⟨rfl, rfl⟩
    | some t => exact ⟨rfl, rfl⟩
  | op o next =>
    cases o with
    | create p => exact Or.inl ⟨doOp_other (o := .create p) (fun e => h.1 e.symm), rfl⟩
    | append p t =>
      by_cases hp : p = log
      · right
        subst hp
        exact ⟨t, by simp [Par.step, doOp], by rw [added, if_pos rfl]; rfl⟩
      · left
        exact ⟨doOp_other (o := .append p t) (fun e => hp e.symm), by rw [added, if_neg hp]; rfl⟩
    | writeAt p pos t => exact Or.inl ⟨doOp_other (o := .writeAt p pos t) (fun e => h.1 e.symm), rfl⟩

/-- The log of a pool: all texts of all processes, each whole, those of one process in their order. -/
theorem pool_log {R W : Set Path} {log : Path} (hRW : Disjoint R W) {d : Disk} {ps : List Prog}
    (hW : ∀ p ∈ ps, Within R W p ∧ OnlyAdds log p) (s : List ℕ) :
    ∃ es : List (ℕ × Str), ((pool (d, ps) s).1 log).getD [] = (d log).getD [] ++ (es.map Prod.snd).flatten ∧
      ∀ i p, ps[i]? = some p → ∃ q, (pool (d, ps) s).2[i]? = some q ∧
        (es.filter (·.1 = i)).map Prod.snd ++ added log d q = added log d p := by
  have key := pool_induct (d := d) (ps := ps)
    (motive := fun d' qs => (∀ q ∈ R, d' q = d q) ∧ (∀ p ∈ qs, Within R W p ∧ OnlyAdds log p) ∧
      ∃ es : List (ℕ × Str), (d' log).getD [] = (d log).getD [] ++ (es.map Prod.snd).flatten ∧
        ∀ i p, ps[i]? = some p → ∃ q, qs[i]? = some q ∧ (es.filter (·.1 = i)).map Prod.snd ++ added log d q = added log d p)
    ?_ ⟨fun _ _ => rfl, hW, [], by simp, fun i p hp => ⟨p, hp, rfl⟩⟩ s
  · exact key.2.2
  · rintro d' qs j q ⟨hR, hw, es, he, hes⟩ hq
    have hwq := hw q (List.mem_of_getElem? hq)
    refine ⟨fun r hr => ?_, fun r hr => ?_, ?_⟩
    · rw [step_other hwq.1 _ (Set.disjoint_left.mp hRW hr)]
      exact hR r hr
    · rcases List.mem_or_eq_of_mem_set hr with h1 | h1
      · exact hw r h1
      · rw [h1]; exact ⟨hwq.1.step _, hwq.2.step _⟩
    · have hlt := (List.getElem?_eq_some_iff.mp hq).1
      rcases step_added hwq.1 hwq.2 hR with ⟨e1, e2⟩ | ⟨t, e1, e2⟩
      · refine ⟨es, by rw [e1]; exact he, fun i p hp => ?_⟩
        obtain ⟨r, h1, h2⟩ := hes i p hp
        by_cases hij : j = i
        · subst hij
          rw [hq] at h1
          cases h1
          exact ⟨_, List.getElem?_set_self hlt, by rw [← e2]; exact h2⟩
        · exact ⟨r, by rw [List.getElem?_set_ne hij]; exact h1, h2⟩
      · refine ⟨es ++ [(j, t)], ?_, fun i p hp => ?_⟩
        · rw [e1]
          simp [he]
        · obtain ⟨r, h1, h2⟩ := hes i p hp
          by_cases hij : j = i
          · subst hij
            rw [hq] at h1
            cases h1
            refine ⟨_, List.getElem?_set_self hlt, ?_⟩
            rw [← h2, e2]
            simp
          · refine ⟨r, by rw [List.getElem?_set_ne hij]; exact h1, ?_⟩
            rw [← h2]
            simp [hij]

/-! ### Copies of one file -/

theorem overwrite_getElem? (old : Str) (pos : ℕ) (text : Str) (x : ℕ) :
    (overwrite old pos text)[x]? =
      if x < pos then (if x < old.length then old[x]? else some (Char.ofNat 0))
      else if x < pos + text.length then text[x - pos]? else old[x]? := by
  unfold overwrite
  have hl : (old.take pos ++ List.replicate (pos - old.length) (Char.ofNat 0)).length = pos := by
    simp only [List.length_append, List.length_take, List.length_replicate]; omega
  by_cases h1 : x < pos
  · rw [if_pos h1, List.append_assoc, List.getElem?_append_left (by rw [hl]; exact h1)]
    by_cases h2 : x < old.length
    · rw [if_pos h2, List.getElem?_append_left (by rw [List.length_take]; omega), List.getElem?_take_of_lt h1]
    · rw [if_neg h2, List.getElem?_append_right (by rw [List.length_take]; omega), List.getElem?_replicate, if_pos]
      rw [List.length_take]; omega
  · rw [if_neg h1]
    by_cases h2 : x < pos + text.length
    · rw [if_pos h2, List.getElem?_append_left (by rw [List.length_append, hl]; exact h2),
        List.getElem?_append_right (by rw [hl]; omega), hl]
    · rw [if_neg h2, List.getElem?_append_right (by rw [List.length_append, hl]; omega), List.getElem?_drop,
        List.length_append, hl]
      congr 1
      omega

theorem overwrite_length (old : Str) (pos : ℕ) (text : Str) :
    (overwrite old pos text).length = max (pos + text.length) old.length := by
  unfold overwrite
  simp only [List.length_append, List.length_take, List.length_replicate, List.length_drop]
  omega

/-- Operations on the file `P` are those of copies of the text `c`; `m` characters have been written since it was last
emptied by this process, or it has not been. The files that are read are those of `d0`. -/
def Copies (P : Path) (c : Str) (d0 : Disk) : ℕ → Prog → Prop
  | m, .done => m = c.length
  | m, .read p next =>
    match d0 p with
    | none => m = c.length
    | some t => Copies P c d0 m (next t)
  | m, .op (.create p) next => if p = P then Copies P c d0 0 next else Copies P c d0 m next
  | m, .op (.append p _) next => p ≠ P ∧ Copies P c d0 m next
  | m, .op (.writeAt p pos t) next =>
    if p = P then pos = m ∧ m + t.length ≤ c.length ∧ (∀ x < t.length, t[x]? = c[m + x]?) ∧ Copies P c d0 (m + t.length) next
    else Copies P c d0 m next

/-- A file of which the first `m` characters are those of `c`, and which is not longer. -/
def Good (c f : Str) (m : ℕ) : Prop := f.length ≤ c.length ∧ m ≤ f.length ∧ ∀ x < m, f[x]? = c[x]?

theorem good_overwrite {c f t : Str} {M m : ℕ} (h : Good c f M) (hm : m + t.length ≤ c.length)
    (ht : ∀ x < t.length, t[x]? = c[m + x]?) :
    Good c (overwrite f m t) M ∧ (m = M → Good c (overwrite f m t) (m + t.length)) := by
  obtain ⟨h1, h2, h3⟩ := h
  have key : ∀ M', (∀ x, x < M' → x < M ∨ (m ≤ x ∧ x < m + t.length)) → ∀ x < M', (overwrite f m t)[x]? = c[x]? := by
    intro M' hM x hx
    rw [overwrite_getElem?]
    by_cases a : x < m
    · rw [if_pos a, if_pos (by rcases hM x hx with b | b <;> omega)]
      exact h3 x (by rcases hM x hx with b | b <;> omega)
    · rw [if_neg a]
      by_cases b : x < m + t.length
      · rw [if_pos b, ht (x - m) (by omega)]
        congr 1; omega
      · rw [if_neg b]
        exact h3 x (by rcases hM x hx with b | b <;> omega)
  refine ⟨⟨?_, ?_, key M fun x hx => Or.inl hx⟩, fun e => ⟨?_, ?_, key _ fun x hx => ?_⟩⟩
  · rw [overwrite_length]; omega
  · rw [overwrite_length]; omega
  · rw [overwrite_length]; omega
  · rw [overwrite_length]; omega
  · omega

theorem good_full {c f : Str} (h : Good c f c.length) : f = c := by
  obtain ⟨h1, h2, h3⟩ := h
  apply List.ext_getElem?
  intro x
  by_cases hx : x < c.length
  · exact h3 x hx
  · rw [List.getElem?_eq_none (by omega), List.getElem?_eq_none (by omega)]

/-- One operation of one of the processes that copy `c` to `P`. Either the process becomes the last one that emptied the file,
or what was there stays. -/
theorem step_copies {R W : Set Path} {P : Path} {c : Str} {d d0 : Disk} {m : ℕ} {p : Prog} (hw : Within R W p)
    (hd : ∀ q ∈ R, d q = d0 q) (h : Copies P c d0 m p) {f : Str} (hf : d P = some f) :
    ∃ f' m', (step d p).1 P = some f' ∧ Copies P c d0 m' (step d p).2 ∧
      ((∀ M, Good c f M → Good c f' M) ∧ (Good c f m → Good c f' m') ∨ Good c f' m') := by
  cases p with
  | done => exact ⟨f, m, hf, h, Or.inl ⟨fun _ h => h, fun h => h⟩⟩
  | read q next =>
    refine ⟨f, m, ?_, ?_, Or.inl ⟨fun _ h => h, fun h => h⟩⟩
    · simp only [step]; split <;> exact hf
    · rw [Copies, ← hd q hw.1] at h
      simp only [step]
      cases hq : d q with
      | none => rw [hq] at h; exact h
      | some t => rw [hq] at h; exact h
  | op o next =>
    cases o with
    | create p =>
      rw [Copies] at h
      by_cases hp : p = P
      · rw [if_pos hp] at h
        subst hp
        exact ⟨[], 0, by simp [step, doOp], h, Or.inr ⟨by simp, by simp, fun x hx => by omega⟩⟩
      · rw [if_neg hp] at h
        refine ⟨f, m, ?_, h, Or.inl ⟨fun _ h => h, fun h => h⟩⟩
        rw [← hf]
        exact doOp_other (o := .create p) fun e => hp e.symm
    | append p t =>
      refine ⟨f, m, ?_, h.2, Or.inl ⟨fun _ h => h, fun h => h⟩⟩
      rw [← hf]
      exact doOp_other (o := .append p t) fun e => h.1 e.symm
    | writeAt p pos t =>
      rw [Copies] at h
      by_cases hp : p = P
      · rw [if_pos hp] at h
        obtain ⟨h1, h2, h3, h4⟩ := h
        subst hp h1
        refine ⟨overwrite f pos t, pos + t.length, by simp [step, doOp, hf], h4, Or.inl ⟨fun M hM => ?_, fun hM => ?_⟩⟩
        · exact (good_overwrite hM h2 h3).1
        · exact (good_overwrite hM h2 h3).2 rfl
      · rw [if_neg hp] at h
        refine ⟨f, m, ?_, h, Or.inl ⟨fun _ h => h, fun h => h⟩⟩
        rw [← hf]
        exact doOp_other (o := .writeAt p pos t) fun e => hp e.symm

/-- If all processes have ended, the copy is complete. -/
theorem pool_copy {R W : Set Path} {P : Path} {c : Str} (hRW : Disjoint R W) {d : Disk} {ps : List Prog}
    (hW : ∀ p ∈ ps, Within R W p ∧ Copies P c d c.length p) (hf : d P = some c) (s : List ℕ)
    (hs : ∀ p ∈ (pool (d, ps) s).2, p = .done) : (pool (d, ps) s).1 P = some c := by
  have key := pool_induct (d := d) (ps := ps)
    (motive := fun d' qs => (∀ q ∈ R, d' q = d q) ∧ (∀ p ∈ qs, Within R W p) ∧
      ∃ (m : ℕ → ℕ) (f : Str), d' P = some f ∧ (∀ i p, qs[i]? = some p → Copies P c d (m i) p) ∧
        (Good c f c.length ∨ ∃ j p, qs[j]? = some p ∧ Good c f (m j)))
    ?_ ⟨fun _ _ => rfl, fun p hp => (hW p hp).1, fun _ => c.length, c, hf, fun i p hp => (hW p (List.mem_of_getElem? hp)).2,
      Or.inl ⟨le_rfl, le_rfl, fun _ _ => rfl⟩⟩ s
  · obtain ⟨-, -, m, f, h1, h2, h3⟩ := key
    rw [h1]
    rcases h3 with h3 | ⟨j, p, hp, h3⟩
    · rw [good_full h3]
    · have := hs p (List.mem_of_getElem? hp)
      subst this
      have hm : m j = c.length := h2 j _ hp
      rw [hm] at h3
      rw [good_full h3]
  · rintro d' qs i p ⟨hR, hw, m, f, h1, h2, h3⟩ hp
    have hwp := hw p (List.mem_of_getElem? hp)
    have hlt := (List.getElem?_eq_some_iff.mp hp).1
    obtain ⟨f', m', e1, e2, e3⟩ := step_copies hwp hR (h2 i p hp) h1
    refine ⟨fun r hr => ?_, fun r hr => ?_, Function.update m i m', f', e1, fun j q hq => ?_, ?_⟩
    · rw [step_other hwp _ (Set.disjoint_left.mp hRW hr)]
      exact hR r hr
    · rcases List.mem_or_eq_of_mem_set hr with h | h
      · exact hw r h
      · rw [h]; exact hwp.step _
    · by_cases hij : i = j
      · subst hij
        rw [List.getElem?_set_self hlt] at hq
        cases hq
        rw [Function.update_self]
        exact e2
      · rw [List.getElem?_set_ne hij] at hq
        rw [Function.update_of_ne (fun e => hij e.symm)]
        exact h2 j q hq
    · rcases e3 with ⟨g1, g2⟩ | g
      · rcases h3 with h3 | ⟨j, q, hq, h3⟩
        · exact Or.inl (g1 _ h3)
        · right
          by_cases hij : i = j
          · subst hij
            exact ⟨i, _, List.getElem?_set_self hlt, by rw [Function.update_self]; exact g2 h3⟩
          · refine ⟨j, q, by rw [List.getElem?_set_ne hij]; exact hq, ?_⟩
            rw [Function.update_of_ne (fun e => hij e.symm)]
            exact g1 _ h3
      · exact Or.inr ⟨i, _, List.getElem?_set_self hlt, by rw [Function.update_self]; exact g⟩

end SBayes.Par
