import Verif.Lemmas.LogRead
import Verif.Props.MCMC
import Verif.Spec.OpStats
/-
C78: the operator statistics file.
-/
namespace SBayes.Log
open SBayes.MCMC
open scoped BigOperators

theorem stripRight_ljust (s : Str) (w : ℕ) (h : s.getLast? ≠ some ' ') : stripRight (ljust s w) = s := by
  unfold stripRight ljust
  rw [List.reverse_append, List.reverse_replicate]
  have hd : ∀ n, (List.replicate n ' ' ++ s.reverse).dropWhile (fun ch => ch = ' ') = s.reverse.dropWhile (fun ch => ch = ' ') := by
    intro n
    induction n with
    | zero => rfl
    | succ n ih => rw [List.replicate_succ, List.cons_append, List.dropWhile_cons]; simpa only [decide_true, if_true] using ih
  rw [hd]
  rw [← List.head?_reverse] at h
  cases hr : s.reverse with
  | nil => rw [List.reverse_eq_nil_iff.mp hr]; rfl
  | cons a l =>
    rw [hr] at h
    have ha : a ≠ ' ' := fun e => h (by rw [e]; rfl)
    rw [List.dropWhile_cons, if_neg (by simpa using ha), ← hr, List.reverse_reverse]

theorem stripRight_self (s : Str) (h : s.getLast? ≠ some ' ') : stripRight s = s := by
  have := stripRight_ljust s 0 h
  rwa [ljust, Nat.zero_sub, List.replicate_zero, List.append_nil] at this

theorem num_digits (n : ℕ) : ∀ ch ∈ num n, ch.isDigit = true := fun _ h => Nat.isDigit_of_mem_toDigits (by norm_num) (by norm_num) h

theorem clean_of_digits {s : Str} (h : ∀ ch ∈ s, ch.isDigit = true) : CleanName s := by
  refine ⟨fun hm => ?_, fun hm => ?_, fun hl => ?_⟩
  · exact absurd (h _ hm) (by decide)
  · exact absurd (h _ hm) (by decide)
  · exact absurd (h _ (List.mem_of_getLast? hl)) (by decide)

theorem percent_plain (a t : ℕ) : CleanName (percent2 a t) := by
  have hd := fun n => clean_of_digits (num_digits n)
  unfold percent2
  refine ⟨?_, ?_, ?_⟩
  · simp only [List.mem_append, not_or]
    exact ⟨⟨⟨⟨(hd _).1, by decide⟩, (hd _).1⟩, (hd _).1⟩, by decide⟩
  · simp only [List.mem_append, not_or]
    exact ⟨⟨⟨⟨(hd _).2.1, by decide⟩, (hd _).2.1⟩, (hd _).2.1⟩, by decide⟩
  · rw [show lit "%" = ['%'] from by decide, List.getLast?_append]
    simp

theorem ljust_plain {s : Str} (w : ℕ) {ch : Char} (hb : ch ≠ ' ') (h : ch ∉ s) : ch ∉ ljust s w := by
  unfold ljust
  simp only [List.mem_append, not_or]
  exact ⟨h, fun hm => hb (List.eq_of_mem_replicate hm)⟩

theorem row_cells {l : List (Str × Option ℕ)} (h : ∀ c ∈ l, CleanName c.1) (hne : l ≠ []) :
    '\n' ∉ tabJoin (l.map fun c => match c.2 with | some w => ljust c.1 w | none => c.1) ∧
    ((tabJoin (l.map fun c => match c.2 with | some w => ljust c.1 w | none => c.1)).splitOn '\t').map stripRight =
      l.map Prod.fst := by
  have hj : ∀ ch, ch ≠ ' ' → (∀ c ∈ l, ch ∉ c.1) →
      ∀ f ∈ l.map (fun c : Str × Option ℕ => match c.2 with | some w => ljust c.1 w | none => c.1), ch ∉ f := by
    intro ch hb hn f hf
    obtain ⟨c, hc, rfl⟩ := List.mem_map.mp hf
    rcases c with ⟨c, _ | w⟩
    · exact hn _ hc
    · exact ljust_plain w hb (hn _ hc)
  constructor
  · exact tabJoin_no_newline (hj '\n' (by decide) (fun c hc => (h c hc).2.1))
  · rw [split_tabJoin _ (hj '\t' (by decide) (fun c hc => (h c hc).1)) (by simpa using hne), List.map_map]
    refine List.map_congr_left fun c hc => ?_
    rcases c with ⟨c, _ | w⟩
    · exact stripRight_self _ (h _ hc).2.2
    · exact stripRight_ljust _ w (h _ hc).2.2

theorem header_cells : '\n' ∉ opHeader ∧ (opHeader.splitOn '\t').map stripRight =
    [lit "OPERATOR", lit "ACCEPTS", lit "REJECTS", lit "TOTAL", lit "ACC. RATE"] :=
  row_cells (l := [(lit "OPERATOR", some 20), (lit "ACCEPTS", some 8), (lit "REJECTS", some 8), (lit "TOTAL", some 8),
    (lit "ACC. RATE", none)]) (by
      intro c hc
      simp only [List.mem_cons, List.not_mem_nil, or_false] at hc
      rcases hc with rfl | rfl | rfl | rfl | rfl <;> exact ⟨by decide, by decide, by decide⟩) (by simp)

theorem round_close (p q : ℕ) (hq : 0 < q) : |((roundHalfEven p q : ℕ) : ℚ) - p / q| ≤ 1 / 2 := by
  have hq' : (0 : ℚ) < q := by exact_mod_cast hq
  have hdiv : (p : ℚ) / q = ((p / q : ℕ) : ℚ) + ((p % q : ℕ) : ℚ) / q := by
    rw [eq_comm, ← mul_right_inj' hq'.ne', mul_add, mul_div_cancel₀ _ hq'.ne', mul_div_cancel₀ _ hq'.ne']
    exact_mod_cast Nat.div_add_mod p q
  have hlt : p % q < q := Nat.mod_lt p hq
  have hlt' : ((p % q : ℕ) : ℚ) / q < 1 := by rw [div_lt_one hq']; exact_mod_cast hlt
  have h0 : 0 ≤ ((p % q : ℕ) : ℚ) / q := div_nonneg (Nat.cast_nonneg _) hq'.le
  have hle : 2 * (p % q) ≤ q → ((p % q : ℕ) : ℚ) / q ≤ 1 / 2 := by
    intro h
    rw [div_le_div_iff₀ hq' (by norm_num)]
    have : ((p % q : ℕ) : ℚ) * 2 ≤ q := by exact_mod_cast (by omega : (p % q) * 2 ≤ q)
    linarith
  have hge : q ≤ 2 * (p % q) → 1 / 2 ≤ ((p % q : ℕ) : ℚ) / q := by
    intro h
    rw [div_le_div_iff₀ (by norm_num) hq']
    have : (q : ℚ) ≤ ((p % q : ℕ) : ℚ) * 2 := by exact_mod_cast (by omega : q ≤ (p % q) * 2)
    linarith
  unfold roundHalfEven
  rw [hdiv, abs_le]
  split
  · have := hle (by omega); constructor <;> linarith
  · split
    · have := hge (by omega)
      push_cast
      constructor <;> linarith
    · have h1 := hle (by omega)
      have h2 := hge (by omega)
      split
      · constructor <;> linarith
      · push_cast
        constructor <;> linarith

theorem percent_rate (a t : ℕ) (ht : 0 < t) : RateText (percent2 a t) a t := by
  have h := round_close (10000 * a) t ht
  unfold percent2
  generalize roundHalfEven (10000 * a) t = r at h
  refine ⟨r / 100, r % 100 / 10, r % 100 % 10, by omega, by omega, rfl, ?_⟩
  have hr : (r : ℚ) = 100 * ((r / 100 : ℕ) : ℚ) + 10 * ((r % 100 / 10 : ℕ) : ℚ) + ((r % 100 % 10 : ℕ) : ℚ) := by
    exact_mod_cast (by omega : r = 100 * (r / 100) + 10 * (r % 100 / 10) + r % 100 % 10)
  rw [hr] at h
  push_cast at h ⊢
  rw [abs_le] at h ⊢
  have e : 10000 * (a : ℚ) / t = 100 * (100 * a / t) := by ring
  rw [e] at h
  constructor <;> linarith [h.1, h.2]

theorem opRow_cells (o : OpCount) (h : CleanName o.name) :
    '\n' ∉ opRow o ∧ RowOf o (((opRow o).splitOn '\t').map stripRight) := by
  have hd : CleanName (lit "-") := ⟨by decide, by decide, by decide⟩
  by_cases h0 : o.accepts + o.rejects = 0
  · have := row_cells (l := [(o.name, some 20), (lit "-", some 8), (lit "-", some 8), (lit "-", some 8), (lit "-", some 10)])
      (by
        intro c hc
        simp only [List.mem_cons, List.not_mem_nil, or_false] at hc
        rcases hc with rfl | rfl | rfl | rfl | rfl <;> first | exact h | exact hd) (by simp)
    unfold opRow RowOf
    rw [if_pos h0, if_pos h0]
    exact this
  · have hn := fun n => clean_of_digits (num_digits n)
    have := row_cells (l := [(o.name, some 20), (num o.accepts, some 8), (num o.rejects, some 8),
        (num (o.accepts + o.rejects), some 8), (percent2 o.accepts (o.accepts + o.rejects), none)])
      (by
        intro c hc
        simp only [List.mem_cons, List.not_mem_nil, or_false] at hc
        rcases hc with rfl | rfl | rfl | rfl | rfl
        · exact h
        · exact hn _
        · exact hn _
        · exact hn _
        · exact percent_plain _ _) (by simp)
    unfold opRow RowOf
    rw [if_neg h0, if_neg h0]
    exact ⟨this.1, _, percent_rate _ _ (by omega), this.2⟩

/-- **C78.** The operator statistics file can be read back: a header and one row per operator in their order, with the name,
the numbers of accepted and rejected proposals, their sum and the acceptance rate in per cent rounded to two decimals. -/
theorem C78_file_reads_back (disk : Str) (ops : List OpCount) (h : ∀ o ∈ ops, CleanName o.name) :
    ∃ rows, cells (writeOpStats disk ops) = ["OPERATOR".toList, "ACCEPTS".toList, "REJECTS".toList, "TOTAL".toList,
      "ACC. RATE".toList] :: rows ∧ List.Forall₂ RowOf ops rows := by
  refine ⟨ops.map fun o => ((opRow o).splitOn '\t').map stripRight, ?_, ?_⟩
  · unfold cells writeOpStats opFile
    rw [split_fileText, List.dropLast_concat, List.map_cons, header_cells.2, List.map_map]
    · rfl
    · intro l hl
      rcases List.mem_cons.mp hl with rfl | hl
      · exact header_cells.1
      · obtain ⟨o, ho, rfl⟩ := List.mem_map.mp hl
        exact (opRow_cells o (h o ho)).1
  · rw [List.forall₂_map_right_iff]
    refine List.forall₂_same.mpr fun o ho => (opRow_cells o (h o ho)).2

/-- Two files are equal only if names and counts are. -/
theorem C78_file_determines_counts (disk disk' : Str) (ops ops' : List OpCount) (h : ∀ o ∈ ops, CleanName o.name)
    (h' : ∀ o ∈ ops', CleanName o.name) (he : writeOpStats disk ops = writeOpStats disk' ops') : ops = ops' := by
  obtain ⟨rows, e1, f1⟩ := C78_file_reads_back disk ops h
  obtain ⟨rows', e2, f2⟩ := C78_file_reads_back disk' ops' h'
  rw [he, e2] at e1
  obtain ⟨-, rfl⟩ := List.cons.inj e1
  have hdash : ∀ n : ℕ, Nat.toDigits 10 n ≠ ['-'] := by
    intro n hn
    have := num_digits n '-' (by show '-' ∈ Nat.toDigits 10 n; rw [hn]; simp)
    revert this; decide
  clear e1 e2 he h h'
  induction f1 generalizing ops' with
  | nil => cases f2; rfl
  | @cons o r ops rows ho _ ih =>
    cases f2 with
    | @cons o' _ ops' _ ho' f2 =>
      rw [ih ops' f2]
      congr 1
      obtain ⟨n, a, b⟩ := o
      obtain ⟨n', a', b'⟩ := o'
      unfold RowOf at ho ho'
      dsimp only at ho ho'
      split at ho <;> split at ho'
      · rw [ho] at ho'
        simp only [List.cons.injEq, and_true] at ho'
        obtain ⟨rfl, -⟩ := ho'
        congr 1 <;> omega
      · obtain ⟨rate, -, ho'⟩ := ho'
        rw [ho] at ho'
        exact absurd (List.cons.inj (List.cons.inj ho').2).1.symm (hdash _)
      · obtain ⟨rate, -, ho⟩ := ho
        rw [ho] at ho'
        exact absurd (List.cons.inj (List.cons.inj ho').2).1 (hdash _)
      · obtain ⟨rate, -, ho⟩ := ho
        obtain ⟨rate', -, ho'⟩ := ho'
        rw [ho] at ho'
        simp only [List.cons.injEq] at ho'
        obtain ⟨rfl, ha, hb, -⟩ := ho'
        rw [num_inj ha, num_inj hb]

variable {σ D : Type} {nC P : ℕ}

/-- In a run, the file written after the events `es` shows for every operator how often it was used up to then: the totals
add up to the number of steps of all chains, whatever was written before. -/
theorem C78_totals_count_the_steps (L Pr : σ → EReal) (ops : Fin P → D → σ → OpResult σ) (hops : ∀ i, Contract (ops i))
    (x : Fin nC → σ) (es : List (MCMC.Event D nC P)) (name : Fin P → Str) (hn : ∀ i, CleanName (name i)) (disk : Str) :
    ∃ counts, writeOpStats disk (opCounts name (steps L Pr ops es (start L Pr x))) = writeOpStats [] counts ∧
      (∀ o ∈ counts, CleanName o.name) ∧ counts.map OpCount.name = (List.finRange P).map name ∧
      (∀ i : Fin P, ∃ o, counts[i.val]? = some o ∧ o.accepts + o.rejects = uses es i) ∧
      (counts.map fun o => o.accepts + o.rejects).sum = es.length := by
  have hb := C27_books L Pr ops hops x es
  refine ⟨opCounts name (steps L Pr ops es (start L Pr x)), rfl, ?_, ?_, ?_, ?_⟩
  · intro o ho
    obtain ⟨i, -, rfl⟩ := List.mem_map.mp ho
    exact hn i
  · unfold opCounts; rw [List.map_map]; rfl
  · intro i
    refine ⟨⟨name i, (steps L Pr ops es (start L Pr x)).opAcc i, (steps L Pr ops es (start L Pr x)).opRej i⟩,
      by simp [opCounts], ?_⟩
    dsimp only
    rw [hb.opAcc, hb.opRej]
    exact hb.used i
  · unfold opCounts
    rw [List.map_map]
    have : (fun i => uses es i) = ((fun o : OpCount => o.accepts + o.rejects) ∘ fun i : Fin P =>
        (⟨name i, (steps L Pr ops es (start L Pr x)).opAcc i, (steps L Pr ops es (start L Pr x)).opRej i⟩ : OpCount)) := by
      funext i
      show _ = _ + _
      dsimp only
      rw [hb.opAcc, hb.opRej, hb.used i]
    rw [← this, ← Fin.sum_univ_def]
    clear this hb
    induction es with
    | nil => simp [uses]
    | cons e es ih =>
      have : ∀ i, uses (e :: es) i = (if e.op = i then 1 else 0) + uses es i := by
        intro i; unfold uses
        by_cases h : e.op = i <;> simp [h, Nat.add_comm]
      simp only [this, Finset.sum_add_distrib, ih]
      simp [Nat.add_comm]

/-- Rows are told apart by their names exactly if there is at most one confounder: the names are those of the classes, and
the operators of all confounders have the same class. (Without confounders `get_operators` raises, C32.) -/
theorem C78_names_distinct_iff (sampleSource : Bool) (M : ℕ) (cfg : OpConfig) (l : List (OpKind M × ℝ))
    (h : getOperators sampleSource M cfg = .ok l) :
    (l.map fun o => className sampleSource o.1).Nodup ↔ M ≤ 1 := by
  unfold getOperators at h
  split at h
  · cases h
  · rename_i hM
    cases h
    have hconf : ∀ r : ℝ, (((List.finRange M).map fun c => (OpKind.confounding c, r)).map fun o => className sampleSource o.1) =
        List.replicate M (if sampleSource then lit "GibbsSampleConfoundingEffects" else lit "AlterConfoundingEffects") := by
      intro r
      rw [List.map_map]
      refine List.eq_replicate_iff.mpr ⟨by simp, ?_⟩
      intro b hb
      obtain ⟨c, -, rfl⟩ := List.mem_map.mp hb
      rfl
    constructor
    · intro hnd
      have hsub : (List.replicate M (if sampleSource then lit "GibbsSampleConfoundingEffects" else
          lit "AlterConfoundingEffects")).Nodup := by
        cases sampleSource <;> simp only [Bool.false_eq_true, if_true, if_false, List.map_append] at hnd hconf ⊢ <;>
          rw [hconf] at hnd <;> exact (List.nodup_append.mp hnd).2.1
      exact List.nodup_replicate.mp hsub
    · intro h1
      have : M = 1 := by omega
      subst this
      cases sampleSource <;> simp only [Bool.false_eq_true, if_true, if_false, List.map_append] at hconf ⊢ <;> rw [hconf] <;>
        simp only [List.map_cons, List.map_nil, className, Bool.false_eq_true, if_true, if_false] <;> decide

/-- **The rows cannot be attributed**: with two confounders two rows have the same name. -/
theorem C78_row_names_false : ∃ (sampleSource : Bool) (l : List (OpKind 2 × ℝ)) (cfg : OpConfig),
    getOperators sampleSource 2 cfg = .ok l ∧ ¬ (l.map fun o => className sampleSource o.1).Nodup := by
  refine ⟨true, _, ⟨1, 1, 1, 1, 1⟩, rfl, ?_⟩
  rw [C78_names_distinct_iff true 2 ⟨1, 1, 1, 1, 1⟩ _ rfl]
  decide

/-- Case of C78: an operator that was used three times and one that was not used. -/
example : cells (writeOpStats [] [⟨lit "AlterWeights", 2, 1⟩, ⟨lit "AlterCluster", 0, 0⟩]) =
    [[lit "OPERATOR", lit "ACCEPTS", lit "REJECTS", lit "TOTAL", lit "ACC. RATE"],
      [lit "AlterWeights", lit "2", lit "1", lit "3", lit "66.67%"], [lit "AlterCluster", lit "-", lit "-", lit "-", lit "-"]] := by
  decide

end SBayes.Log
