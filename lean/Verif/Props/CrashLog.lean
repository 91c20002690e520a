import Verif.Props.Log
import Verif.Props.OpStats
import Verif.Spec.CrashLog
/-
C79: an interrupted run.
-/
namespace SBayes.Log

/-! ### Crash points -/

theorem crash_cons_zero (d : Disk) (op : DiskOp) (ops : List DiskOp) (k : ℕ) :
    crash d (op :: ops) 0 k = match op with | .append f t => diskStep d (.append f (t.take k)) | .create _ => d := by
  cases op <;> rfl

theorem crash_cons_succ (d : Disk) (op : DiskOp) (ops : List DiskOp) (n k : ℕ) :
    crash d (op :: ops) (n + 1) k = crash (diskStep d op) ops n k := rfl

theorem crash_append (d : Disk) (A B : List DiskOp) (n k : ℕ) :
    crash d (A ++ B) n k = if n < A.length then crash d A n k else crash (A.foldl diskStep d) B (n - A.length) k := by
  induction A generalizing d n with
  | nil => simp
  | cons op A ih =>
    cases n with
    | zero => simp [List.cons_append, crash_cons_zero]
    | succ n =>
      rw [List.cons_append, crash_cons_succ, ih, crash_cons_succ]
      simp

theorem crash_nil (d : Disk) (n k : ℕ) : crash d [] n k = d := by simp [crash]

/-! ### Complete lines -/

theorem completeLines_file (ls : List Str) (h : ∀ l ∈ ls, '\n' ∉ l) (p : Str) (hp : '\n' ∉ p) :
    completeLines (fileText ls ++ p) = ls := by
  unfold completeLines
  induction ls with
  | nil =>
    have := List.splitOn_intercalate '\n' (ls := [p]) (by simpa using hp) (by simp)
    rw [show ['\n'].intercalate [p] = p by simp [List.intercalate]] at this
    simp [fileText, this]
  | cons l ls ih =>
    have : fileText (l :: ls) ++ p = l ++ '\n' :: (fileText ls ++ p) := by simp [fileText]
    rw [this, List.splitOn_append_cons_self_of_not_mem (h l (by simp)), List.dropLast_cons_of_ne_nil (List.splitOn_ne_nil _ _),
      ih (fun l hl => h l (by simp [hl]))]

theorem fileText_append (ls ls' : List Str) : fileText (ls ++ ls') = fileText ls ++ fileText ls' := by
  simp [fileText]

/-- A line that is being written is either incomplete or complete. -/
theorem take_line (l : Str) (k : ℕ) (hl : '\n' ∉ l) :
    ('\n' ∉ (l ++ ['\n']).take k) ∨ (l ++ ['\n']).take k = l ++ ['\n'] := by
  by_cases h : k ≤ l.length
  · left
    rw [List.take_append_of_le_length h]
    exact fun hm => hl (List.mem_of_mem_take hm)
  · right
    exact List.take_of_length_le (by simp; omega)

theorem completeLines_writing (ls : List Str) (h : ∀ l ∈ ls, '\n' ∉ l) (l : Str) (hl : '\n' ∉ l) (k : ℕ) :
    completeLines (fileText ls ++ (l ++ ['\n']).take k) = ls ∨
      completeLines (fileText ls ++ (l ++ ['\n']).take k) = ls ++ [l] := by
  rcases take_line l k hl with hk | hk
  · exact Or.inl (completeLines_file ls h _ hk)
  · right
    rw [hk]
    have : fileText ls ++ (l ++ ['\n']) = fileText (ls ++ [l]) ++ [] := by simp [fileText]
    rw [this]
    exact completeLines_file _ (by
      intro x hx
      rcases List.mem_append.mp hx with hx | hx
      · exact h x hx
      · rw [List.mem_singleton.mp hx]; exact hl) [] (by simp)

/-! ### One sample -/

variable {S : Schema} {K N : ℕ} {contrib : Bool} {fmt : EReal → Str}

theorem header_no_newline (hP : PlainText S) : '\n' ∉ tabJoin (header S K contrib) := by
  rw [header_eq]
  refine tabJoin_no_newline fun f hf => ?_
  obtain ⟨c, hc, rfl⟩ := List.mem_map.mp hf
  exact (column_plain S hP K contrib c hc).2

theorem cluster_line (cs : List (List Bool)) : '\n' ∉ formatClusters cs := by
  refine tabJoin_no_newline fun f hf => ?_
  obtain ⟨c, -, rfl⟩ := List.mem_map.mp hf
  intro h
  obtain ⟨b, -, hb⟩ := List.mem_map.mp h
  cases b <;> simp at hb

theorem writeClusters_file (c : LogState) (x : Snapshot) :
    ∃ cs, (writeClusters K N c x).file = (if c.isOpen then c.file else []) ++ [formatClusters cs] := by
  unfold writeClusters
  dsimp only
  split <;> exact ⟨_, rfl⟩

/-- What logging a sample adds to the files. -/
theorem logStep_write (hfmt : ∀ v, '\n' ∉ fmt v) {pc pc' : LogState × LogState} {x : Snapshot}
    (h : logStep S K N contrib fmt pc (.write x) = some pc') :
    ∃ row crow, '\n' ∉ row ∧ '\n' ∉ crow ∧ pc'.1.isOpen = true ∧ pc'.2.isOpen = true ∧
      pc'.1.file = (if pc.1.isOpen then pc.1.file else [tabJoin (header S K contrib)]) ++ [row] ∧
      (pc.1.isOpen = false → pc'.1.columns = header S K contrib) ∧
      pc'.2.file = (if pc.2.isOpen then pc.2.file else []) ++ [crow] := by
  obtain ⟨p, c⟩ := pc
  unfold logStep at h
  dsimp only at h
  split at h
  · cases h
  · rename_i p' hp
    cases h
    unfold writeParams at hp
    dsimp only at hp
    split at hp
    · cases hp
    · rename_i vals _
      cases hp
      obtain ⟨cs, hcs⟩ := writeClusters_file (K := K) (N := N) c x
      refine ⟨tabJoin (vals.map fmt), formatClusters cs, ?_, cluster_line _, ?_, ?_, ?_, ?_, hcs⟩
      · refine tabJoin_no_newline fun f hf => ?_
        obtain ⟨v, -, rfl⟩ := List.mem_map.mp hf
        exact hfmt v
      · dsimp only; split
        · assumption
        · rfl
      · dsimp only [writeClusters]; split
        · assumption
        · rfl
      · dsimp only; split <;> rfl
      · intro ho; dsimp only at ho ⊢; rw [ho]; rfl

/-- Between two samples: the loggers are both open or both closed, and the files hold what was written. -/
structure Live (pc : LogState × LogState) (d : Disk) : Prop where
  both : pc.2.isOpen = pc.1.isOpen
  stats : pc.1.isOpen = true → d .stats = fileText pc.1.file
  stats0 : pc.1.isOpen = false → d .stats = []
  clusters : d .clusters = fileText pc.2.file
  clusters0 : pc.1.isOpen = false → pc.2.file = []
  plain : ∀ l ∈ pc.1.file, '\n' ∉ l
  plainC : ∀ l ∈ pc.2.file, '\n' ∉ l

/-- The files in the middle of logging a sample: nothing of it yet (`pre`: apart from a header), only the statistics, or both. -/
inductive Within (hd : Str) (pc pc' : LogState × LogState) (d : Disk) : ℕ → ℕ → Prop
  | nothing (hs : completeLines (d .stats) = if pc.1.isOpen then pc.1.file else []) (hc : completeLines (d .clusters) = pc.2.file) :
      Within hd pc pc' d 0 0
  | header (ho : pc.1.isOpen = false) (hs : completeLines (d .stats) = [hd]) (hc : completeLines (d .clusters) = pc.2.file) :
      Within hd pc pc' d 0 0
  | stats (hs : completeLines (d .stats) = pc'.1.file) (hc : completeLines (d .clusters) = pc.2.file) : Within hd pc pc' d 1 0
  | both (hs : completeLines (d .stats) = pc'.1.file) (hc : completeLines (d .clusters) = pc'.2.file) : Within hd pc pc' d 1 1

theorem live_step (hP : PlainText S) (hfmt : ∀ v, '\n' ∉ fmt v) {pc pc' : LogState × LogState} {x : Snapshot}
    (h : logStep S K N contrib fmt pc (.write x) = some pc') {d : Disk} (hd : Live pc d) (ops : List OpCount) :
    Live pc' ((sampleOps pc pc' ops).foldl diskStep d) ∧
      ((sampleOps pc pc' ops).foldl diskStep d) .opStats = opFile ops ∧
      ∀ n k, n < (sampleOps pc pc' ops).length →
        (∃ a b, Within (tabJoin (header S K contrib)) pc pc' (crash d (sampleOps pc pc' ops) n k) a b) ∧
        ((crash d (sampleOps pc pc' ops) n k) .opStats = d .opStats ∨
          (Within (tabJoin (header S K contrib)) pc pc' (crash d (sampleOps pc pc' ops) n k) 1 1 ∧
            ∃ j, (crash d (sampleOps pc pc' ops) n k) .opStats = (opFile ops).take j)) := by
  obtain ⟨row, crow, r1, r2, o1, o2, e1, e2, e3⟩ := logStep_write hfmt h
  have hh := header_no_newline (K := K) (contrib := contrib) hP
  have l1 : pc'.1.file.getLastD [] = row := by rw [e1]; simp
  have l2 : pc'.2.file.getLastD [] = crow := by rw [e3]; simp
  have both := hd.both
  have hplain : ∀ l ∈ pc'.1.file, '\n' ∉ l := by
    intro l hl
    rw [e1] at hl
    rcases List.mem_append.mp hl with hl | hl
    · split at hl
      · exact hd.plain l hl
      · rw [List.mem_singleton.mp hl]; exact hh
    · rw [List.mem_singleton.mp hl]; exact r1
  have hplainC : ∀ l ∈ pc'.2.file, '\n' ∉ l := by
    intro l hl
    rw [e3] at hl
    rcases List.mem_append.mp hl with hl | hl
    · split at hl
      · exact hd.plainC l hl
      · cases hl
    · rw [List.mem_singleton.mp hl]; exact r2
  have hc0 : completeLines (fileText pc.2.file) = pc.2.file := by
    simpa using completeLines_file _ hd.plainC [] (by simp)
  have hc1 : completeLines (fileText pc'.2.file) = pc'.2.file := by
    simpa using completeLines_file _ hplainC [] (by simp)
  have hs1 : completeLines (fileText pc'.1.file) = pc'.1.file := by
    simpa using completeLines_file _ hplain [] (by simp)
  have hfc : fileText pc.2.file ++ (crow ++ ['\n']) = fileText pc'.2.file := by
    rw [e3, fileText_append]
    cases ho : pc.2.isOpen with
    | true => simp [fileText]
    | false => rw [hd.clusters0 (by rw [← both, ho])]; simp [fileText]
  have hwc : ∀ k, completeLines (fileText pc.2.file ++ (crow ++ ['\n']).take k) = pc.2.file ∨
      completeLines (fileText pc.2.file ++ (crow ++ ['\n']).take k) = pc'.2.file := by
    intro k
    rcases completeLines_writing pc.2.file hd.plainC crow r2 k with hk | hk
    · exact Or.inl hk
    · right
      rw [hk, e3]
      cases ho : pc.2.isOpen with
      | true => simp
      | false => rw [hd.clusters0 (by rw [← both, ho])]; simp
  unfold sampleOps
  rw [l1, l2]
  cases ho : pc.1.isOpen with
  | true =>
    have ho2 : pc.2.isOpen = true := both.trans ho
    rw [ho] at e1
    rw [ho2] at e3
    simp only [if_true] at e1 e3
    have hfs : fileText pc.1.file ++ (row ++ ['\n']) = fileText pc'.1.file := by rw [e1, fileText_append]; simp [fileText]
    have hws : ∀ k, completeLines (fileText pc.1.file ++ (row ++ ['\n']).take k) = pc.1.file ∨
        completeLines (fileText pc.1.file ++ (row ++ ['\n']).take k) = pc'.1.file := by
      intro k
      rw [e1]
      exact completeLines_writing pc.1.file hd.plain row r1 k
    have ds := hd.stats ho
    have dc := hd.clusters
    simp only [ho2, if_true, List.nil_append, List.cons_append, List.append_nil]
    refine ⟨⟨o2.trans o1.symm, fun _ => ?_, fun hf => (by rw [o1] at hf; cases hf), ?_, fun hf => (by rw [o1] at hf; cases hf), hplain, hplainC⟩,
      ?_, ?_⟩
    · simp [diskStep, ds, hfs]
    · simp [diskStep, dc, hfc]
    · simp [diskStep]
    · intro n k hn
      rcases n with _ | _ | _ | _ | n
      · rw [crash_cons_zero]
        refine ⟨?_, Or.inl (by simp [diskStep])⟩
        rcases hws k with hk | hk
        · exact ⟨0, 0, .nothing (by simp [diskStep, ds, hk, ho]) (by simp [diskStep, dc, hc0])⟩
        · exact ⟨1, 0, .stats (by simp [diskStep, ds, hk]) (by simp [diskStep, dc, hc0])⟩
      · rw [crash_cons_succ, crash_cons_zero]
        refine ⟨?_, Or.inl (by simp [diskStep])⟩
        rcases hwc k with hk | hk
        · exact ⟨1, 0, .stats (by simp [diskStep, ds, hfs, hs1]) (by simp [diskStep, dc, hk])⟩
        · exact ⟨1, 1, .both (by simp [diskStep, ds, hfs, hs1]) (by simp [diskStep, dc, hk])⟩
      · rw [crash_cons_succ, crash_cons_succ, crash_cons_zero]
        exact ⟨⟨1, 1, .both (by simp [diskStep, ds, hfs, hs1]) (by simp [diskStep, dc, hfc, hc1])⟩, Or.inl (by simp [diskStep])⟩
      · rw [crash_cons_succ, crash_cons_succ, crash_cons_succ, crash_cons_zero]
        have w : Within (tabJoin (header S K contrib)) pc pc' (diskStep (diskStep (diskStep (diskStep d
            (.append .stats (row ++ ['\n']))) (.append .clusters (crow ++ ['\n']))) (.create .opStats)) (.append .opStats ((opFile ops).take k))) 1 1 :=
          .both (by simp [diskStep, ds, hfs, hs1]) (by simp [diskStep, dc, hfc, hc1])
        exact ⟨⟨1, 1, w⟩, Or.inr ⟨w, k, by simp [diskStep]⟩⟩
      · simp only [List.length_cons, List.length_nil] at hn; omega
  | false =>
    have ho2 : pc.2.isOpen = false := both.trans ho
    rw [ho] at e1
    rw [ho2] at e3
    simp only [Bool.false_eq_true, if_false, List.nil_append] at e1 e3
    have ds := hd.stats0 ho
    have dc := hd.clusters
    have c0 := hd.clusters0 ho
    rw [e2 ho]
    have dc' : d .clusters = [] := by rw [dc, c0]; rfl
    have hcn : completeLines ([] : Str) = pc.2.file := by rw [c0]; rfl
    have hfs : (tabJoin (header S K contrib) ++ ['\n']) ++ (row ++ ['\n']) = fileText pc'.1.file := by rw [e1]; simp [fileText]
    have hfc' : crow ++ ['\n'] = fileText pc'.2.file := by rw [e3]; simp [fileText]
    have hw0 : ∀ k, completeLines ((tabJoin (header S K contrib) ++ ['\n']).take k) = [] ∨
        completeLines ((tabJoin (header S K contrib) ++ ['\n']).take k) = [tabJoin (header S K contrib)] := fun k =>
      completeLines_writing [] (by simp) _ hh k
    have hws : ∀ k, completeLines ((tabJoin (header S K contrib) ++ ['\n']) ++ (row ++ ['\n']).take k) = [tabJoin (header S K contrib)] ∨
        completeLines ((tabJoin (header S K contrib) ++ ['\n']) ++ (row ++ ['\n']).take k) = pc'.1.file := by
      intro k
      have := completeLines_writing [tabJoin (header S K contrib)] (by simpa using hh) row r1 k
      simpa [fileText, e1] using this
    have hwc' : ∀ k, completeLines ((crow ++ ['\n']).take k) = pc.2.file ∨ completeLines ((crow ++ ['\n']).take k) = pc'.2.file := by
      intro k
      have := hwc k
      rw [c0] at this ⊢
      exact this
    simp only [ho2, Bool.false_eq_true, if_false, List.nil_append, List.cons_append, List.append_nil]
    refine ⟨⟨o2.trans o1.symm, fun _ => ?_, fun hf => (by rw [o1] at hf; cases hf), ?_, fun hf => (by rw [o1] at hf; cases hf), hplain, hplainC⟩,
      ?_, ?_⟩
    · rw [← hfs]; simp [diskStep]
    · rw [← hfc']; simp [diskStep]
    · simp [diskStep]
    · intro n k hn
      rcases n with _ | _ | _ | _ | _ | _ | _ | n
      · rw [crash_cons_zero]
        exact ⟨⟨0, 0, .nothing (by dsimp only; rw [ds, ho]; rfl) (by dsimp only; rw [dc']; exact hcn)⟩, Or.inl rfl⟩
      · rw [crash_cons_succ, crash_cons_zero]
        refine ⟨?_, Or.inl (by simp [diskStep])⟩
        rcases hw0 k with hk | hk
        · exact ⟨0, 0, .nothing (by simpa [diskStep, ho] using hk) (by simpa [diskStep, dc'] using hcn)⟩
        · exact ⟨0, 0, .header ho (by simpa [diskStep] using hk) (by simpa [diskStep, dc'] using hcn)⟩
      · rw [crash_cons_succ, crash_cons_succ, crash_cons_zero]
        refine ⟨?_, Or.inl (by simp [diskStep])⟩
        rcases hws k with hk | hk
        · exact ⟨0, 0, .header ho (by simpa [diskStep] using hk) (by simpa [diskStep, dc'] using hcn)⟩
        · exact ⟨1, 0, .stats (by simpa [diskStep] using hk) (by simpa [diskStep, dc'] using hcn)⟩
      · iterate 3 rw [crash_cons_succ]
        rw [crash_cons_zero]
        refine ⟨⟨1, 0, .stats ?_ (by simpa [diskStep, dc'] using hcn)⟩, Or.inl (by simp [diskStep])⟩
        rw [← hs1, ← hfs]; simp [diskStep]
      · iterate 4 rw [crash_cons_succ]
        rw [crash_cons_zero]
        refine ⟨?_, Or.inl (by simp [diskStep])⟩
        rcases hwc' k with hk | hk
        · refine ⟨1, 0, .stats ?_ (by simpa [diskStep] using hk)⟩
          rw [← hs1, ← hfs]; simp [diskStep]
        · refine ⟨1, 1, .both ?_ (by simpa [diskStep] using hk)⟩
          rw [← hs1, ← hfs]; simp [diskStep]
      · iterate 5 rw [crash_cons_succ]
        rw [crash_cons_zero]
        refine ⟨⟨1, 1, .both ?_ ?_⟩, Or.inl (by simp [diskStep])⟩
        · rw [← hs1, ← hfs]; simp [diskStep]
        · rw [← hc1, ← hfc']; simp [diskStep]
      · iterate 6 rw [crash_cons_succ]
        rw [crash_cons_zero]
        refine (fun w => ⟨⟨1, 1, w⟩, Or.inr ⟨w, k, by simp [diskStep]⟩⟩) (.both ?_ ?_)
        · rw [← hs1, ← hfs]; simp [diskStep]
        · rw [← hc1, ← hfc']; simp [diskStep]
      · simp only [List.length_cons, List.length_nil] at hn; omega

/-! ### A whole run -/

theorem trace_cons {pc : LogState × LogState} {x : Snapshot × List OpCount} {xs : List (Snapshot × List OpCount)} {t : List DiskOp}
    (h : trace S K N contrib fmt pc (x :: xs) = some t) :
    ∃ pc' t', logStep S K N contrib fmt pc (.write x.1) = some pc' ∧ trace S K N contrib fmt pc' xs = some t' ∧
      t = sampleOps pc pc' x.2 ++ t' := by
  rw [trace] at h
  split at h
  · cases h
  · rename_i pc' h1
    obtain ⟨t', h2, rfl⟩ := Option.map_eq_some_iff.mp h
    exact ⟨pc', t', h1, h2, rfl⟩

theorem logRun_cons {pc pc' : LogState × LogState} {x : Snapshot × List OpCount} {xs : List (Snapshot × List OpCount)}
    (h : logStep S K N contrib fmt pc (.write x.1) = some pc') (m : ℕ) :
    logRun S K N contrib fmt pc (firstWrites (m + 1) (x :: xs)) = logRun S K N contrib fmt pc' (firstWrites m xs) := by
  simp [logRun, firstWrites, List.foldlM_cons, h]

theorem logRun_zero (pc : LogState × LogState) (xs : List (Snapshot × List OpCount)) :
    logRun S K N contrib fmt pc (firstWrites 0 xs) = some pc := by simp [logRun, firstWrites]

theorem crash_run (hP : PlainText S) (hfmt : ∀ v, '\n' ∉ fmt v) (xs : List (Snapshot × List OpCount)) (n k : ℕ) :
    ∀ (pc : LogState × LogState) (d : Disk) (t : List DiskOp) (n : ℕ), Live pc d → trace S K N contrib fmt pc xs = some t →
    ∃ a b, b ≤ a ∧ a ≤ b + 1 ∧ a ≤ xs.length ∧
      (∃ p c, logRun S K N contrib fmt pc (firstWrites a xs) = some (p, c) ∧
        ((0 < a ∨ pc.1.isOpen = true) → completeLines (crash d t n k .stats) = p.file) ∧
        (a = 0 → pc.1.isOpen = false → completeLines (crash d t n k .stats) = [] ∨
          completeLines (crash d t n k .stats) = [tabJoin (header S K contrib)])) ∧
      (∃ p c, logRun S K N contrib fmt pc (firstWrites b xs) = some (p, c) ∧
        completeLines (crash d t n k .clusters) = c.file) ∧
      (∀ m t', m ≤ xs.length → trace S K N contrib fmt pc (xs.take m) = some t' → t'.length ≤ n → m ≤ b) ∧
      (crash d t n k .opStats = d .opStats ∨ ∃ x ∈ xs.take b, ∃ j, crash d t n k .opStats = (opFile x.2).take j) := by
  induction xs with
  | nil =>
    intro pc d t n hL ht
    rw [trace] at ht
    cases ht
    rw [crash_nil]
    refine ⟨0, 0, le_refl _, by omega, le_refl _, ⟨pc.1, pc.2, logRun_zero _ _, ?_, ?_⟩, ⟨pc.1, pc.2, logRun_zero _ _, ?_⟩, ?_, Or.inl rfl⟩
    · intro ho
      have ho : pc.1.isOpen = true := by rcases ho with ho | ho; · omega
                                         · exact ho
      rw [hL.stats ho]
      simpa using completeLines_file _ hL.plain [] (by simp)
    · intro _ ho
      left
      rw [hL.stats0 ho]; rfl
    · rw [hL.clusters]
      simpa using completeLines_file _ hL.plainC [] (by simp)
    · intro m t' hm _ _
      simpa using hm
  | cons x xs ih =>
    intro pc d t n hL ht
    obtain ⟨pc', t', h1, h2, rfl⟩ := trace_cons ht
    obtain ⟨hL', hop, hw⟩ := live_step hP hfmt h1 hL x.2
    obtain ⟨_, _, _, _, o1, _, _, _, _⟩ := logStep_write hfmt h1
    rw [crash_append]
    split
    · rename_i hn
      obtain ⟨⟨a, b, w⟩, ho⟩ := hw n k hn
      have hm : ∀ m t', m ≤ (x :: xs).length → trace S K N contrib fmt pc ((x :: xs).take m) = some t' → t'.length ≤ n → m = 0 := by
        intro m t'' _ htm hlen
        cases m with
        | zero => rfl
        | succ m =>
          exfalso
          rw [List.take_succ_cons] at htm
          obtain ⟨pc'', t3, h3, _, rfl⟩ := trace_cons htm
          rw [h1] at h3
          cases h3
          rw [List.length_append] at hlen
          omega
      generalize hD : crash d (sampleOps pc pc' x.2) n k = D at *
      have key : ∀ a b, Within (tabJoin (header S K contrib)) pc pc' D a b →
          (D .opStats = d .opStats ∨ (b = 1 ∧ ∃ j, D .opStats = (opFile x.2).take j)) → ∃ a b, b ≤ a ∧ a ≤ b + 1 ∧ a ≤ (x :: xs).length ∧
          (∃ p c, logRun S K N contrib fmt pc (firstWrites a (x :: xs)) = some (p, c) ∧
            ((0 < a ∨ pc.1.isOpen = true) → completeLines (D .stats) = p.file) ∧
            (a = 0 → pc.1.isOpen = false → completeLines (D .stats) = [] ∨
              completeLines (D .stats) = [tabJoin (header S K contrib)])) ∧
          (∃ p c, logRun S K N contrib fmt pc (firstWrites b (x :: xs)) = some (p, c) ∧
            completeLines (D .clusters) = c.file) ∧
          (∀ m t', m ≤ (x :: xs).length → trace S K N contrib fmt pc ((x :: xs).take m) = some t' → t'.length ≤ n → m ≤ b) ∧
          (D .opStats = d .opStats ∨ ∃ y ∈ (x :: xs).take b, ∃ j, D .opStats = (opFile y.2).take j) := by
        intro a b w ho
        have e0 := logRun_zero (S := S) (K := K) (N := N) (contrib := contrib) (fmt := fmt) pc (x :: xs)
        have e1 : logRun S K N contrib fmt pc (firstWrites 1 (x :: xs)) = some pc' := by
          rw [logRun_cons h1 0, logRun_zero]
        have hop' : D .opStats = d .opStats ∨ ∃ y ∈ (x :: xs).take b, ∃ j, D .opStats = (opFile y.2).take j := by
          rcases ho with ho | ⟨rfl, j, hj⟩
          · exact Or.inl ho
          · exact Or.inr ⟨x, by simp, j, hj⟩
        refine ⟨a, b, ?_, ?_, ?_, ?_, ?_, fun m t' h3 h4 h5 => by rw [hm m t' h3 h4 h5]; omega, hop'⟩
        · cases w <;> omega
        · cases w <;> omega
        · cases w <;> simp
        · cases w with
          | nothing hs hc =>
            refine ⟨pc.1, pc.2, e0, ?_, ?_⟩
            · intro h
              rcases h with h | h
              · omega
              · rw [hs, h, if_pos (show true = true from rfl)]
            · intro _ h
              left
              rw [hs, h]; rfl
          | header hc hs _ =>
            refine ⟨pc.1, pc.2, e0, ?_, fun _ _ => Or.inr hs⟩
            intro h
            rcases h with h | h
            · omega
            · rw [hc] at h; cases h
          | stats hs hc => exact ⟨pc'.1, pc'.2, e1, fun _ => hs, fun h => by omega⟩
          | both hs hc => exact ⟨pc'.1, pc'.2, e1, fun _ => hs, fun h => by omega⟩
        · cases w with
          | nothing hs hc => exact ⟨pc.1, pc.2, e0, hc⟩
          | header ho hs hc => exact ⟨pc.1, pc.2, e0, hc⟩
          | stats hs hc => exact ⟨pc.1, pc.2, e0, hc⟩
          | both hs hc => exact ⟨pc'.1, pc'.2, e1, hc⟩
      rcases ho with ho | ⟨w', hj⟩
      · exact key a b w (Or.inl ho)
      · exact key 1 1 w' (Or.inr ⟨rfl, hj⟩)
    · rename_i hn
      obtain ⟨a, b, q1, q2, q3, ⟨p, c, q4, q5, q6⟩, ⟨p', c', q7, q8⟩, q9, q10⟩ := ih pc' _ t' (n - (sampleOps pc pc' x.2).length) hL' h2
      refine ⟨a + 1, b + 1, by omega, by omega, by simpa using q3, ⟨p, c, ?_, ?_, by omega⟩, ⟨p', c', ?_, q8⟩, ?_, ?_⟩
      · rw [logRun_cons h1]; exact q4
      · exact fun _ => q5 (Or.inr o1)
      · rw [logRun_cons h1]; exact q7
      · intro m t'' hm htm hlen
        cases m with
        | zero => omega
        | succ m =>
          rw [List.take_succ_cons] at htm
          obtain ⟨pc'', t3, h3, h4, rfl⟩ := trace_cons htm
          rw [h1] at h3
          cases h3
          rw [List.length_append] at hlen
          have := q9 m t3 (by simpa using hm) h4 (by omega)
          omega
      · right
        rcases q10 with q | ⟨y, hy, j, hj⟩
        · refine ⟨x, by simp, (opFile x.2).length, ?_⟩
          rw [q, hop, List.take_length]
        · exact ⟨y, by rw [List.take_succ_cons]; exact List.mem_cons_of_mem _ hy, j, hj⟩

/-- **C79** A run killed at any point (`n` file operations done, and `k` characters of the next write). The complete lines of
the statistics file are those of a run that logged the first `a` samples and nothing else; those of the clusters file are those
of the first `b` samples, and `b` is `a` or one less. Samples of whose logging all operations were done are among the `b`. -/
theorem C79_interrupted_run (hP : PlainText S) (hfmt : ∀ v, '\n' ∉ fmt v) (xs : List (Snapshot × List OpCount)) (m1 m2 : Bool)
    (t : List DiskOp) (h : trace S K N contrib fmt (newLogger [] m1, newLogger [] m2) xs = some t) (n k : ℕ) :
    ∃ a b, b ≤ a ∧ a ≤ b + 1 ∧ a ≤ xs.length ∧
      (∃ p c, logRun S K N contrib fmt (newLogger [] m1, newLogger [] m2) (firstWrites a xs) = some (p, c) ∧
        (0 < a → completeLines (crash (fun _ => []) t n k .stats) = p.file) ∧
        (a = 0 → completeLines (crash (fun _ => []) t n k .stats) = [] ∨
          completeLines (crash (fun _ => []) t n k .stats) = [tabJoin (header S K contrib)])) ∧
      (∃ p c, logRun S K N contrib fmt (newLogger [] m1, newLogger [] m2) (firstWrites b xs) = some (p, c) ∧
        completeLines (crash (fun _ => []) t n k .clusters) = c.file) ∧
      (∀ m t', m ≤ xs.length → trace S K N contrib fmt (newLogger [] m1, newLogger [] m2) (xs.take m) = some t' →
        t'.length ≤ n → m ≤ b) ∧
      (crash (fun _ => []) t n k .opStats = [] ∨
        ∃ x ∈ xs.take b, ∃ j, crash (fun _ => []) t n k .opStats = (opFile x.2).take j) := by
  have hL : Live (newLogger [] m1, newLogger [] m2) (fun _ => []) :=
    ⟨rfl, fun h => (by cases h), fun _ => rfl, rfl, fun _ => rfl, fun l hl => (by cases hl), fun l hl => (by cases hl)⟩
  obtain ⟨a, b, q1, q2, q3, ⟨p, c, q4, q5, q6⟩, q7, q9, q10⟩ := crash_run hP hfmt xs n k _ _ t n hL h
  exact ⟨a, b, q1, q2, q3, ⟨p, c, q4, fun h => q5 (Or.inl h), fun h => q6 h rfl⟩, q7, q9, q10⟩

/-- **C79** A run that is not killed: both files hold all samples. -/
theorem C79_uninterrupted_run (hP : PlainText S) (hfmt : ∀ v, '\n' ∉ fmt v) (xs : List (Snapshot × List OpCount)) (m1 m2 : Bool)
    (t : List DiskOp) (h : trace S K N contrib fmt (newLogger [] m1, newLogger [] m2) xs = some t) (hx : xs ≠ []) :
    ∃ p c, logRun S K N contrib fmt (newLogger [] m1, newLogger [] m2) (firstWrites xs.length xs) = some (p, c) ∧
      completeLines ((t.foldl diskStep (fun _ => [])) .stats) = p.file ∧
      completeLines ((t.foldl diskStep (fun _ => [])) .clusters) = c.file := by
  obtain ⟨a, b, q1, q2, q3, ⟨p, c, q4, q5, q6⟩, ⟨p', c', q7, q8⟩, q9, -⟩ := C79_interrupted_run hP hfmt xs m1 m2 t h t.length 0
  have e : crash (fun _ => []) t t.length 0 = t.foldl diskStep (fun _ => []) := by simp [crash]
  have hb := q9 xs.length t le_rfl (by rw [List.take_length]; exact h) le_rfl
  have ha : a = xs.length := by omega
  have hb' : b = xs.length := by omega
  have hpos : 0 < xs.length := List.length_pos_iff.mpr hx
  rw [e] at q5 q8
  rw [ha] at q4 q5
  rw [hb', q4] at q7
  cases q7
  exact ⟨p, c, q4, q5 hpos, q8⟩

/-! ### Loading what is left -/

theorem load_interrupted (hS : GoodNames S) (hP : PlainText S) (hK : 0 < K) (hN : 0 < N) (parse : Str → EReal)
    (hfmt : ∀ v, '\t' ∉ fmt v ∧ '\n' ∉ fmt v) (disk disk' : List Str) (es : List Event) (x : Snapshot) (p0 c0 p c : LogState)
    (h0 : logRun S K N contrib fmt (newLogger disk true, newLogger disk' true) es = some (p0, c0))
    (h : logRun S K N contrib fmt (newLogger disk true, newLogger disk' true) (es ++ [.write x]) = some (p, c))
    (ho : c0.isOpen = true) (hw : (written es).1 ≠ []) (hwx : (written (es ++ [.write x])).1 = (written es).1 ++ [x])
    (burnIn : ℝ) (hb0 : 0 ≤ burnIn) (hb1 : burnIn ≤ 1) :
    ∃ σ : ℕ → ℕ → ℕ, (∀ t, Permutes K (σ t)) ∧
      ∃ cl, readClusters (fileText c0.file) = some cl ∧
        loadResults cl (readStats parse (fileText p.file)) burnIn =
          some { expectedResults S K N contrib (fun v => parse (fmt v))
              ((((written es).1 ++ [x]).zipIdx.map (fun x => (x.1, σ x.2))).drop ⌊burnIn * (written es).1.length⌋₊) with
            clusters := (expectedResults S K N contrib (fun v => parse (fmt v))
              (((written es).1.zipIdx.map (fun x => (x.1, σ x.2))).drop ⌊burnIn * (written es).1.length⌋₊)).clusters } := by
  have hs := synced_run S K N contrib fmt disk disk' _ p c h
  rw [hwx] at hs
  set seg := (written es).1 with hseg
  have hfile : c.file = c0.file ++ [c.file.getLastD []] := by
    have h' := h
    rw [logRun, List.foldlM_append] at h'
    rw [logRun] at h0
    rw [h0] at h'
    have h'' : logStep S K N contrib fmt (p0, c0) (.write x) = some (p, c) := by simpa using h'
    obtain ⟨_, crow, _, _, _, _, _, _, e⟩ := logStep_write (fun v => (hfmt v).2) h''
    dsimp only at e
    rw [ho, if_pos (show true = true from rfl)] at e
    rw [e]; simp
  refine ⟨sigma K N (seg ++ [x]), fun t => sigma_permutes K N (seg ++ [x]) t, ?_⟩
  let ys : List (Snapshot × (ℕ → ℕ)) := seg.zipIdx.map (fun y => (y.1, sigma K N (seg ++ [x]) y.2))
  let last : Snapshot × (ℕ → ℕ) := (x, sigma K N (seg ++ [x]) seg.length)
  have hys : (seg ++ [x]).zipIdx.map (fun y => (y.1, sigma K N (seg ++ [x]) y.2)) = ys ++ [last] := by
    rw [List.zipIdx_append, List.map_append]
    simp [ys, last]
  have hlen : ys.length = seg.length := by simp [ys]
  have hcf' : c.file = ((ys ++ [last]).map (fun y => clusterRows K N y.2 y.1)).map formatClusters := by
    rw [hs.file_c (by simp), ← hys, List.map_map, List.map_map]
    rfl
  have hcf : c0.file = (ys.map (fun y => clusterRows K N y.2 y.1)).map formatClusters := by
    have := congrArg List.dropLast (hfile.symm.trans hcf')
    simpa using this
  have hpf : p.file = tabJoin ((allColumns S K contrib).map (Column.name S)) ::
      (ys ++ [last]).map (fun y => tabJoin ((allColumns S K contrib).map (fun col => fmt (Column.quantity N y.2 y.1 col)))) := by
    rw [hs.file_p (by simp), header_eq, ← hys, List.map_map]
    congr 1
    refine List.map_congr_left (fun x _ => ?_)
    rw [rowVals_good hS, List.map_map]
    rfl
  have hcl := readClusters_written K hK N hN (ys.map (fun y => clusterRows K N y.2 y.1))
    (by rw [ne_eq, List.map_eq_nil_iff]; intro h0; rw [h0] at hlen; exact hw (List.length_eq_zero_iff.1 hlen.symm))
    (by
      intro x hx
      obtain ⟨y, _, rfl⟩ := List.mem_map.1 hx
      simp [clusterRows])
    (by
      intro x hx r hr
      obtain ⟨y, _, rfl⟩ := List.mem_map.1 hx
      simp only [clusterRows, List.mem_map] at hr
      obtain ⟨i, _, rfl⟩ := hr
      simp)
  refine ⟨_, by rw [hcf]; exact hcl, ?_⟩
  have hst := readStats_written parse fmt (allColumns S K contrib) (Column.name S)
    (fun (y : Snapshot × (ℕ → ℕ)) col => Column.quantity N y.2 y.1 col) (ys ++ [last]) (by simp [allColumns])
    (column_plain S hP K contrib) hfmt
  rw [hpf, hst]
  have hdrop := C37_burn_in K hK ((allColumns S K contrib).map (Column.name S)) ys [last]
    (fun i y => (clusterRows K N y.2 y.1).getD i [])
    (fun y => (allColumns S K contrib).map (fun col => parse (fmt (Column.quantity N y.2 y.1 col)))) burnIn hb0 hb1
  have hb : ⌊burnIn * (ys.length : ℝ)⌋₊ ≤ ys.length := by
    refine Nat.floor_le_of_le ?_
    have : (0 : ℝ) ≤ ys.length := Nat.cast_nonneg _
    nlinarith
  rw [← List.drop_append_of_le_length hb] at hdrop
  rw [show (List.range K).map (fun i => (ys.map (fun y => clusterRows K N y.2 y.1)).map (fun x => x.getD i [])) =
    (List.range K).map (fun i => ys.map (fun y => (clusterRows K N y.2 y.1).getD i [])) by
      refine List.map_congr_left (fun i _ => ?_)
      rw [List.map_map]; rfl]
  rw [load_eq hS N (fun v => parse (fmt v)) _ hK _ burnIn _ _ hdrop, hlen, hys]
  have hfin : (List.range K).map (fun i => (ys.drop ⌊burnIn * (seg.length : ℝ)⌋₊).map
      (fun y => (clusterRows K N y.2 y.1).getD i [])) =
      (expectedResults S K N contrib (fun v => parse (fmt v)) (ys.drop ⌊burnIn * (seg.length : ℝ)⌋₊)).clusters := by
    refine List.map_congr_left (fun i hi => ?_)
    refine List.map_congr_left (fun y _ => ?_)
    have hi : i < K := by simpa using hi
    rw [clusterRows, List.getD_eq_getElem _ _ (by simpa using hi)]
    simp
  rw [hfin]

theorem written_writes (xs : List Snapshot) (hx : xs ≠ []) : written (xs.map .write) = (xs, true) := by
  induction xs using List.reverseRecOn with
  | nil => exact absurd rfl hx
  | append_singleton xs x ih =>
    rw [List.map_append, written, List.foldl_append]
    rcases eq_or_ne xs [] with rfl | h
    · rfl
    · have := ih h
      rw [written] at this
      rw [this]
      rfl

theorem open_after (hfmt : ∀ v, '\n' ∉ fmt v) {st : LogState × LogState} {es : List Event} {x : Snapshot} {p c : LogState}
    (h : logRun S K N contrib fmt st (es ++ [.write x]) = some (p, c)) : c.isOpen = true := by
  rw [logRun, List.foldlM_append] at h
  obtain ⟨pc, -, h2⟩ := Option.bind_eq_some_iff.mp h
  have h3 : logStep S K N contrib fmt pc (.write x) = some (p, c) := by simpa using h2
  obtain ⟨_, _, _, _, _, o, _⟩ := logStep_write hfmt h3
  exact o

/-- **C79** If the run was killed between the two files of a sample `x`, the results can still be loaded: sample `t` of the
clusters belongs to row `t` of the parameters for all samples `t` of the clusters file, whatever the burn-in; the parameters
have one more. -/
theorem C79_loading_an_interrupted_run (hS : GoodNames S) (hP : PlainText S) (hK : 0 < K) (hN : 0 < N) (parse : Str → EReal)
    (hfmt : ∀ v, '\t' ∉ fmt v ∧ '\n' ∉ fmt v) (disk disk' : List Str) (xs : List Snapshot) (hx : xs ≠ []) (x : Snapshot)
    (p0 c0 p c : LogState)
    (h0 : logRun S K N contrib fmt (newLogger disk true, newLogger disk' true) (xs.map .write) = some (p0, c0))
    (h : logRun S K N contrib fmt (newLogger disk true, newLogger disk' true) ((xs ++ [x]).map .write) = some (p, c))
    (burnIn : ℝ) (hb0 : 0 ≤ burnIn) (hb1 : burnIn ≤ 1) :
    ∃ σ : ℕ → ℕ → ℕ, (∀ t, Permutes K (σ t)) ∧
      ∃ cl, readClusters (fileText c0.file) = some cl ∧
        loadResults cl (readStats parse (fileText p.file)) burnIn =
          some { expectedResults S K N contrib (fun v => parse (fmt v))
              (((xs ++ [x]).zipIdx.map (fun x => (x.1, σ x.2))).drop ⌊burnIn * xs.length⌋₊) with
            clusters := (expectedResults S K N contrib (fun v => parse (fmt v))
              ((xs.zipIdx.map (fun x => (x.1, σ x.2))).drop ⌊burnIn * xs.length⌋₊)).clusters } := by
  have hw := congrArg Prod.fst (written_writes xs hx)
  have hw' := congrArg Prod.fst (written_writes (xs ++ [x]) (by simp))
  dsimp only at hw hw'
  have ho : c0.isOpen = true := by
    rcases List.eq_nil_or_concat xs with h' | ⟨ys, y, rfl⟩
    · exact absurd h' hx
    · rw [List.concat_eq_append, List.map_append] at h0
      exact open_after (fun v => (hfmt v).2) h0
  rw [List.map_append] at h hw'
  have := load_interrupted hS hP hK hN parse hfmt disk disk' (xs.map .write) x p0 c0 p c h0 h ho (by rw [hw]; exact hx)
    (by rw [hw]; exact hw') burnIn hb0 hb1
  rw [hw] at this
  exact this

/-! ### What a user might also expect, and does not get -/

theorem trace_of_run (disk disk' : List Str) (xs : List (Snapshot × List OpCount)) :
    ∀ (es : List Event) (pc : LogState × LogState),
      logRun S K N contrib fmt (newLogger disk true, newLogger disk' true) es = some pc →
      ∃ t, trace S K N contrib fmt pc xs = some t := by
  induction xs with
  | nil => intro _ pc _; exact ⟨[], rfl⟩
  | cons x xs ih =>
    intro es pc h
    obtain ⟨p', c', h'⟩ := C34_writing_never_raises S K N contrib fmt disk disk' es x.1 pc.1 pc.2 h
    have h1 : logStep S K N contrib fmt pc (.write x.1) = some (p', c') := by
      have h'' := h'
      rw [logRun, List.foldlM_append] at h''
      rw [logRun] at h
      rw [h] at h''
      simpa using h''
    obtain ⟨t, ht⟩ := ih _ _ h'
    exact ⟨sampleOps pc (p', c') x.2 ++ t, by rw [trace, h1]; simp [ht]⟩

/-- The two-sample run of the examples. -/
noncomputable def demoRun : List (Snapshot × List OpCount) :=
  [(demo 0 fun i j => i == j, [⟨lit "AlterWeights", 3, 1⟩]), (demo 1 fun i j => i != j, [⟨lit "AlterWeights", 5, 2⟩])]

/-- The run of the examples can be logged: the hypotheses of `C79_interrupted_run` are met. -/
example : ∃ t, trace demoSchema 2 3 true (fun _ => lit "1.5") (newLogger [] true, newLogger [] true) demoRun = some t ∧
    ∃ a b, b ≤ a ∧ a ≤ b + 1 ∧ a ≤ 2 ∧
      ∃ p c, logRun demoSchema 2 3 true (fun _ => lit "1.5") (newLogger [] true, newLogger [] true) (firstWrites b demoRun) = some (p, c) ∧
        completeLines (crash (fun _ => []) t 8 4 .clusters) = c.file := by
  obtain ⟨t, ht⟩ := trace_of_run (S := demoSchema) (K := 2) (N := 3) (contrib := true) (fmt := fun _ => lit "1.5") [] [] demoRun [] _ rfl
  obtain ⟨a, b, h1, h2, h3, -, h4, -, -⟩ := C79_interrupted_run demoSchema_plain (fun _ => by decide) demoRun true true t ht 8 4
  exact ⟨t, ht, a, b, h1, h2, h3, h4⟩

theorem demo_trace : ∃ t pc1 pc2, trace demoSchema 2 3 true (fun _ => lit "1.5") (newLogger [] true, newLogger [] true) demoRun = some t ∧
    logStep demoSchema 2 3 true (fun _ => lit "1.5") (newLogger [] true, newLogger [] true) (.write (demo 0 fun i j => i == j)) = some pc1 ∧
    logStep demoSchema 2 3 true (fun _ => lit "1.5") pc1 (.write (demo 1 fun i j => i != j)) = some pc2 ∧
    pc1.1.isOpen = true ∧ pc1.2.isOpen = true ∧
    t = sampleOps (newLogger [] true, newLogger [] true) pc1 [⟨lit "AlterWeights", 3, 1⟩] ++
      sampleOps pc1 pc2 [⟨lit "AlterWeights", 5, 2⟩] := by
  obtain ⟨t, ht⟩ := trace_of_run (S := demoSchema) (K := 2) (N := 3) (contrib := true) (fmt := fun _ => lit "1.5") [] [] demoRun [] _ rfl
  obtain ⟨pc1, t1, h1, h2, e1⟩ := trace_cons ht
  obtain ⟨pc2, t2, h3, h4, e2⟩ := trace_cons h2
  obtain ⟨_, _, _, _, o1, o2, _, _, _⟩ := logStep_write (fun _ => by decide) h1
  rw [trace] at h4
  cases h4
  exact ⟨t, pc1, pc2, ht, h1, h3, o1, o2, by rw [e1, e2, List.append_nil]⟩

/-- **C79** Loading an interrupted run does not notice that the last sample has parameters but no clusters: the arrays have
different numbers of samples. -/
theorem C79_same_number_of_samples_false : ∃ t n cl L,
    trace demoSchema 2 3 true (fun _ => lit "1.5") (newLogger [] true, newLogger [] true) demoRun = some t ∧
    readClusters (crash (fun _ => []) t n 0 .clusters) = some cl ∧
    loadResults cl (readStats (fun _ => ((3 / 2 : ℝ) : EReal)) (crash (fun _ => []) t n 0 .stats)) 0 = some L ∧
    L.sampleId.length = 2 ∧ L.posterior.length = 2 ∧ ∀ c ∈ L.clusters, c.length = 1 := by
  obtain ⟨t, pc1, pc2, ht, h1, h2, o1, o2, e⟩ := demo_trace
  have hfmt : ∀ v : EReal, '\t' ∉ (fun _ => lit "1.5") v ∧ '\n' ∉ (fun _ => lit "1.5") v := fun _ => by constructor <;> (show _ ∉ lit "1.5") <;> decide
  have r1 : logRun demoSchema 2 3 true (fun _ => lit "1.5") (newLogger [] true, newLogger [] true)
      ([demo 0 fun i j => i == j].map .write) = some pc1 := by
    rw [logRun]; simpa using h1
  have r2 : logRun demoSchema 2 3 true (fun _ => lit "1.5") (newLogger [] true, newLogger [] true)
      (([demo 0 fun i j => i == j] ++ [demo 1 fun i j => i != j]).map .write) = some pc2 := by
    rw [logRun]
    simp [h1, h2]
  obtain ⟨σ, -, cl, hcl, hl⟩ := C79_loading_an_interrupted_run demoSchema_good demoSchema_plain (by norm_num) (by norm_num)
    (fun _ => ((3 / 2 : ℝ) : EReal)) hfmt [] [] [demo 0 fun i j => i == j] (by simp) _ pc1.1 pc1.2 pc2.1 pc2.2 r1 r2 0 le_rfl (by norm_num)
  have hL0 : Live (newLogger [] true, newLogger [] true) (fun _ => []) :=
    ⟨rfl, fun h => (by cases h), fun _ => rfl, rfl, fun _ => rfl, fun l hl => (by cases hl), fun l hl => (by cases hl)⟩
  have hL1 := (live_step demoSchema_plain (fun v => (hfmt v).2) h1 hL0 [⟨lit "AlterWeights", 3, 1⟩]).1
  obtain ⟨row, crow, _, _, _, _, e1, _, _⟩ := logStep_write (fun v => (hfmt v).2) h2
  rw [o1, if_pos (show true = true from rfl)] at e1
  have hlast : pc2.1.file.getLastD [] = row := by rw [e1]; simp
  have hcrash : crash (fun _ => []) t 8 0 .stats = fileText pc2.1.file ∧ crash (fun _ => []) t 8 0 .clusters = fileText pc1.2.file := by
    rw [e, crash_append]
    have hl7 : (sampleOps (newLogger [] true, newLogger [] true) pc1 [⟨lit "AlterWeights", 3, 1⟩]).length = 7 := rfl
    rw [hl7, if_neg (show ¬ 8 < 7 by omega)]
    generalize hD : (sampleOps (newLogger [] true, newLogger [] true) pc1 [⟨lit "AlterWeights", 3, 1⟩]).foldl diskStep (fun _ => []) = D at hL1
    unfold sampleOps
    rw [o1, o2, hlast]
    simp only [if_true, List.nil_append, List.cons_append, List.append_nil]
    rw [show 8 - 7 = 0 + 1 from rfl, crash_cons_succ, crash_cons_zero]
    constructor
    · simp only [diskStep, List.take_zero, List.append_nil]
      rw [Function.update_of_ne (by decide), Function.update_self, hL1.stats o1, e1, fileText_append]
      simp [fileText]
    · simp [diskStep, hL1.clusters]
  refine ⟨t, 8, cl, _, ht, by rw [hcrash.2]; exact hcl, by rw [hcrash.1]; exact hl, ?_, ?_, ?_⟩
  · simp [expectedResults]
  · simp [expectedResults]
  · intro c hc
    simp only [expectedResults, List.mem_map] at hc
    obtain ⟨i, _, rfl⟩ := hc
    simp

/-- **C79** The statistics of the operators are not kept: the file of an interrupted run can be empty, although it had
been written for an earlier sample. -/
theorem C79_operator_statistics_kept_false : ∃ t t1 n,
    trace demoSchema 2 3 true (fun _ => lit "1.5") (newLogger [] true, newLogger [] true) demoRun = some t ∧
    trace demoSchema 2 3 true (fun _ => lit "1.5") (newLogger [] true, newLogger [] true) (demoRun.take 1) = some t1 ∧
    t1.length ≤ n ∧ (t1.foldl diskStep fun _ => []) .opStats ≠ [] ∧ crash (fun _ => []) t n 0 .opStats = [] := by
  obtain ⟨t, pc1, pc2, ht, h1, h2, o1, o2, e⟩ := demo_trace
  refine ⟨t, sampleOps (newLogger [] true, newLogger [] true) pc1 [⟨lit "AlterWeights", 3, 1⟩], 10, ht, ?_, ?_, ?_, ?_⟩
  · simp only [demoRun, List.take_succ_cons, List.take_zero]
    rw [trace, h1]
    simp [trace]
  · show 7 ≤ 10; omega
  · simp only [sampleOps, newLogger]
    simp [diskStep, opFile, fileText]
  · rw [e, crash_append]
    have hl7 : (sampleOps (newLogger [] true, newLogger [] true) pc1 [⟨lit "AlterWeights", 3, 1⟩]).length = 7 := rfl
    rw [hl7, if_neg (show ¬ 10 < 7 by omega)]
    generalize (sampleOps (newLogger [] true, newLogger [] true) pc1 [⟨lit "AlterWeights", 3, 1⟩]).foldl diskStep (fun _ => []) = D
    unfold sampleOps
    rw [o1, o2]
    simp only [if_true, List.nil_append, List.cons_append, List.append_nil]
    rw [show 10 - 7 = 0 + 1 + 1 + 1 from rfl, crash_cons_succ, crash_cons_succ, crash_cons_succ, crash_cons_zero]
    simp [diskStep]

/-! ### Reading an incomplete clusters file -/

theorem tabJoin_len (fs : List Str) (hne : fs ≠ []) : (tabJoin fs).length + 1 = (fs.map List.length).sum + fs.length := by
  unfold tabJoin
  induction fs with
  | nil => exact absurd rfl hne
  | cons a fs ih =>
    cases fs with
    | nil => simp
    | cons b fs =>
      have := ih (by simp)
      rw [List.intercalate_cons_cons]
      simp only [List.length_append, List.map_cons, List.sum_cons, List.length_cons, List.length_nil] at this ⊢
      omega

theorem split_writing (ls : List Str) (h : ∀ l ∈ ls, '\n' ∉ l) (p : Str) (hp : '\n' ∉ p) : (fileText ls ++ p).splitOn '\n' = ls ++ [p] := by
  induction ls with
  | nil =>
    have := List.splitOn_intercalate '\n' (ls := [p]) (by simpa using hp) (by simp)
    rw [show ['\n'].intercalate [p] = p by simp [List.intercalate]] at this
    simp [fileText, this]
  | cons l ls ih =>
    have : fileText (l :: ls) ++ p = l ++ '\n' :: (fileText ls ++ p) := by simp [fileText]
    rw [this, List.splitOn_append_cons_self_of_not_mem (h l (by simp)), ih (fun l hl => h l (by simp [hl]))]
    rfl

/-- A sample that does not have the shape of the earlier ones is rejected. -/
theorem array_shape {K N : ℕ} (hK : 0 < K) (xs : List (List (List Bool))) (hne : xs ≠ []) (hx : ∀ x ∈ xs, x.length = K)
    (hr : ∀ x ∈ xs, ∀ c ∈ x, c.length = N) (y : List (List Bool)) (hy : y ≠ []) (r : List (List (List Bool)))
    (h : (appendSample ((List.range K).map fun i => xs.map fun x => x.getD i []) y).bind npArray = some r) :
    y.length = K ∧ ∀ c ∈ y, c.length = N := by
  obtain ⟨r', h1, h2⟩ := Option.bind_eq_some_iff.mp h
  have hlen : ∀ i (a : List (List Bool)), r'[i]? = some a → a.length = xs.length + if i < y.length then 1 else 0 := by
    intro i a ha
    unfold appendSample at h1
    split at h1
    · cases Option.some.inj h1
      rw [List.getElem?_map, List.getElem?_zipIdx] at ha
      simp only [List.getElem?_map, Nat.zero_add] at ha
      by_cases hi : i < K
      · rw [List.getElem?_range hi] at ha
        simp only [Option.map_some, Option.some.injEq] at ha
        by_cases hiy : i < y.length
        · rw [List.getElem?_eq_getElem hiy] at ha
          rw [← ha, if_pos hiy]; simp
        · rw [List.getElem?_eq_none (by omega)] at ha
          rw [← ha, if_neg hiy]; simp
      · rw [List.getElem?_eq_none (by simpa using hi)] at ha
        simp at ha
    · simp at h1
  have hyK : y.length ≤ K := by
    unfold appendSample at h1
    split at h1
    · rename_i hle; simpa using hle
    · simp at h1
  have hrl : r'.length = K := by
    unfold appendSample at h1
    split at h1
    · cases Option.some.inj h1; simp
    · simp at h1
  unfold npArray at h2
  split at h2
  · rename_i hc
    have h0 := hlen 0 _ (List.getElem?_eq_getElem (by omega))
    have hK1 := hlen (K - 1) _ (List.getElem?_eq_getElem (by omega))
    have e0 := hc.1 _ (List.getElem_mem (l := r') (n := 0) (by omega))
    have e1 := hc.1 _ (List.getElem_mem (l := r') (n := K - 1) (by omega))
    have hy0 : 0 < y.length := List.length_pos_iff.mpr hy
    rw [if_pos hy0] at h0
    have hyK' : y.length = K := by
      by_contra hno
      rw [if_neg (by omega)] at hK1
      omega
    refine ⟨hyK', fun c hcy => ?_⟩
    rw [appendSample_eq K _ y hyK'] at h1
    cases Option.some.inj h1
    obtain ⟨i, hi, rfl⟩ := List.getElem_of_mem hcy
    have hmem : y[i] ∈ ((List.range K).map fun i => xs.map (fun x => x.getD i []) ++ [y.getD i []]).flatten :=
      List.mem_flatten.mpr ⟨_, List.mem_map.mpr ⟨i, List.mem_range.mpr (by omega), rfl⟩, by
        rw [List.getD_eq_getElem _ _ hi]; simp⟩
    rw [hc.2 _ hmem]
    obtain ⟨x, xs', rfl⟩ := List.exists_cons_of_ne_nil hne
    obtain ⟨K', rfl⟩ : ∃ K', K = K' + 1 := ⟨K - 1, by omega⟩
    rw [List.range_succ_eq_map]
    have hxl := hx x (by simp)
    show (x.getD 0 []).length = N
    rw [List.getD_eq_getElem _ _ (by omega)]
    exact hr x (by simp) _ (List.getElem_mem _)
  · simp at h2

/-- **C79** A clusters file whose last line is incomplete, because the run was interrupted while it was written, is not read as something
else: reading it fails. If only the last line break is missing, the last sample is read. -/
theorem C79_incomplete_line_is_noticed {K N : ℕ} (hK : 0 < K) (hN : 0 < N) (xs : List (List (List Bool))) (hne : xs ≠ [])
    (hx : ∀ x ∈ xs, x.length = K) (hr : ∀ x ∈ xs, ∀ c ∈ x, c.length = N) (x : List (List Bool)) (hxK : x.length = K)
    (hxN : ∀ c ∈ x, c.length = N) (k : ℕ) :
    (0 < k → k < (formatClusters x).length → readClusters (fileText (xs.map formatClusters) ++ (formatClusters x).take k) = none) ∧
    readClusters (fileText (xs.map formatClusters) ++ formatClusters x) = readClusters (fileText ((xs ++ [x]).map formatClusters)) := by
  have hx0 : x ≠ [] := by rintro rfl; simp at hxK; omega
  have hlines : ∀ l ∈ xs.map formatClusters, '\n' ∉ l := by
    intro l hl
    obtain ⟨y, -, rfl⟩ := List.mem_map.mp hl
    exact format_no_newline y
  have hhead : ∀ q, (((xs.map formatClusters ++ [q]).headD []).splitOn '\t').length = K := by
    intro q
    obtain ⟨z, zs, rfl⟩ := List.exists_cons_of_ne_nil hne
    simp only [List.map_cons, List.cons_append, List.headD_cons]
    have h := congrArg List.length (parse_format z (by rintro rfl; have := hx _ List.mem_cons_self; simp at this; omega))
    rw [parseClusters, List.length_map] at h
    rw [h, hx z (by simp)]
  have hnonempty : ∀ l ∈ xs.map formatClusters, l.length ≠ 0 := by
    intro l hl
    obtain ⟨y, hy, rfl⟩ := List.mem_map.mp hl
    refine format_length y ?_ fun c hc h0 => ?_
    · rintro rfl; have := hx _ hy; simp at this; omega
    · have := hr y hy c hc; rw [h0] at this; simp at this; omega
  have hread : ∀ q : Str, '\n' ∉ q → q ≠ [] → readClusters (fileText (xs.map formatClusters) ++ q) =
      (appendSample ((List.range K).map fun i => xs.map fun x => x.getD i []) (parseClusters q)).bind npArray := by
    intro q hq hq0
    rw [readClusters, split_writing _ hlines q hq]
    rw [hhead, List.filter_eq_self.mpr, List.foldlM_append, foldlM_lines K hK xs hx]
    · simp
    · intro l hl
      rcases List.mem_append.mp hl with hl | hl
      · simpa using hnonempty l hl
      · rw [List.mem_singleton.mp hl]; simpa using hq0
  constructor
  · intro hk0 hk
    have hnl : '\n' ∉ (formatClusters x).take k := fun h => format_no_newline x (List.mem_of_mem_take h)
    have hq0 : (formatClusters x).take k ≠ [] := by
      intro h
      have := congrArg List.length h
      rw [List.length_take, List.length_nil] at this
      omega
    rw [hread _ hnl hq0]
    by_contra hcon
    obtain ⟨r, hr'⟩ := Option.ne_none_iff_exists'.mp hcon
    obtain ⟨h1, h2⟩ := array_shape hK xs hne hx hr _ (by simp [parseClusters]) r hr'
    generalize hq : (formatClusters x).take k = q at h1 h2
    have hql : q.length = k := by rw [← hq, List.length_take]; omega
    have e1 : tabJoin (q.splitOn '\t') = q := List.intercalate_splitOn '\t'
    have e2 := tabJoin_len (q.splitOn '\t') (List.splitOn_ne_nil _ _)
    have e3 := tabJoin_len (x.map encodeCluster) (by simpa using hx0)
    have s1 : ((q.splitOn '\t').map List.length).sum = K * N := by
      have hl : (q.splitOn '\t').length = K := by simpa [parseClusters] using h1
      rw [← hl, ← smul_eq_mul, ← List.sum_replicate]
      congr 1
      refine List.eq_replicate_iff.mpr ⟨by simp, fun b hb => ?_⟩
      obtain ⟨f, hf, rfl⟩ := List.mem_map.mp hb
      have := h2 (decodeCluster f) (List.mem_map.mpr ⟨f, hf, rfl⟩)
      simpa [decodeCluster] using this
    have s2 : ((x.map encodeCluster).map List.length).sum = K * N := by
      rw [← hxK, ← smul_eq_mul, ← List.sum_replicate]
      congr 1
      refine List.eq_replicate_iff.mpr ⟨by simp, fun b hb => ?_⟩
      obtain ⟨f, hf, rfl⟩ := List.mem_map.mp hb
      obtain ⟨c, hc, rfl⟩ := List.mem_map.mp hf
      simpa [encodeCluster] using hxN c hc
    have hl : (q.splitOn '\t').length = K := by simpa [parseClusters] using h1
    rw [e1, s1, hl] at e2
    rw [s2, List.length_map, hxK] at e3
    change (formatClusters x).length + 1 = _ at e3
    omega
  · have hx1 : formatClusters x ≠ [] := by
      intro h0
      refine format_length x hx0 (fun c hc h0 => ?_) (by rw [h0]; rfl)
      have := hxN c hc; rw [h0] at this; simp at this; omega
    rw [hread _ (format_no_newline x) hx1, parse_format x hx0]
    rw [readClusters_written K hK N hN (xs ++ [x]) (by simp) (by
      intro z hz
      rcases List.mem_append.mp hz with hz | hz
      · exact hx z hz
      · rw [List.mem_singleton.mp hz]; exact hxK) (by
      intro z hz
      rcases List.mem_append.mp hz with hz | hz
      · exact hr z hz
      · rw [List.mem_singleton.mp hz]; exact hxN), appendSample_eq K _ x hxK, Option.bind_some]
    simp only [List.map_append, List.map_cons, List.map_nil]
    refine npArray_eq K N _ (xs.length + 1) (fun i _ => by simp) fun i hi c hc => ?_
    rcases List.mem_append.mp hc with hc | hc
    · obtain ⟨z, hz, rfl⟩ := List.mem_map.mp hc
      have := hx z hz
      rw [List.getD_eq_getElem _ _ (by omega)]
      exact hr z hz _ (List.getElem_mem _)
    · rw [List.mem_singleton.mp hc, List.getD_eq_getElem _ _ (by omega)]
      exact hxN _ (List.getElem_mem _)

/-- Two clusters of three objects: the second line is cut after the third character (the tabulator is missing), or within the second cluster. -/
example : readClusters (fileText [lit "100\t011"] ++ lit "010") = none ∧ readClusters (fileText [lit "100\t011"] ++ lit "010\t0") = none ∧
    (readClusters (fileText [lit "100\t011"] ++ lit "010\t001")).isSome = true := by decide

end SBayes.Log
