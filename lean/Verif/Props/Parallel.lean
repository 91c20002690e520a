import Verif.Lemmas.ParallelRun
import Verif.Props.CrashLog
/- C94: the runs of one command do not disturb each other, whatever the schedule of the processes. -/
namespace SBayes.Par
open Command
open SBayes.Config (Kind resultFile runConfigurations)
open SBayes.Log (lit)

variable {E : Command}

theorem mainPool_ok {d : Disk} {runs : ℕ} {clusters : List ℕ} {s : List ℕ} (h : (E.prepare d).2 = true) :
    E.mainPool d runs clusters s = pool ((E.prepare d).1, (runConfigurations runs clusters).map E.runner) s := by
  unfold mainPool
  dsimp only
  rw [if_pos h]

theorem runner_get {xs : List (ℕ × ℕ)} {j : ℕ} {q : Prog} (h : (xs.map E.runner)[j]? = some q) :
    ∃ x, xs[j]? = some x ∧ q = E.runner x := by
  rw [List.getElem?_map] at h
  cases hx : xs[j]? with
  | none => rw [hx] at h; cases h
  | some x => rw [hx] at h; cases h; exact ⟨x, rfl, rfl⟩

/-- **C94** At any time, whatever the schedule and the number of processes: the result files of a run, and what it still has
to do, are as if it were alone on the disk and had made as many operations. -/
theorem C94_each_run_as_if_alone (hE : E.Tidy) (runs : ℕ) (clusters : List ℕ) (hnd : clusters.Nodup) (d : Disk)
    (hok : (E.prepare d).2 = true) (s : List ℕ) (i run k : ℕ) (hi : (runConfigurations runs clusters)[i]? = some (run, k)) :
    (∀ kind, (E.mainPool d runs clusters s).1 (E.filePath kind k run) =
      (alone (E.prepare d).1 (E.runner (run, k)) (s.count i)).1 (E.filePath kind k run)) ∧
    (E.mainPool d runs clusters s).2[i]? = some (alone (E.prepare d).1 (E.runner (run, k)) (s.count i)).2 := by
  rw [mainPool_ok hok]
  have hN := (SBayes.Config.C44_each_pair_once runs clusters hnd).1
  generalize hx : runConfigurations runs clusters = xs at *
  have := pool_alone (R := Outside E) (A := Outside E ∪ Own E (run, k))
    (fun j => {q | ∃ y, xs[j]? = some y ∧ q ∈ Mine E y}) Set.subset_union_left (i := i) ?_ s
    (E.prepare d).1 (E.prepare d).1 (xs.map E.runner) (E.runner (run, k)) (by rw [List.getElem?_map, hi]; rfl) ?_ (fun _ _ => rfl)
  · exact ⟨fun kind => this.2 _ (Or.inr ⟨kind, rfl⟩), this.1⟩
  · intro j hj
    rw [Set.disjoint_left]
    rintro q hq ⟨y, hy, hm⟩
    rcases hq with hq | hq
    · exact hq (mine_inside y hm)
    · rcases hm with e | e | e
      · exact own_ne_log hq e
      · exact own_ne_copy hq e
      · have hxy := own_disjoint hq e
        subst hxy
        obtain ⟨h1, e1⟩ := List.getElem?_eq_some_iff.mp hi
        obtain ⟨h2, e2⟩ := List.getElem?_eq_some_iff.mp hy
        exact hj ((hN.getElem_inj_iff).mp (e2.trans e1.symm))
  · intro j q hq
    obtain ⟨y, hy, rfl⟩ := runner_get hq
    refine within_mono ?_ (runner_within hE y)
    intro q hq
    exact ⟨y, hy, hq⟩

/-- **C94** At any time, all files that are neither the log, nor the copy of the configuration, nor a result file of one of the
runs, are as before: in particular the configuration, the data, and results of other experiments. -/
theorem C94_other_files_untouched (hE : E.Tidy) (runs : ℕ) (clusters : List ℕ) (d : Disk) (s : List ℕ) (q : Path)
    (h1 : q ≠ E.logPath) (h2 : q ≠ E.copyPath)
    (h3 : ∀ run k kind, run < runs → k ∈ clusters → q ≠ E.filePath kind k run) :
    (E.mainPool d runs clusters s).1 q = d q := by
  have hp : (E.prepare d).1 q = d q := by
    have hw : Within (Outside E) ({q | q = E.logPath ∨ q = E.copyPath} : Set Path) (E.init false fun _ => .done) := by
      refine ⟨hE.config, fun c => ⟨Or.inl rfl, within_ops ?_ ⟨hE.config, fun c' => ⟨Or.inr rfl, within_ops ?_ trivial⟩⟩⟩⟩
      · intro o ho
        rw [if_neg (by simp)] at ho
        cases ho
      · intro o ho
        exact Or.inr (writeBlocks_path o ho)
    exact finish_other _ d hw q (by rintro (h | h); exacts [h1 h, h2 h])
  unfold mainPool
  dsimp only
  split
  · rw [pool_untouched (R := Outside E) (W := {q | ∃ x ∈ runConfigurations runs clusters, q ∈ Mine E x}), hp]
    · intro p hpm
      obtain ⟨x, hx, rfl⟩ := List.mem_map.mp hpm
      refine within_mono ?_ (runner_within hE x)
      intro q hq
      exact ⟨x, hx, hq⟩
    · rintro ⟨x, hx, e | e | ⟨kind, e⟩⟩
      · exact h1 e
      · exact h2 e
      · unfold runConfigurations at hx
        simp only [List.mem_flatMap, List.mem_range, List.mem_map] at hx
        obtain ⟨r, hr, k, hk, rfl⟩ := hx
        exact h3 r k kind hr hk e
  · exact hp

/-- **C94** When all runs have ended, the copy of the configuration in the results directory is complete, although all runs
have written it. -/
theorem C94_configuration_copied (hE : E.Tidy) (runs : ℕ) (clusters : List ℕ) (d : Disk) (hok : (E.prepare d).2 = true)
    (s : List ℕ) (hs : ∀ p ∈ (E.mainPool d runs clusters s).2, p = Prog.done) :
    ∃ c, d E.config = some c ∧ (E.mainPool d runs clusters s).1 E.copyPath = some c := by
  obtain ⟨c, h1, h2, h3⟩ := prepare_ok hE hok
  rw [mainPool_ok hok] at hs ⊢
  refine ⟨c, h1, pool_copy (outside_inside (E := E)) (fun p hp => ?_) h3 s hs⟩
  obtain ⟨x, hx, rfl⟩ := List.mem_map.mp hp
  exact ⟨within_mono (mine_inside x) (runner_within hE x), runner_copies hE h2 x⟩

/-- **C94** When all runs have ended, every file but the log is as after running them one after the other, whatever the
schedule and the number of processes. -/
theorem C94_parallel_equals_sequential (hE : E.Tidy) (runs : ℕ) (clusters : List ℕ) (hnd : clusters.Nodup) (d : Disk)
    (s : List ℕ) (hs : ∀ p ∈ (E.mainPool d runs clusters s).2, p = Prog.done) (q : Path) (hq : q ≠ E.logPath) :
    (E.mainPool d runs clusters s).1 q = E.mainSequential d runs clusters q := by
  by_cases hok : (E.prepare d).2 = true
  · have hseq : E.mainSequential d runs clusters = E.sequential (E.prepare d).1 (runConfigurations runs clusters) := by
      unfold mainSequential
      dsimp only
      rw [if_pos hok]
    have hN := (SBayes.Config.C44_each_pair_once runs clusters hnd).1
    rw [hseq]
    by_cases hc : q = E.copyPath
    · subst hc
      obtain ⟨c, h1, h2, h3⟩ := prepare_ok hE hok
      obtain ⟨c', h1', h⟩ := C94_configuration_copied hE runs clusters d hok s hs
      rw [h1] at h1'
      cases h1'
      rw [h, sequential_copy hE _ _ h2 h3]
    · by_cases hown : ∃ x ∈ runConfigurations runs clusters, q ∈ Own E x
      · obtain ⟨x, hx, hqx⟩ := hown
        rw [sequential_own hE (E.prepare d).1 _ _ hN (fun _ _ => rfl) (fun _ _ _ _ => rfl) x hx q hqx]
        obtain ⟨i, hi⟩ := List.mem_iff_getElem?.mp hx
        obtain ⟨a1, a2⟩ := C94_each_run_as_if_alone hE runs clusters hnd d hok s i x.1 x.2 hi
        obtain ⟨kind, rfl⟩ := hqx
        rw [a1 kind, alone_finish _ _ _ (hs _ (List.mem_of_getElem? a2))]
      · have hmine : ∀ x ∈ runConfigurations runs clusters, q ∉ Mine E x := by
          rintro x hx (e | e | e)
          · exact hq e
          · exact hc e
          · exact hown ⟨x, hx, e⟩
        rw [sequential_other hE _ _ q hmine, mainPool_ok hok]
        apply pool_untouched (R := Outside E) (W := {q | ∃ x ∈ runConfigurations runs clusters, q ∈ Mine E x})
        · intro p hpm
          obtain ⟨x, hx, rfl⟩ := List.mem_map.mp hpm
          refine within_mono ?_ (runner_within hE x)
          intro q hq
          exact ⟨x, hx, hq⟩
        · rintro ⟨x, hx, hm⟩
          exact hmine x hx hm
  · unfold mainPool mainSequential
    dsimp only
    rw [if_neg hok, if_neg hok]

/-- **C94** There is a schedule with which all runs end, and one with which they are made one after the other. -/
theorem C94_runs_end (d : Disk) (ps : List Prog) : ∃ s, ∀ p ∈ (pool (d, ps) s).2, p = Prog.done := by
  have key : ∀ n : ℕ, ∃ s, ∀ (i : ℕ), i < n → ∀ p, (pool (d, ps) s).2[i]? = some p → p = Prog.done := by
    intro n
    induction n with
    | zero => exact ⟨[], fun i hi => by omega⟩
    | succ n ih =>
      obtain ⟨s, hs⟩ := ih
      have happ : ∀ (s t : List ℕ) (w : Disk × List Prog), pool w (s ++ t) = pool (pool w s) t := by
        intro s t
        induction s with
        | nil => intro w; rw [pool_nil]; rfl
        | cons i s ih =>
          rintro ⟨d, ps⟩
          rw [List.cons_append]
          cases hp : ps[i]? with
          | none => rw [pool_cons_none hp, pool_cons_none hp, ih]
          | some p => rw [pool_cons_some hp, pool_cons_some hp, ih]
      have one : ∀ (m : ℕ) (D : Disk) (qs : List Prog) (p : Prog), qs[n]? = some p → 
          (pool (D, qs) (List.replicate m n)).2 = qs.set n (alone D p m).2 := by
        intro m
        induction m with
        | zero => intro D qs p hp; rw [List.replicate_zero, pool_nil, alone]; obtain ⟨hlt, rfl⟩ := List.getElem?_eq_some_iff.mp hp; exact (List.set_getElem_self hlt).symm
        | succ m ih =>
          intro D qs p hp
          have hlt := (List.getElem?_eq_some_iff.mp hp).1
          rw [List.replicate_succ, pool_cons_some hp, ih _ _ _ (List.getElem?_set_self hlt), List.set_set]
          rfl
      generalize hw : pool (d, ps) s = w at hs
      obtain ⟨D, qs⟩ := w
      cases hp : qs[n]? with
      | none =>
        refine ⟨s, fun i hi p h => ?_⟩
        rw [hw] at h
        rcases Nat.lt_succ_iff_lt_or_eq.mp hi with hi | hi
        · exact hs i hi p h
        · subst hi; dsimp only at h; rw [hp] at h; cases h
      | some p =>
        obtain ⟨m, hm⟩ := alone_ends p D
        refine ⟨s ++ List.replicate m n, fun i hi q h => ?_⟩
        rw [happ, hw, one m D qs p hp] at h
        have hlt := (List.getElem?_eq_some_iff.mp hp).1
        by_cases hin : n = i
        · subst hin
          rw [List.getElem?_set_self hlt] at h
          cases h
          exact hm
        · rw [List.getElem?_set_ne hin] at h
          exact hs i (by omega) q h
  obtain ⟨s, hs⟩ := key ps.length
  refine ⟨s, fun p hp => ?_⟩
  obtain ⟨i, hi⟩ := List.mem_iff_getElem?.mp hp
  have hl := (List.getElem?_eq_some_iff.mp hi).1
  rw [pool_length] at hl
  exact hs i hl p hi

/-- **C94** At any time, the log contains what it contained before, followed by messages of the runs, each of them whole; the
messages of one run are the beginning of those it would log alone, in their order, and all of them if the run has ended. -/
theorem C94_log (hE : E.Tidy) (runs : ℕ) (clusters : List ℕ) (d : Disk) (hok : (E.prepare d).2 = true) (s : List ℕ) :
    ∃ es : List (ℕ × Str),
      ((E.mainPool d runs clusters s).1 E.logPath).getD [] = (d E.logPath).getD [] ++ (es.map Prod.snd).flatten ∧
      ∀ i x, (runConfigurations runs clusters)[i]? = some x →
        (es.filter (·.1 = i)).map Prod.snd <+: added E.logPath d (E.runner x) ∧
        ((E.mainPool d runs clusters s).2[i]? = some .done →
          (es.filter (·.1 = i)).map Prod.snd = added E.logPath d (E.runner x)) := by
  have hw : Within (Outside E) (Mine E (0, 0)) (E.init false fun _ => .done) := within_init hE fun _ => trivial
  have hlog : ((E.prepare d).1 E.logPath).getD [] = (d E.logPath).getD [] := by
    unfold prepare Command.init
    rw [finish]
    cases hc : d E.config with
    | none => rfl
    | some c =>
      dsimp only
      rw [finish, if_neg (by simp), finish_ops, List.foldl_nil, finish]
      have h0 : ((doOp d (.append E.logPath [])) E.logPath).getD [] = (d E.logPath).getD [] := by simp [doOp]
      split
      · exact h0
      · rename_i t _
        rw [finish, finish_ops, finish]
        have hblocks : ∀ (bs : List Str) (pos : ℕ) (d' : Disk) (q : Path), q ≠ E.copyPath →
            (List.foldl doOp d' (writeBlocks E.copyPath pos bs)) q = d' q := by
          intro bs
          induction bs with
          | nil => exact fun _ _ _ _ => rfl
          | cons b bs ih => exact fun pos d' q hq => (ih _ _ q hq).trans (doOp_other (o := .writeAt E.copyPath pos b) hq)
        have hne : E.logPath ≠ E.copyPath := fun e => copy_ne_log hE e.symm
        dsimp only
        rw [hblocks _ _ _ _ hne, doOp_other (o := .create E.copyPath) hne]
        exact h0
  rw [mainPool_ok hok]
  obtain ⟨es, h1, h2⟩ := pool_log (R := Outside E) (W := Inside E) (log := E.logPath) outside_inside (d := (E.prepare d).1)
    (ps := (runConfigurations runs clusters).map E.runner) (fun p hp => by
      obtain ⟨x, hx, rfl⟩ := List.mem_map.mp hp
      exact ⟨within_mono (mine_inside x) (runner_within hE x), runner_onlyAdds hE x⟩) s
  refine ⟨es, by rw [h1, hlog], fun i x hx => ?_⟩
  obtain ⟨q, h3, h4⟩ := h2 i (E.runner x) (by rw [List.getElem?_map, hx]; rfl)
  have hcongr : added E.logPath (E.prepare d).1 (E.runner x) = added E.logPath d (E.runner x) :=
    added_congr _ (runner_within hE x) fun q hq => finish_other _ d hw q fun h => hq (mine_inside _ h)
  rw [hcongr] at h4
  refine ⟨⟨_, h4⟩, fun hd => ?_⟩
  rw [h3] at hd
  cases hd
  rw [← h4]
  simp [added]

/-- **C94** At any time, if the files of a run did not exist before: its text files are those of a run that was killed after
some number of its operations `t` on these files (C79 says what is in them), and after all of them if it has ended. -/
theorem C94_text_files (hE : E.Tidy) (runs : ℕ) (clusters : List ℕ) (hnd : clusters.Nodup) (d : Disk)
    (c : Str) (ds : List Str) (hc : d E.config = some c) (hds : (E.dataFiles c).mapM d = some ds)
    (s : List ℕ) (i run k : ℕ) (hi : (runConfigurations runs clusters)[i]? = some (run, k))
    (hnew : ∀ kind, d (E.filePath kind k run) = none)
    (hlik : ∀ kind pos x, .writeAt kind pos x ∈ E.session c ds run k → kind = .likelihood)
    (t : List SBayes.Log.DiskOp) (ht : (E.session c ds run k).filterMap textOp = t) :
    ∃ n, (∀ f, ((E.mainPool d runs clusters s).1 (E.filePath (kindOf f) k run)).getD [] = SBayes.Log.crash (fun _ => []) t n 0 f) ∧
      ((E.mainPool d runs clusters s).2[i]? = some .done → n = t.length) := by
  have hw : Within (Outside E) (Mine E (0, 0)) (E.init false fun _ => .done) := within_init hE fun _ => trivial
  have hout : ∀ q ∈ Outside E, (E.prepare d).1 q = d q := fun q hq => finish_other _ d hw q fun h => hq (mine_inside _ h)
  have hok : (E.prepare d).2 = true := by
    unfold prepare Command.init
    rw [finish, hc]
    dsimp only
    have hne : E.config ≠ E.logPath := fun e => hE.config (e ▸ inBase_inside _)
    rw [finish, finish_ops, if_neg (by simp), List.foldl_nil, finish, doOp_other (o := .append E.logPath []) hne, hc]
    dsimp only
    rw [finish, finish_ops]
    rfl
  have hown : ∀ kind, (E.prepare d).1 (E.filePath kind k run) = none := by
    intro kind
    have hw' : Within (Outside E) ({q | q = E.logPath ∨ q = E.copyPath} : Set Path) (E.init false fun _ => .done) := by
      refine ⟨hE.config, fun c => ⟨Or.inl rfl, within_ops ?_ ⟨hE.config, fun c' => ⟨Or.inr rfl, within_ops ?_ trivial⟩⟩⟩⟩
      · intro o ho
        rw [if_neg (by simp)] at ho
        cases ho
      · intro o ho
        exact Or.inr (writeBlocks_path o ho)
    refine (finish_other _ d hw' _ ?_).trans (hnew kind)
    rintro (h | h)
    · exact own_ne_log (x := (run, k)) ⟨kind, rfl⟩ h
    · exact own_ne_copy (x := (run, k)) ⟨kind, rfl⟩ h
  obtain ⟨a1, a2⟩ := C94_each_run_as_if_alone hE runs clusters hnd d hok s i run k hi
  have hlead := runner_leads (E := E) hc hds (run, k)
  obtain ⟨m, h1, h2⟩ := leads_alone (Disjoint.mono_right (mine_inside (run, k)) outside_inside) (s.count i) _ (E.prepare d).1
    (runner_within hE (run, k)) hout hlead
  dsimp only at h1 h2
  rw [← List.map_take] at h1
  rw [List.length_map] at h2
  have htext := text_files (E := E) k run ((E.session c ds run k).take m) (E.prepare d).1 (fun _ => [])
    (fun kind pos x hx => hlik kind pos x (List.mem_of_mem_take hx)) (fun f => by rw [hown]; rfl)
  have hcrash : ∀ n, SBayes.Log.crash (fun _ => []) t n 0 = (t.take n).foldl SBayes.Log.diskStep (fun _ => []) := by
    intro n
    unfold SBayes.Log.crash
    dsimp only
    split
    · rename_i f x _
      rw [List.take_zero]
      funext g
      by_cases hg : g = f
      · subst hg; simp [SBayes.Log.diskStep]
      · rw [SBayes.Log.diskStep, Function.update_of_ne hg]
    · rfl
  by_cases hend : (E.session c ds run k).length ≤ m
  · refine ⟨t.length, fun f => ?_, fun _ => rfl⟩
    rw [a1, h1 _ ⟨kindOf f, rfl⟩, htext f, hcrash, List.take_length, List.take_of_length_le hend, ht]
  · obtain ⟨n, hn⟩ := filterMap_take textOp (E.session c ds run k) m
    refine ⟨n, fun f => ?_, fun hd => ?_⟩
    · rw [a1, h1 _ ⟨kindOf f, rfl⟩, htext f, hcrash, hn, ht]
    · rw [a2] at hd
      exact absurd (h2 (Option.some.inj hd)) hend

/-- **C94** A whole run among others: when it has ended, its two files contain all its samples. -/
theorem C94_complete_results (hE : E.Tidy) (runs : ℕ) (clusters : List ℕ) (hnd : clusters.Nodup) (d : Disk)
    (c : Str) (ds : List Str) (hc : d E.config = some c) (hds : (E.dataFiles c).mapM d = some ds)
    (s : List ℕ) (i run k : ℕ) (hi : (runConfigurations runs clusters)[i]? = some (run, k))
    (hnew : ∀ kind, d (E.filePath kind k run) = none)
    (hlik : ∀ kind pos x, .writeAt kind pos x ∈ E.session c ds run k → kind = .likelihood)
    {S : SBayes.Log.Schema} {K N : ℕ} {contrib : Bool} {fmt : EReal → Str} (hP : SBayes.Log.PlainText S) (hfmt : ∀ v, '\n' ∉ fmt v)
    (xs : List (SBayes.Log.Snapshot × List SBayes.Log.OpCount)) (hx : xs ≠ []) (m1 m2 : Bool)
    (ht : SBayes.Log.trace S K N contrib fmt (SBayes.Log.newLogger [] m1, SBayes.Log.newLogger [] m2) xs =
      some ((E.session c ds run k).filterMap textOp))
    (hdone : (E.mainPool d runs clusters s).2[i]? = some .done) :
    ∃ p cl, SBayes.Log.logRun S K N contrib fmt (SBayes.Log.newLogger [] m1, SBayes.Log.newLogger [] m2)
        (SBayes.Log.firstWrites xs.length xs) = some (p, cl) ∧
      SBayes.Log.completeLines (((E.mainPool d runs clusters s).1 (E.filePath .stats k run)).getD []) = p.file ∧
      SBayes.Log.completeLines (((E.mainPool d runs clusters s).1 (E.filePath .clusters k run)).getD []) = cl.file := by
  obtain ⟨n, h1, h2⟩ := C94_text_files hE runs clusters hnd d c ds hc hds s i run k hi hnew hlik _ rfl
  obtain ⟨p, cl, e1, e2, e3⟩ := SBayes.Log.C79_uninterrupted_run hP hfmt xs m1 m2 _ ht hx
  refine ⟨p, cl, e1, ?_, ?_⟩
  · rw [← e2]
    refine (congrArg _ (h1 .stats)).trans ?_
    rw [h2 hdone]
    simp [SBayes.Log.crash]
  · rw [← e3]
    refine (congrArg _ (h1 .clusters)).trans ?_
    rw [h2 hdone]
    simp [SBayes.Log.crash]

/-! ### The name of an experiment -/

theorem digit_inj (a b : ℕ) (ha : a < 10) (hb : b < 10) : Nat.digitChar a = Nat.digitChar b → a = b :=
  (by decide : ∀ a < 10, ∀ b < 10, Nat.digitChar a = Nat.digitChar b → a = b) a ha b hb

theorem digit_plain : ∀ a < 10, Nat.digitChar a ≠ '.' ∧ Nat.digitChar a ≠ ':' ∧ Nat.digitChar a ≠ ' ' := by decide

theorem two_inj {a b : ℕ} (ha : a < 100) (hb : b < 100) (h : two a = two b) : a = b := by
  simp only [two, List.cons.injEq, and_true] at h
  have h1 := digit_inj _ _ (Nat.mod_lt _ (by omega)) (Nat.mod_lt _ (by omega)) h.1
  have h2 := digit_inj _ _ (Nat.mod_lt _ (by omega)) (Nat.mod_lt _ (by omega)) h.2
  omega

theorem two_mod {a b : ℕ} (h : two a = two b) : a % 100 = b % 100 := by
  simp only [two, List.cons.injEq, and_true] at h
  have h1 := digit_inj _ _ (Nat.mod_lt _ (by omega)) (Nat.mod_lt _ (by omega)) h.1
  have h2 := digit_inj _ _ (Nat.mod_lt _ (by omega)) (Nat.mod_lt _ (by omega)) h.2
  omega

/-- The default name: date, hour and minute. -/
theorem C94_default_name (t : Time) (micro : Str) : experimentName (t.str micro) =
    two (t.year / 100) ++ two t.year ++ ['-'] ++ two t.month ++ ['-'] ++ two t.day ++ ['_'] ++ two t.hour ++ ['-'] ++ two t.minute := by
  have hd : ∀ n : ℕ, Nat.digitChar (n % 10) ≠ '.' ∧ Nat.digitChar (n % 10) ≠ ':' ∧ Nat.digitChar (n % 10) ≠ ' ' := fun n =>
    digit_plain _ (Nat.mod_lt _ (by omega))
  have htail : List.takeWhile (fun c => decide (c ≠ '.')) (if t.micro = 0 then [] else '.' :: micro) = [] := by
    split
    · rfl
    · rw [List.takeWhile_cons_of_neg (by simp)]
  unfold experimentName Time.str
  rw [List.takeWhile_append_of_pos, htail]
  · simp [two, hd]
  · intro c hc
    simp only [two, List.mem_append, List.mem_cons, List.not_mem_nil, or_false] at hc
    simp only [decide_eq_true_eq]
    rcases hc with (((((((((((h | h) | h | h) | h) | h | h) | h) | h | h) | h) | h | h) | h) | h | h) | h) | h | h <;> rw [h] <;>
      first
        | exact (hd _).1
        | decide

/-- **C94** Two experiments that were not given a name have the same name, and so the same results directory, if and only if
they were started in the same minute. -/
theorem C94_same_name_iff_same_minute (t t' : Time) (ht : t.Valid) (ht' : t'.Valid) (micro micro' : Str) :
    experimentName (t.str micro) = experimentName (t'.str micro') ↔
      (t.year, t.month, t.day, t.hour, t.minute) = (t'.year, t'.month, t'.day, t'.hour, t'.minute) := by
  rw [C94_default_name, C94_default_name]
  constructor
  · intro h
    have hlen : ∀ n, (two n).length = 2 := fun n => rfl
    simp only [List.append_assoc] at h
    obtain ⟨a1, h⟩ := List.append_inj h rfl
    obtain ⟨a2, h⟩ := List.append_inj h rfl
    obtain ⟨-, h⟩ := List.append_inj h rfl
    obtain ⟨a3, h⟩ := List.append_inj h rfl
    obtain ⟨-, h⟩ := List.append_inj h rfl
    obtain ⟨a4, h⟩ := List.append_inj h rfl
    obtain ⟨-, h⟩ := List.append_inj h rfl
    obtain ⟨a5, h⟩ := List.append_inj h rfl
    obtain ⟨-, h⟩ := List.append_inj h rfl
    have b1 := two_inj (by have := ht.year; omega) (by have := ht'.year; omega) a1
    have b2 := two_mod a2
    rw [two_inj ht.month ht'.month a3, two_inj ht.day ht'.day a4, two_inj ht.hour ht'.hour a5, two_inj ht.minute ht'.minute h]
    have : t.year = t'.year := by omega
    rw [this]
  · intro h
    simp only [Prod.mk.injEq] at h
    obtain ⟨h1, h2, h3, h4, h5⟩ := h
    rw [h1, h2, h3, h4, h5]

/-! ### Two commands, and an example -/

/-- A command: two lines in the log and two writes to the statistics file, in which the text `what` and the number of the run
are mentioned. -/
def exampleCommand (base : Path) (what : Str) : Command where
  base := base
  config := lit "/home/config.json"
  blocks := fun c => [c.take 3, c.drop 3]
  hello := [lit "Experiment\n"]
  dataFiles := fun _ => [lit "/home/features.csv"]
  session := fun _ ds run _ => [.log (lit "start\n"), .create .stats, .append .stats (ds.flatten ++ lit "\n"),
    .append .stats (what ++ SBayes.Log.num run ++ lit "\n"), .log (lit "end\n")]

theorem exampleCommand_tidy (what : Str) : (exampleCommand (lit "/results/x") what).Tidy where
  config := by show ¬ lit "/results/x" ++ ['/'] <+: lit "/home/config.json"; decide
  data := by
    intro c p hp
    rw [show p = lit "/home/features.csv" by simpa [exampleCommand] using hp]
    show ¬ lit "/results/x" ++ ['/'] <+: lit "/home/features.csv"
    decide
  name := by show basename (lit "/home/config.json") ≠ lit "experiment.log"; decide
  blocks := fun c => by simp [exampleCommand]

/-- The disk of the example. -/
def exampleDisk : Disk := fun p =>
  if p = lit "/home/config.json" then some (lit "{model}") else if p = lit "/home/features.csv" then some (lit "id,F1") else none

example : ((exampleCommand (lit "/results/x") (lit "A")).prepare exampleDisk).2 = true := by decide

/-- A schedule of two runs that alternate, until they have ended. -/
def exampleSchedule : List ℕ := (List.range 14).flatMap fun _ => [0, 1]

example : ∀ p ∈ ((exampleCommand (lit "/results/x") (lit "A")).mainPool exampleDisk 2 [3] exampleSchedule).2, p = Prog.done := by
  have : ((exampleCommand (lit "/results/x") (lit "A")).mainPool exampleDisk 2 [3] exampleSchedule).2 = [.done, .done] := rfl
  rw [this]
  simp

example : ((exampleCommand (lit "/results/x") (lit "A")).mainPool exampleDisk 2 [3] exampleSchedule).1
    (lit "/results/x/K3/stats_K3_1.txt") = some (lit "id,F1\nA1\n") := by decide

example : ((exampleCommand (lit "/results/x") (lit "A")).mainPool exampleDisk 2 [3] exampleSchedule).1
    (lit "/results/x/experiment.log") = some (lit "Experiment\nExperiment\nstart\nstart\nend\nend\n") := by decide

/-- The operations on text files as operations of a run. -/
def ofDisk : SBayes.Log.DiskOp → RunOp
  | .create f => .create (kindOf f)
  | .append f t => .append (kindOf f) t

/-- The hypotheses of the two theorems about the text files are met: a command whose runs log the samples of the example of
C79, three runs of which the first one has ended. -/
example : ∃ (E : Command) (t : List SBayes.Log.DiskOp) (s : List ℕ), E.Tidy ∧
    exampleDisk E.config = some (lit "{model}") ∧ (E.dataFiles (lit "{model}")).mapM exampleDisk = some [lit "id,F1"] ∧
    (∀ kind, exampleDisk (E.filePath kind 3 0) = none) ∧
    (∀ kind pos x, .writeAt kind pos x ∈ E.session (lit "{model}") [lit "id,F1"] 0 3 → kind = .likelihood) ∧
    SBayes.Log.trace SBayes.Log.demoSchema 2 3 true (fun _ => lit "1.5") (SBayes.Log.newLogger [] true, SBayes.Log.newLogger [] true)
      SBayes.Log.demoRun = some ((E.session (lit "{model}") [lit "id,F1"] 0 3).filterMap textOp) ∧
    (E.session (lit "{model}") [lit "id,F1"] 0 3).filterMap textOp = t ∧ t ≠ [] ∧
    (E.mainPool exampleDisk 3 [3] s).2[0]? = some .done := by
  obtain ⟨t, pc1, pc2, ht, h1, h2, o1, o2, e⟩ := SBayes.Log.demo_trace
  let E : Command := { exampleCommand (lit "/results/x") (lit "A") with
    session := fun _ _ _ _ => RunOp.log (lit "start\n") :: t.map ofDisk }
  have hE : E.Tidy := { exampleCommand_tidy (lit "A") with }
  obtain ⟨s, hs⟩ := C94_runs_end (E.prepare exampleDisk).1 ((runConfigurations 3 [3]).map E.runner)
  have hf : (E.session (lit "{model}") [lit "id,F1"] 0 3).filterMap textOp = t := by
    show (RunOp.log (lit "start\n") :: t.map ofDisk).filterMap textOp = t
    rw [List.filterMap_cons]
    simp only [textOp]
    rw [List.filterMap_map]
    conv_rhs => rw [← List.filterMap_some (l := t)]
    congr 1
    funext o
    cases o with
    | create f => cases f <;> rfl
    | append f x => cases f <;> rfl
  have hok : (E.prepare exampleDisk).2 = true := rfl
  refine ⟨E, t, s, hE, rfl, rfl, fun kind => ?_, ?_, by rw [hf]; exact ht, hf, ?_, ?_⟩
  · show exampleDisk ((exampleCommand (lit "/results/x") (lit "A")).filePath kind 3 0) = none
    cases kind <;> decide
  · intro kind pos x hx
    have hx' : RunOp.writeAt kind pos x ∈ RunOp.log (lit "start\n") :: t.map ofDisk := hx
    rcases List.mem_cons.mp hx' with h | h
    · cases h
    · obtain ⟨o, -, ho⟩ := List.mem_map.mp h
      cases o <;> cases ho
  · intro h0
    rw [h0] at e
    simp [SBayes.Log.sampleOps] at e
  · rw [mainPool_ok hok]
    have hlen := pool_length (E.prepare exampleDisk).1 ((runConfigurations 3 [3]).map E.runner) s
    have hl : ((runConfigurations 3 [3]).map E.runner).length = 3 := rfl
    rw [hl] at hlen
    have hget := List.getElem?_eq_getElem (l := (pool ((E.prepare exampleDisk).1, (runConfigurations 3 [3]).map E.runner) s).2)
      (i := 0) (by omega)
    rw [hget, hs _ (List.getElem_mem _)]

/-- **C94** Nothing protects the results of an experiment from another one with the same name: of two commands that were
started without a name in the same minute, one after the other, only the results of the second one are left. -/
theorem C94_same_minute_keeps_results_false : ∃ (E E' : Command) (t t' : Time) (d : Disk), t.Valid ∧ t'.Valid ∧ E.Tidy ∧ E'.Tidy ∧
    E.base = lit "/results/" ++ experimentName (t.str (lit "123456")) ∧
    E'.base = lit "/results/" ++ experimentName (t'.str (lit "123456")) ∧ t ≠ t' ∧
    E.mainSequential d 1 [3] (E.filePath .stats 3 0) = some (lit "id,F1\nA0\n") ∧
    E'.mainSequential (E.mainSequential d 1 [3]) 1 [3] (E.filePath .stats 3 0) = some (lit "id,F1\nB0\n") := by
  refine ⟨exampleCommand (lit "/results/2026-11-18_10-09") (lit "A"), exampleCommand (lit "/results/2026-11-18_10-09") (lit "B"),
    ⟨2026, 11, 18, 10, 9, 2, 123456⟩, ⟨2026, 11, 18, 10, 9, 58, 123456⟩, exampleDisk, ⟨by decide, by decide, by decide, by decide, by decide⟩,
    ⟨by decide, by decide, by decide, by decide, by decide⟩, ?_, ?_, by decide, by decide, (fun h => by cases h), by decide, by decide⟩
  · exact ⟨by decide, fun c p hp => by
      rw [show p = lit "/home/features.csv" by simpa [exampleCommand] using hp]; decide, by decide, fun c => by simp [exampleCommand]⟩
  · exact ⟨by decide, fun c p hp => by
      rw [show p = lit "/home/features.csv" by simpa [exampleCommand] using hp]; decide, by decide, fun c => by simp [exampleCommand]⟩

end SBayes.Par
