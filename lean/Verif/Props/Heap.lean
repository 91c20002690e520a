import Verif.Lemmas.Heap
/- Properties C01, C02, C03, C49 about copy-on-write parameters. -/
namespace SBayes.Heap
variable {ρ : Type}

/-- **C01.** After every history of constructor calls, copies and mutations (completed or aborted),
the value and the version read from each parameter are those of a store of independent values:
an operation on one parameter never shows in another one, whichever were copied from which. -/
theorem C01_copies_are_independent_values (ops : List (Op ρ)) (i : Nat) :
    value (run (World.empty ρ) ops) i = ((specRun [] ops)[i]?).map (·.rows) ∧
    version (run (World.empty ρ) ops) i = ((specRun [] ops)[i]?).map (·.version) := by
  obtain ⟨_, hR⟩ := run_sim ops (inv_empty (ρ := ρ)) r_empty
  unfold value version
  cases hp : (run (World.empty ρ) ops).params[i]? with
  | none =>
    have : (specRun [] ops)[i]? = none := by
      rw [List.getElem?_eq_none_iff] at hp ⊢; rw [← hR.len]; exact hp
    simp [this]
  | some p =>
    have hi : i < (run (World.empty ρ) ops).params.length := by
      rcases List.getElem?_eq_some_iff.mp hp with ⟨h, _⟩; exact h
    obtain ⟨v, hv⟩ : ∃ v, (specRun [] ops)[i]? = some v :=
      ⟨(specRun [] ops)[i]'(hR.len ▸ hi), by simp [hR.len ▸ hi]⟩
    obtain ⟨_, h2, h3⟩ := hR.val i p v hp hv
    simp [hv, h2, h3]

/-- **C01**, the same as non-interference: after any history, an operation called on another
parameter changes neither the value nor the version of parameter `i`. -/
theorem C01_no_interference (ops : List (Op ρ)) (op : Op ρ) (i : Nat)
    (hi : i < (run (World.empty ρ) ops).params.length) (ht : op.target ≠ some i) :
    value (run (World.empty ρ) (ops ++ [op])) i = value (run (World.empty ρ) ops) i ∧
    version (run (World.empty ρ) (ops ++ [op])) i = version (run (World.empty ρ) ops) i := by
  obtain ⟨_, hR⟩ := run_sim ops (inv_empty (ρ := ρ)) r_empty
  have hl : i < (specRun ([] : List (PV ρ)) ops).length := hR.len ▸ hi
  have key : (specRun ([] : List (PV ρ)) (ops ++ [op]))[i]? = (specRun [] ops)[i]? := by
    simp only [specRun, List.foldl_append, List.foldl_cons, List.foldl_nil]
    change (specStep (specRun [] ops) op)[i]? = _
    change _ = (specRun [] ops)[i]?
    obtain ⟨v, hv⟩ : ∃ v, (specRun ([] : List (PV ρ)) ops)[i]? = some v := ⟨_, List.getElem?_eq_getElem hl⟩
    rw [specStep_get op hv, if_neg ht, hv]
  have a := C01_copies_are_independent_values (ops ++ [op]) i
  have b := C01_copies_are_independent_values ops i
  rw [a.1, a.2, b.1, b.2, key]; exact ⟨rfl, rfl⟩

/-- Non-vacuity: three parameters, two of them copies, mutated alternately. -/
example :
    let ops : List (Op Nat) := [.create true [1, 2], .copy 0, .editGroup 0 1 (· + 5), .copy 1,
      .setItems 2 (.row 0 fun _ => 9), .editAbort 1 (·.map (· * 10))]
    value (run (World.empty Nat) ops) 0 = some [1, 7] ∧
    value (run (World.empty Nat) ops) 1 = some [10, 20] ∧
    value (run (World.empty Nat) ops) 2 = some [9, 2] := by decide

/-- **C02**, full statement (false, see `C02_false`): group counters are those of independent
values. -/
def C02_statement (ρ : Type) : Prop :=
  ∀ (ops : List (Op ρ)) (i : Nat) (p : Param), (run (World.empty ρ) ops).params[i]? = some p →
    p.grouped = true →
    groupVersions (run (World.empty ρ) ops) i = ((specRun [] ops)[i]?).map (·.groups)

/-- **C02** fails in the code: `set_value` on a copy clears `shared` although the counters are still
shared, so that a later group edit of the copy writes into the counters of the original. -/
theorem C02_false : ¬ C02_statement Nat := by
  intro h
  have := h [.create true [1, 2], .copy 0, .setValue 1 [3, 4], .editGroup 1 0 id] 0
    ⟨true, 0, 0, true, 0⟩ (by decide) rfl
  revert this; decide

/-- **C02**, proved part: for histories in which `set_value` is only called on parameters without
groups (no operator of sBayes calls it on clusters or effects), the group counters of every grouped
parameter behave as those of independent values.  Missing: `set_value` on grouped parameters, for
which the statement is false. -/
theorem C02_group_counters_independent_partial (ops : List (Op ρ))
    (hops : plainSetValueOnly [] ops) (i : Nat) (p : Param)
    (hp : (run (World.empty ρ) ops).params[i]? = some p) (hg : p.grouped = true) :
    groupVersions (run (World.empty ρ) ops) i = ((specRun [] ops)[i]?).map (·.groups) := by
  obtain ⟨_, hR⟩ := run_sim ops (inv_empty (ρ := ρ)) r_empty
  have hRG := run_sim_G ops (inv_empty (ρ := ρ)) r_empty invG_empty rG_empty hops
  have hi : i < (run (World.empty ρ) ops).params.length := by
    rcases List.getElem?_eq_some_iff.mp hp with ⟨h, _⟩; exact h
  obtain ⟨v, hv⟩ : ∃ v, (specRun [] ops)[i]? = some v :=
    ⟨(specRun [] ops)[i]'(hR.len ▸ hi), by simp [hR.len ▸ hi]⟩
  simp [groupVersions, hp, hv, hRG i p v hp hv hg]

/-- Non-vacuity of `C02_group_counters_independent_partial`. -/
example :
    let ops : List (Op Nat) := [.create true [1, 2], .create false [0], .copy 0, .setValue 1 [3],
      .editGroup 2 0 (· + 1), .editGroup 0 1 (· + 1), .editGroup 0 1 (· + 1)]
    plainSetValueOnly [] ops ∧ groupVersions (run (World.empty Nat) ops) 0 = some [0, 2] ∧
    groupVersions (run (World.empty Nat) ops) 2 = some [1, 0] := by
  refine ⟨?_, by decide, by decide⟩
  simp [plainSetValueOnly, specStep]

/-- **C03.** The version of a parameter increases by exactly the number of completed mutations
of that parameter. -/
theorem C03_version_counts_completed_mutations (ops₁ ops₂ : List (Op ρ)) (i n : Nat)
    (h : version (run (World.empty ρ) ops₁) i = some n) :
    version (run (World.empty ρ) (ops₁ ++ ops₂)) i =
      some (n + completions i (specRun [] ops₁) ops₂) := by
  rw [(C01_copies_are_independent_values _ i).2] at h ⊢
  simp only [specRun, List.foldl_append] at h ⊢
  generalize List.foldl specStep [] ops₁ = s at h
  induction ops₂ generalizing s n with
  | nil => simpa [completions] using h
  | cons op ops ih =>
    simp only [List.foldl_cons, completions]
    rcases Option.map_eq_some_iff.mp h with ⟨v, hv, rfl⟩
    have step1 : Option.map (fun x => x.version) (specStep s op)[i]? =
        some (v.version + if op.target = some i ∧ v.completes op then 1 else 0) := by
      rw [specStep_get op hv]
      by_cases ht : op.target = some i
      · by_cases hc : v.completes op = true <;> simp [ht, hc, PV.apply]
      · simp [ht]
    have := ih _ (specStep s op) step1
    rw [this, hv]
    simp only [Option.some.injEq]; omega

/-- **C03**, consequence used by the caches: if the version of a parameter is the same before and
after a history in which no edit block raised, then the value is the same as well. -/
theorem C03_equal_version_equal_value (ops₁ ops₂ : List (Op ρ)) (i n : Nat)
    (h₁ : version (run (World.empty ρ) ops₁) i = some n)
    (h₂ : version (run (World.empty ρ) (ops₁ ++ ops₂)) i = some n)
    (hab : ∀ op ∈ ops₂, op.aborts = false) :
    value (run (World.empty ρ) (ops₁ ++ ops₂)) i = value (run (World.empty ρ) ops₁) i := by
  have hc := C03_version_counts_completed_mutations ops₁ ops₂ i n h₁
  rw [h₂, Option.some.injEq] at hc
  have hc0 : completions i (specRun [] ops₁) ops₂ = 0 := by omega
  rw [(C01_copies_are_independent_values _ i).1, (C01_copies_are_independent_values _ i).1]
  rw [(C01_copies_are_independent_values _ i).2] at h₁
  rcases Option.map_eq_some_iff.mp h₁ with ⟨v, hv, rfl⟩
  simp only [specRun, List.foldl_append] at hc0 hv ⊢
  generalize List.foldl specStep [] ops₁ = s at hc0 hv
  clear hc h₁ h₂
  rw [hv]
  suffices H : ∃ u : PV ρ, (List.foldl specStep s ops₂)[i]? = some u ∧ u.rows = v.rows by
    obtain ⟨u, hu, hr⟩ := H; simp [hu, hr]
  induction ops₂ generalizing s v with
  | nil => exact ⟨v, hv, rfl⟩
  | cons op ops ih =>
    simp only [completions, hv] at hc0
    have hnc : ¬ (op.target = some i ∧ v.completes op = true) := by
      intro h; rw [if_pos h] at hc0; omega
    have hopa := hab op (by simp)
    have step1 : ∃ u : PV ρ, (specStep s op)[i]? = some u ∧ u.rows = v.rows := by
      refine ⟨_, specStep_get op hv, ?_⟩
      split
      · rename_i ht
        exact apply_rows_of_not_completes hopa (by simpa [ht] using hnc)
      · rfl
    obtain ⟨u, hu, hur⟩ := step1
    obtain ⟨u', hu', hr'⟩ := ih (fun o ho => hab o (by simp [ho])) u (specStep s op) (by omega) hu
    exact ⟨u', hu', hr'.trans hur⟩

/-- The hypothesis on aborted edits is needed: after an edit whose body raised, the value has
changed under the same version (so every cache keyed by the version is stale). -/
theorem C03_aborted_edit_changes_value_silently :
    ∃ ops : List (Op Nat),
      version (run (World.empty Nat) [.create false [1]]) 0 =
        version (run (World.empty Nat) ([.create false [1]] ++ ops)) 0 ∧
      value (run (World.empty Nat) [.create false [1]]) 0 ≠
        value (run (World.empty Nat) ([.create false [1]] ++ ops)) 0 :=
  ⟨[.editAbort 0 (·.map (· + 1))], by decide, by decide⟩

/-- Non-vacuity of the C03 theorems. -/
example :
    let ops₁ : List (Op Nat) := [.create true [1, 2], .editGroup 0 1 (· + 5)]
    let ops₂ : List (Op Nat) := [.copy 0, .editGroup 1 0 (· + 1), .editGroup 1 7 (· + 1), .edit 1 id]
    version (run (World.empty Nat) ops₁) 0 = some 1 ∧
    version (run (World.empty Nat) (ops₁ ++ ops₂)) 0 = some 1 ∧
    (∀ op ∈ ops₂, op.aborts = false) ∧
    version (run (World.empty Nat) (ops₁ ++ ops₂)) 1 = some 3 := by
  refine ⟨by decide, by decide, ?_, by decide⟩
  simp [Op.aborts]

/-- Did all operations return normally? -/
def allReturn (w : World ρ) : List (Op ρ) → Prop
  | [] => True
  | op :: ops => (step w op).2 = true ∧ allReturn (step w op).1 ops

/-- **C49.** As long as no operation raised, the array of each parameter is write-protected, so a
stray `p.value[...] = x` raises instead of silently changing the state behind the version counter. -/
theorem C49_values_are_write_protected (ops : List (Op ρ)) (h : allReturn (World.empty ρ) ops)
    (i : Nat) (b : Bool) (hb : writeable (run (World.empty ρ) ops) i = some b) : b = false := by
  suffices H : ∀ (ops : List (Op ρ)) (w : World ρ), Inv w → allReturn w ops →
      (∀ (i : Nat) (p : Param), w.params[i]? = some p → (w.vheap p.vaddr).writeable = false) →
      ∀ (i : Nat) (p : Param), (run w ops).params[i]? = some p →
        ((run w ops).vheap p.vaddr).writeable = false by
    unfold writeable at hb
    rcases Option.map_eq_some_iff.mp hb with ⟨p, hp, rfl⟩
    exact H ops _ inv_empty h (by simp [World.empty]) i p hp
  intro ops
  induction ops with
  | nil => intro w _ _ hw; exact hw
  | cons op ops ih =>
    intro w hI hret hw
    obtain ⟨hok, hret⟩ := hret
    have hR : R w (w.params.map fun p => ⟨p.grouped, (w.vheap p.vaddr).rows, p.version, []⟩) := by
      refine ⟨by simp, ?_⟩
      intro j p v hp hv; simp [hp] at hv; subst hv; simp
    refine ih _ (step_sim op hI hR).1 hret ?_
    -- a single step
    have mutw : ∀ (w' : World ρ) (i : Nat) (p p' : Param), w.params[i]? = some p →
        w'.params = w.params.set i p' →
        (∀ a, a < w.vnext → a ≠ p'.vaddr → w'.vheap a = w.vheap a) →
        (w'.vheap p'.vaddr).writeable = false →
        ∀ (j : Nat) (q : Param), w'.params[j]? = some q →
          (w'.vheap q.vaddr).writeable = false := by
      intro w' i p p' hp hpar hheap hwr j q hq
      rw [hpar, List.getElem?_set] at hq
      split at hq
      · split at hq
        · simp only [Option.some.injEq] at hq; subst hq; exact hwr
        · cases hq
      · by_cases ha : q.vaddr = p'.vaddr
        · rw [ha]; exact hwr
        · rw [hheap _ (hI.bound j q hq).1 ha]; exact hw j q hq
    cases op with
    | create g rows =>
      intro j q hq
      simp only [step, List.getElem?_append] at hq
      split at hq
      · have := (hI.bound j q hq).1
        have hne : q.vaddr ≠ w.vnext := by omega
        simp [step, upd, hne, hw j q hq]
      · rw [List.getElem?_singleton] at hq
        split at hq
        · simp only [Option.some.injEq] at hq; subst hq; simp [step, upd]
        · cases hq
    | copy k =>
      cases hp : w.params[k]? with
      | none => simp [step, hp] at hok
      | some p =>
        intro j q hq
        have hheap : (step w (.copy k)).1.vheap = w.vheap := by simp [step, hp, putParam]
        rw [hheap]
        rcases copy_key hp j q hq with ⟨rfl, _⟩ | ⟨h, _⟩
        · exact hw k p hp
        · exact hw j q h
    | setValue k rows =>
      cases hp : w.params[k]? with
      | none => simp [step, hp] at hok
      | some p =>
        simp only [step, hp]
        refine mutw _ k p _ hp rfl ?_ (by simp [putParam, upd])
        intro a ha hne; simp only [putParam, upd]; rw [if_neg (by omega)]
    | setItems k it =>
      cases hp : w.params[k]? with
      | none => simp [step, hp] at hok
      | some p =>
        obtain ⟨hb1, hb2⟩ := hI.bound k p hp
        have U := unshare_spec hb1 hb2
        simp only [step, hp] at hok ⊢
        generalize unshare w p = up at U hok
        obtain ⟨w₁, p₁⟩ := up
        simp only at U hok ⊢
        split
        · split
          · cases it with
            | row g f =>
              refine mutw _ k p _ hp (congrArg (fun l => List.set l k _) U.params) ?_
                (by simp [putParam, bumpGroup, writeRows, upd])
              intro a ha hne; simp only [putParam, bumpGroup, writeRows, upd, if_neg hne]; exact U.vheap a ha
            | other f =>
              refine mutw _ k p _ hp (congrArg (fun l => List.set l k _) U.params) ?_
                (by simp [putParam, writeRows, upd])
              intro a ha hne; simp only [putParam, writeRows, upd, if_neg hne]; exact U.vheap a ha
          · refine mutw _ k p _ hp (congrArg (fun l => List.set l k _) U.params) ?_
              (by simp [putParam, writeRows, upd])
            intro a ha hne; simp only [putParam, writeRows, upd, if_neg hne]; exact U.vheap a ha
        · rename_i hr; rw [if_neg hr] at hok; cases hok
    | edit k f =>
      cases hp : w.params[k]? with
      | none => simp [step, hp] at hok
      | some p =>
        obtain ⟨hb1, hb2⟩ := hI.bound k p hp
        have U := unshare_spec hb1 hb2
        simp only [step, hp]
        generalize unshare w p = up at U
        obtain ⟨w₁, p₁⟩ := up
        refine mutw _ k p _ hp (congrArg (fun l => List.set l k _) U.params) ?_
          (by simp [putParam, writeRows, upd])
        intro a ha hne; simp only [putParam, writeRows, upd] at hne ⊢; rw [if_neg hne]; exact U.vheap a ha
    | editAbort k f =>
      cases hp : w.params[k]? with
      | none => simp [step, hp] at hok
      | some p => simp [step, hp] at hok
    | editGroup k g f =>
      cases hp : w.params[k]? with
      | none => simp [step, hp] at hok
      | some p =>
        obtain ⟨hb1, hb2⟩ := hI.bound k p hp
        have U := unshare_spec hb1 hb2
        simp only [step, hp] at hok ⊢
        generalize unshare w p = up at U hok
        obtain ⟨w₁, p₁⟩ := up
        simp only at U hok ⊢
        by_cases hpg : p.grouped = true
        · rw [if_pos hpg] at hok ⊢
          split
          · refine mutw _ k p _ hp (congrArg (fun l => List.set l k _) U.params) ?_
              (by simp [putParam, bumpGroup, writeRows, upd])
            intro a ha hne; simp only [putParam, bumpGroup, writeRows, upd, if_neg hne]; exact U.vheap a ha
          · rename_i hr; rw [if_neg hr] at hok; cases hok
        · rw [if_neg hpg] at hok; cases hok
    | editGroupAbort k g f =>
      cases hp : w.params[k]? with
      | none => simp [step, hp] at hok
      | some p => simp only [step, hp] at hok; split at hok <;> cases hok

/-- Non-vacuity of C49, and the reason for its hypothesis: an edit block that raises leaves the
array writeable. -/
example :
    allReturn (World.empty Nat) [.create true [1, 2], .copy 0, .editGroup 1 0 (· + 1)] ∧
    writeable (run (World.empty Nat) [.create true [1, 2], .copy 0, .editGroup 1 0 (· + 1)]) 1
      = some false ∧
    writeable (run (World.empty Nat) [.create true [1, 2], .editGroupAbort 0 0 (· + 1)]) 0
      = some true := by
  refine ⟨⟨rfl, rfl, rfl, trivial⟩, by decide, by decide⟩

end SBayes.Heap
