import Verif.Lemmas.Config
import Verif.Lemmas.LogNames
import Mathlib.Data.List.Nodup
/- C43: defaults and updates of nested configurations. C44: the runs of the command line. -/
namespace SBayes.Config

/-! ## C43: defaults never overwrite user settings -/

section
variable {κ α : Type} [DecidableEq κ]

/-- Every path falls in one of the four cases that the next theorems speak about: there is a plain value at its end, a
dictionary, the path runs into a missing key, or it runs into a plain value. -/
theorem C43_paths (c : Dict κ α) (p : List κ) :
    (∃ a, (Val.dict c).at p = some (.atom a)) ∨ (∃ d, (Val.dict c).at p = some (.dict d)) ∨
      Open (.dict c) p ∨ Blocked (.dict c) p := path_cases _ p

/-- `set_defaults(cfg, default)`: a plain value the user gave is kept, at any depth; a dictionary stays a dictionary; a
path that the user left open leads to the default's value (or to nothing if the default has none); and below a plain
value of the user nothing appears. -/
theorem C43_set_defaults (c d : Dict κ α) (hd : d.Distinct) (p : List κ) :
    (∀ a, (Val.dict c).at p = some (.atom a) → (Val.dict (setDefaults c d)).at p = some (.atom a)) ∧
    (∀ e, (Val.dict c).at p = some (.dict e) → ∃ e', (Val.dict (setDefaults c d)).at p = some (.dict e')) ∧
    (Open (.dict c) p → (Val.dict (setDefaults c d)).at p = (Val.dict d).at p) ∧
    (Blocked (.dict c) p → (Val.dict (setDefaults c d)).at p = none) := by
  have e : Val.dict (setDefaults c d) = keepVal (.dict c) (.dict d) := by rw [keepVal]
  have hd' : (Val.dict d).Distinct := hd
  rw [e]
  obtain ⟨h1, h2, h3⟩ := keep_at p (.dict c) (.dict d) hd'
  exact ⟨h1, h2, fun ho => (fill_at p (.dict c) (.dict d) hd' ho).1 d rfl, h3⟩

/-- Setting the same defaults again changes nothing. -/
theorem C43_idempotent (c d : Dict κ α) (hd : d.Distinct) : setDefaults (setDefaults c d) d = setDefaults c d := by
  have := (keep_idem (.dict d) hd).1 (.dict c)
  rw [keepVal, keepVal, Val.dict.injEq] at this
  exact this

/-- `update_recursive(cfg, new)`: a plain value of the update is in the result; a dictionary of the update leads to a
dictionary; a path the update leaves open leads to what the configuration had there; nothing appears below a plain
value of the update. -/
theorem C43_update (c d : Dict κ α) (hd : d.Distinct) (p : List κ) :
    (∀ a, (Val.dict d).at p = some (.atom a) → (Val.dict (updateRecursive c d)).at p = some (.atom a)) ∧
    (∀ e, (Val.dict d).at p = some (.dict e) → ∃ e', (Val.dict (updateRecursive c d)).at p = some (.dict e')) ∧
    (Open (.dict d) p → (Val.dict (updateRecursive c d)).at p = (Val.dict c).at p) ∧
    (Blocked (.dict d) p → (Val.dict (updateRecursive c d)).at p = none) := by
  have e : Val.dict (updateRecursive c d) = newVal (some (.dict c)) (.dict d) := by rw [newVal]
  have hd' : (Val.dict d).Distinct := hd
  rw [e]
  obtain ⟨h1, h2, h3, h4⟩ := newVal_at p (some (.dict c)) (.dict d) hd'
  exact ⟨h1, h2, h4, h3⟩

/-- `iter_items_recursive` lists exactly the plain values, each with its key and the path of the dictionary it is in,
and no entry twice. -/
theorem C43_iter_items (c : Dict κ α) (hc : c.Distinct) :
    (∀ k a loc, (k, a, loc) ∈ iterItems [] c ↔ (Val.dict c).at (loc ++ [k]) = some (.atom a)) ∧
    (iterItems [] c).Nodup := by
  refine ⟨?_, nodup_iterItems c hc []⟩
  intro k a loc
  rw [mem_iterItems c hc]
  constructor
  · rintro ⟨y, p, h1, h2⟩
    rw [List.nil_append] at h1
    rw [← h1]; exact h2
  · intro h
    cases hl : loc ++ [k] with
    | nil => simp at hl
    | cons y p => exact ⟨y, p, rfl, by rw [← hl]; exact h⟩

end

/-- The first example in the docstring of `set_defaults`. -/
def exCfg : Dict ℕ ℕ := .cons 0 (.atom 0) (.cons 1 (.dict (.cons 1 (.atom 0) .nil)) (.cons 2 (.dict (.cons 2 (.atom 1) .nil)) .nil))
def exDef : Dict ℕ ℕ :=
  .cons 1 (.dict (.cons 1 (.atom 1) .nil)) (.cons 2 (.dict (.cons 1 (.atom 1) (.cons 2 (.atom 2) .nil))) .nil)

example : exDef.Distinct := by simp [exDef, Dict.Distinct, Val.Distinct, Dict.get]
example : (Val.dict exCfg).at [2, 2] = some (.atom 1) ∧ (Val.dict (setDefaults exCfg exDef)).at [2, 2] = some (.atom 1) ∧
    (Val.dict (setDefaults exCfg exDef)).at [2, 1] = some (.atom 1) := ⟨rfl, rfl, rfl⟩
example : Open (.dict exCfg) [2, 1] := ⟨[2], 1, [], _, rfl, rfl, rfl⟩
example : Blocked (.dict exCfg) [0, 1] := ⟨[0], 1, [], 0, rfl, rfl⟩
example : (Val.dict (updateRecursive exCfg exDef)).at [2, 2] = some (.atom 2) ∧
    (Val.dict (updateRecursive exCfg exDef)).at [0] = some (.atom 0) := ⟨rfl, rfl⟩
example : iterItems [] (setDefaults exCfg exDef) = [(0, 0, []), (1, 0, [1]), (2, 1, [2]), (1, 1, [2])] := rfl

/-! ## C44: the runs of the command line -/

/-- If no number of clusters is repeated, every pair of run index and number of clusters is executed exactly once. -/
theorem C44_each_pair_once (runs : ℕ) (clusters : List ℕ) (hnd : clusters.Nodup) :
    (runConfigurations runs clusters).Nodup ∧
    ∀ r k, (r, k) ∈ runConfigurations runs clusters ↔ r < runs ∧ k ∈ clusters := by
  unfold runConfigurations
  constructor
  · rw [List.nodup_flatMap]
    refine ⟨fun r _ => hnd.map (fun a b h => by simpa using h), ?_⟩
    apply List.Nodup.pairwise_of_forall_ne List.nodup_range
    intro a _ b _ hab x hx hy
    simp only [List.mem_map] at hx hy
    obtain ⟨k, _, rfl⟩ := hx
    obtain ⟨k', _, h⟩ := hy
    simp only [Prod.mk.injEq] at h
    exact hab h.1.symm
  · intro r k
    simp only [List.mem_flatMap, List.mem_range, List.mem_map, Prod.mk.injEq]
    constructor
    · rintro ⟨r', h1, k', h2, rfl, rfl⟩; exact ⟨h1, h2⟩
    · rintro ⟨h1, h2⟩; exact ⟨r, h1, k, h2, rfl, rfl⟩

/-- The number of executed runs. -/
theorem C44_count (runs : ℕ) (clusters : List ℕ) :
    (runConfigurations runs clusters).length = runs * clusters.length := by
  unfold runConfigurations
  rw [List.length_flatMap]
  simp

/-- Different pairs of number of clusters and run (and different kinds of output) are written to different files. -/
theorem C44_files_differ {kind kind' : Kind} {k k' run run' : ℕ}
    (h : resultFile kind k run = resultFile kind' k' run') : kind = kind' ∧ k = k' ∧ run = run' := by
  rw [resultFile_eq, resultFile_eq] at h
  simp only [List.cons.injEq, true_and] at h
  obtain ⟨h1, h2⟩ := cut (slash_num k) (slash_num k') h
  have hk := SBayes.Log.num_inj h1
  subst hk
  have hkind : kind = kind' := by
    have := congrArg List.head? h2
    revert this
    cases kind <;> cases kind' <;>
      simp only [kindPrefix, SBayes.Log.lit, implies_true] <;> intro h <;> simp at h
  subst hkind
  have h3 := List.append_cancel_left (List.append_cancel_left h2)
  simp only [List.cons.injEq, true_and] at h3
  exact ⟨rfl, rfl, SBayes.Log.num_inj (List.append_cancel_right h3)⟩

/-- So no file is written by two of the runs. -/
theorem C44_no_shared_file (runs : ℕ) (clusters : List ℕ) (hnd : clusters.Nodup) :
    (runConfigurations runs clusters).Pairwise (fun x y => ∀ kind kind' : Kind,
      resultFile kind x.2 x.1 ≠ resultFile kind' y.2 y.1) := by
  apply (C44_each_pair_once runs clusters hnd).1.pairwise_of_forall_ne
  intro x _ y _ hxy kind kind' h
  obtain ⟨_, h1, h2⟩ := C44_files_differ h
  exact hxy (Prod.ext h2 h1)

/-- The configuration of a run: its number of clusters is set, it is a single run, and everything else is as in the
configuration file. -/
theorem C44_run_config (file : Cfg) (k : ℕ) :
    (Val.dict (runConfig file k)).at [SBayes.Log.lit "model", SBayes.Log.lit "clusters"] = some (.atom (.int k)) ∧
    (Val.dict (runConfig file k)).at [SBayes.Log.lit "mcmc", SBayes.Log.lit "runs"] = some (.atom (.int 1)) ∧
    ∀ p, Open (.dict (runnerSettings k)) p → (Val.dict (runConfig file k)).at p = (Val.dict file).at p := by
  have hd := runnerSettings_distinct k
  refine ⟨?_, ?_, ?_⟩
  · exact (C43_update file (runnerSettings k) hd _).1 _ rfl
  · exact (C43_update file (runnerSettings k) hd _).1 _ rfl
  · exact fun p hp => (C43_update file (runnerSettings k) hd p).2.2.1 hp

/-- `Open` in the theorem above: every path that is not a part of `model.clusters` or of `mcmc.runs`, nor below them. -/
theorem C44_open_paths (k : ℕ) (x y : Str) (p : List Str)
    (h : ¬ (x = SBayes.Log.lit "model" ∧ y = SBayes.Log.lit "clusters"))
    (h' : ¬ (x = SBayes.Log.lit "mcmc" ∧ y = SBayes.Log.lit "runs")) :
    Open (.dict (runnerSettings k)) (x :: y :: p) := by
  have hne : SBayes.Log.lit "mcmc" ≠ SBayes.Log.lit "model" := by decide
  by_cases hx : x = SBayes.Log.lit "model"
  · subst hx
    have hy : y ≠ SBayes.Log.lit "clusters" := fun e => h ⟨rfl, e⟩
    refine ⟨[SBayes.Log.lit "model"], y, p, _, rfl, rfl, ?_⟩
    rw [Dict.get, if_neg hy, Dict.get]
  · by_cases hx' : x = SBayes.Log.lit "mcmc"
    · subst hx'
      have hy : y ≠ SBayes.Log.lit "runs" := fun e => h' ⟨rfl, e⟩
      refine ⟨[SBayes.Log.lit "mcmc"], y, p, _, rfl, rfl, ?_⟩
      rw [Dict.get, if_neg hy, Dict.get]
    · refine ⟨[], x, y :: p, _, rfl, rfl, ?_⟩
      rw [runnerSettings, Dict.get, if_neg hx, Dict.get, if_neg hx', Dict.get]

/-- With a repeated number of clusters, two of the runs write to the same files. -/
theorem C44_repeated_false : ∃ (runs : ℕ) (clusters : List ℕ),
    ¬ (runConfigurations runs clusters).Pairwise (fun x y => ∀ kind kind' : Kind,
      resultFile kind x.2 x.1 ≠ resultFile kind' y.2 y.1) := by
  refine ⟨1, [3, 3], ?_⟩
  intro h
  have : runConfigurations 1 [3, 3] = [(0, 3), (0, 3)] := rfl
  rw [this, List.pairwise_cons] at h
  exact h.1 (0, 3) List.mem_cons_self .stats .stats rfl

/-- `main(config, custom_settings=...)`: the settings decide which runs are made, but the runs themselves do not get
them. A file with 10 steps and the setting "20 steps": the run makes 10. -/
theorem C44_custom_settings_lost : ∃ (file custom : Cfg) (p : List Str) (k : ℕ), Open (.dict (runnerSettings k)) p ∧
    (Val.dict (mainConfig file (some custom))).at p = some (.atom (.int 20)) ∧
    (Val.dict (runConfig file k)).at p = some (.atom (.int 10)) := by
  refine ⟨.cons (SBayes.Log.lit "mcmc") (.dict (.cons (SBayes.Log.lit "steps") (.atom (.int 10)) .nil)) .nil,
    .cons (SBayes.Log.lit "mcmc") (.dict (.cons (SBayes.Log.lit "steps") (.atom (.int 20)) .nil)) .nil,
    [SBayes.Log.lit "mcmc", SBayes.Log.lit "steps"], 2, ?_, ?_, ?_⟩
  · exact C44_open_paths 2 _ _ _ (by decide) (by decide)
  · exact (C43_update _ _ (by simp [Dict.Distinct, Val.Distinct, Dict.get]) _).1 _ rfl
  · refine ((C44_run_config _ 2).2.2 _ (C44_open_paths 2 _ _ _ (by decide) (by decide))).trans ?_
    rfl

example : [2, 3, 5].Nodup ∧ runConfigurations 2 [2, 3] = [(0, 2), (0, 3), (1, 2), (1, 3)] := ⟨by decide, rfl⟩
example : resultFile .stats 3 12 = "K3/stats_K3_12.txt".toList := by decide

end SBayes.Config
