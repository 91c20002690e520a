import Verif.Model.SimConfig
import Verif.Props.Config
import Verif.Props.Simulation
/- C102: the configuration of a simulation. -/
namespace SBayes.SimConfig
open SBayes.Config

/-! ### Merging -/

section merge
variable {κ α : Type} [DecidableEq κ]

theorem distinct_set : ∀ (d : Dict κ α) (k : κ) (w : Val κ α), d.Distinct → w.Distinct → (d.set k w).Distinct
  | .nil, k, w, _, hw => by
    rw [Dict.set, Dict.Distinct]
    exact ⟨rfl, hw, by rw [Dict.Distinct]; trivial⟩
  | .cons k' v rest, k, w, hd, hw => by
    rw [Dict.Distinct] at hd
    rw [Dict.set]
    split
    · rw [Dict.Distinct]
      exact ⟨hd.1, hw, hd.2.2⟩
    · rename_i hne
      rw [Dict.Distinct]
      refine ⟨?_, hd.2.1, distinct_set rest k w hd.2.2 hw⟩
      rw [get_set, if_neg (fun h => hne h.symm)]
      exact hd.1

mutual
theorem distinct_keep (old v : Val κ α) (ho : old.Distinct) (hv : v.Distinct) : (keepVal old v).Distinct := by
  match v, hv with
  | .atom _, _ => rw [keepVal]; exact ho
  | .dict b, hb =>
    cases old with
    | atom a => rw [keepVal_atom_left]; exact ho
    | dict a =>
      rw [Val.Distinct] at ho hb
      rw [keepVal, Val.Distinct]
      exact distinct_setDefaults a b ho hb
theorem distinct_setDefaults (c d : Dict κ α) (hc : c.Distinct) (hd : d.Distinct) : (setDefaults c d).Distinct := by
  match d, hd with
  | .nil, _ => rw [setDefaults]; exact hc
  | .cons k v rest, hd =>
    rw [Dict.Distinct] at hd
    rw [setDefaults]
    refine distinct_setDefaults _ rest ?_ hd.2.2
    split
    · exact distinct_set c k v hc hd.2.1
    · rename_i old hold
      exact distinct_set c k _ hc (distinct_keep old v (distinct_get hc hold) hd.2.1)
end

end merge

theorem defaults_distinct : defaults.Distinct := by
  simp only [defaults, defaultStates, Dict.Distinct, Val.Distinct, Dict.get]
  decide

/-! ### Loading -/

/-- The merged configuration has a placeholder at some path. -/
theorem any_required {user : Raw} (hu : user.Distinct) :
    (iterItems [] (setDefaults user defaults)).any (fun i => decide (i.2.1 = required)) = true ↔
      ∃ p, (Val.dict (setDefaults user defaults)).at p = some (.atom required) := by
  have hd := distinct_setDefaults user defaults hu defaults_distinct
  rw [List.any_eq_true]
  constructor
  · rintro ⟨⟨k, a, loc⟩, h1, h2⟩
    rw [decide_eq_true_eq] at h2
    dsimp only at h2
    subst h2
    exact ⟨_, ((C43_iter_items _ hd).1 k required loc).mp h1⟩
  · rintro ⟨p, hp⟩
    rcases List.eq_nil_or_concat p with rfl | ⟨loc, k, rfl⟩
    · rw [at_nil] at hp; simp at hp
    · exact ⟨(k, required, loc), ((C43_iter_items _ hd).1 k required loc).mpr (by simpa using hp), by simp⟩

theorem load_none_of_required {user : Raw} (hu : user.Distinct) (base : Str) {p : List Str}
    (h : (Val.dict (setDefaults user defaults)).at p = some (.atom required)) : loadConfigSimulation base user = none := by
  unfold loadConfigSimulation
  dsimp only
  rw [if_pos ((any_required hu).mpr ⟨p, h⟩)]

theorem open_key {user : Raw} {k : Str} (h : user.get k = none) (p : List Str) : Open (.dict user) (k :: p) :=
  ⟨[], k, p, user, rfl, at_nil _, h⟩

/-- **C102.** A configuration without `canvas`, `cluster_effect` or `confounding_effects`, or with a placeholder left in it anywhere, is
rejected. -/
theorem C102_required_fields {user : Raw} (hu : user.Distinct) (base : Str) :
    (user.get (SBayes.Log.lit "canvas") = none → loadConfigSimulation base user = none) ∧
    (user.get (SBayes.Log.lit "cluster_effect") = none → loadConfigSimulation base user = none) ∧
    (user.get (SBayes.Log.lit "confounding_effects") = none → loadConfigSimulation base user = none) ∧
    ∀ p, (Val.dict user).at p = some (.atom (.str (SBayes.Log.lit "<REQUIRED>"))) → loadConfigSimulation base user = none := by
  refine ⟨fun h => ?_, fun h => ?_, fun h => ?_, fun p h => ?_⟩
  · exact load_none_of_required hu base (((C43_set_defaults user defaults defaults_distinct _).2.2.1 (open_key h [])).trans rfl)
  · exact load_none_of_required hu base (((C43_set_defaults user defaults defaults_distinct _).2.2.1 (open_key h [])).trans rfl)
  · exact load_none_of_required hu base (((C43_set_defaults user defaults defaults_distinct _).2.2.1 (open_key h [])).trans rfl)
  · exact load_none_of_required hu base ((C43_set_defaults user defaults defaults_distinct p).1 required h)

/-- The loaded configuration is the merged one, except for the path of the canvas. -/
theorem load_some {user : Raw} {base : Str} {l : Loaded} (h : loadConfigSimulation base user = some l) :
    ∃ canvas path results, (setDefaults user defaults).get (SBayes.Log.lit "canvas") = some (.atom (.str canvas)) ∧
      (setDefaults user defaults).get (SBayes.Log.lit "results") = some (.dict results) ∧
      results.get (SBayes.Log.lit "path") = some (.atom (.str path)) ∧
      l = { config := (setDefaults user defaults).set (SBayes.Log.lit "canvas") (.atom (.str (fixRelativePath base canvas))),
            pathResults := fixRelativePath base path } := by
  unfold loadConfigSimulation at h
  dsimp only at h
  split at h
  · cases h
  · split at h
    · rename_i canvas hc
      split at h
      · rename_i results hr
        split at h
        · rename_i path hp
          rw [get_set, if_neg (by decide)] at hr
          exact ⟨canvas, path, results, hc, hr, hp, (Option.some.inj h).symm⟩
        · cases h
      · cases h
    · cases h

theorem at_set {d : Raw} {k : Str} {w : Val Str Atom} {p : List Str} (h : p.head? ≠ some k) (hp : p ≠ []) :
    (Val.dict (d.set k w)).at p = (Val.dict d).at p := by
  cases p with
  | nil => exact absurd rfl hp
  | cons x p =>
    rw [at_dict_cons, at_dict_cons, get_set, if_neg (fun hx => h (by rw [hx]; rfl))]

/-- **C102.** A loaded configuration has every value that the user gave, and the default where the user left one out (the path of the canvas
is made absolute). -/
theorem C102_values_kept {user : Raw} {base : Str} {l : Loaded} (h : loadConfigSimulation base user = some l) (p : List Str) (hp : p.head? ≠ some (SBayes.Log.lit "canvas")) :
    (∀ a, (Val.dict user).at p = some (.atom a) → (Val.dict l.config).at p = some (.atom a)) ∧
    (Open (.dict user) p → (Val.dict l.config).at p = (Val.dict defaults).at p) := by
  obtain ⟨canvas, path, results, -, -, -, rfl⟩ := load_some h
  have h1 := C43_set_defaults user defaults defaults_distinct p
  constructor
  · intro a ha
    have hne : p ≠ [] := by rintro rfl; rw [at_nil] at ha; simp at ha
    rw [at_set hp hne]
    exact h1.1 a ha
  · intro ho
    have hne : p ≠ [] := by rintro rfl; exact not_open_nil _ ho
    rw [at_set hp hne]
    exact h1.2.2.1 ho

/-- **C102.** A configuration with the three required fields and no placeholder is loaded, if the path of the results is a string or left
out. -/
theorem C102_loads {user : Raw} (hu : user.Distinct) (base canvas path : Str)
    (hc : user.get (SBayes.Log.lit "canvas") = some (.atom (.str canvas))) (he : (user.get (SBayes.Log.lit "cluster_effect")).isSome)
    (hf : (user.get (SBayes.Log.lit "confounding_effects")).isSome)
    (hno : ∀ p, (Val.dict user).at p ≠ some (.atom (.str (SBayes.Log.lit "<REQUIRED>"))))
    (hr : (Val.dict user).at [SBayes.Log.lit "results", SBayes.Log.lit "path"] = some (.atom (.str path)) ∨
      Open (.dict user) [SBayes.Log.lit "results", SBayes.Log.lit "path"] ∧ path = []) :
    ∃ l, loadConfigSimulation base user = some l ∧ l.pathResults = fixRelativePath base path ∧
      (Val.dict l.config).at [SBayes.Log.lit "canvas"] = some (.atom (.str (fixRelativePath base canvas))) := by
  have hnone : ¬ (iterItems [] (setDefaults user defaults)).any (fun i => decide (i.2.1 = required)) = true := by
    rw [any_required hu]
    rintro ⟨p, hp⟩
    have h1 := C43_set_defaults user defaults defaults_distinct p
    rcases C43_paths user p with ⟨a, ha⟩ | ⟨d, hd⟩ | ho | hb
    · rw [h1.1 a ha, Option.some.injEq, Val.atom.injEq] at hp
      rw [hp] at ha
      exact hno p ha
    · obtain ⟨e', he'⟩ := h1.2.1 d hd
      rw [he'] at hp; cases hp
    · rw [h1.2.2.1 ho] at hp
      -- the defaults have a placeholder only in three fields, which the user has given
      cases p with
      | nil => exact not_open_nil _ ho
      | cons k q =>
        rw [at_dict_cons] at hp
        unfold defaults at hp
        simp only [Dict.get] at hp
        have hgot : ∀ k' : Str, k = k' → (user.get k').isSome → q = [] → False := by
          rintro k' rfl hs rfl
          rcases open_cons ho with h0 | ⟨v, h0, h0'⟩
          · rw [h0] at hs; simp at hs
          · exact not_open_nil _ h0'
        split_ifs at hp with k1 k2 k3 k4 k5 k6
        · cases q with
          | nil => exact hgot _ k1 (by rw [hc]; rfl) rfl
          | cons y q => simp [at_atom_cons] at hp
        · rcases q with _ | ⟨y, q⟩
          · simp [at_nil] at hp
          · simp only [Option.bind_some, at_dict_cons, Dict.get] at hp
            split_ifs at hp
            · rcases q with _ | ⟨y', q⟩
              · simp only [Option.bind_some, at_nil, Option.some.injEq, Val.atom.injEq] at hp
                exact absurd hp (by decide)
              · simp [at_atom_cons] at hp
            · simp at hp
        · rcases q with _ | ⟨y, q⟩
          · simp only [Option.bind_some, at_nil, Option.some.injEq, Val.atom.injEq, required] at hp
            cases hp
          · simp [at_atom_cons] at hp
        · rcases q with _ | ⟨y, q⟩
          · simp [at_nil] at hp
          · simp only [defaultStates, Option.bind_some, at_dict_cons, Dict.get] at hp
            split_ifs at hp
            all_goals
              rcases q with _ | ⟨y', q⟩
              · simp only [Option.bind_some, at_nil, Option.some.injEq, Val.atom.injEq, required] at hp
                cases hp
              · simp [at_atom_cons] at hp
        · cases q with
          | nil => exact hgot _ k5 he rfl
          | cons y q => simp [at_atom_cons] at hp
        · cases q with
          | nil => exact hgot _ k6 hf rfl
          | cons y q => simp [at_atom_cons] at hp
        · simp at hp
    · rw [h1.2.2.2 hb] at hp; cases hp
  have hcan : (setDefaults user defaults).get (SBayes.Log.lit "canvas") = some (.atom (.str canvas)) := by
    have := (C43_set_defaults user defaults defaults_distinct [SBayes.Log.lit "canvas"]).1 (.str canvas) (by rw [at_dict_cons, hc]; rfl)
    rw [at_dict_cons] at this
    cases hg : (setDefaults user defaults).get (SBayes.Log.lit "canvas") with
    | none => rw [hg] at this; cases this
    | some v => rw [hg, Option.bind_some, at_nil] at this; exact this
  have hres : (Val.dict (setDefaults user defaults)).at [SBayes.Log.lit "results", SBayes.Log.lit "path"] = some (.atom (.str path)) := by
    have h1 := C43_set_defaults user defaults defaults_distinct [SBayes.Log.lit "results", SBayes.Log.lit "path"]
    rcases hr with hr | ⟨ho, rfl⟩
    · exact h1.1 _ hr
    · rw [h1.2.2.1 ho]; rfl
  rw [at_dict_cons] at hres
  cases hg : (setDefaults user defaults).get (SBayes.Log.lit "results") with
  | none => rw [hg] at hres; cases hres
  | some v =>
    rw [hg, Option.bind_some] at hres
    cases v with
    | atom a => simp [at_atom_cons] at hres
    | dict results =>
      rw [at_dict_cons] at hres
      cases hp : results.get (SBayes.Log.lit "path") with
      | none => rw [hp] at hres; cases hres
      | some v =>
        rw [hp, Option.bind_some, at_nil, Option.some.injEq] at hres
        refine ⟨⟨(setDefaults user defaults).set (SBayes.Log.lit "canvas") (.atom (.str (fixRelativePath base canvas))),
            fixRelativePath base path⟩, ?_, rfl, ?_⟩
        · unfold loadConfigSimulation
          dsimp only
          rw [if_neg hnone, hcan]
          dsimp only
          rw [get_set, if_neg (by decide), hg]
          dsimp only
          rw [hp, hres]
        · rw [at_dict_cons, get_set, if_pos rfl]
          rfl

/-! ### The numbers of states -/

theorem load_get {user : Raw} {base : Str} {l : Loaded} (h : loadConfigSimulation base user = some l) {k : Str} (hk : k ≠ SBayes.Log.lit "canvas") :
    l.config.get k = (setDefaults user defaults).get k := by
  obtain ⟨canvas, path, results, -, -, -, rfl⟩ := load_some h
  dsimp only
  rw [get_set, if_neg hk]

theorem load_states {user : Raw} {base : Str} {l : Loaded} (h : loadConfigSimulation base user = some l) {d : Raw}
    (hd : user.get (SBayes.Log.lit "n_states") = some (.dict d)) :
    l.config.get (SBayes.Log.lit "n_states") = some (.dict (setDefaults d defaultStates)) := by
  rw [load_get h (by decide), get_setDefaults _ defaults_distinct, hd]
  show some (keepVal (.dict d) (.dict defaultStates)) = _
  rw [keepVal]

theorem defaultStates_distinct : defaultStates.Distinct := by
  simp only [defaultStates, Dict.Distinct, Val.Distinct, Dict.get]
  decide

/-- **C102.** If the user says for each of 2, 3 and 4 states which share of the features has them, the numbers of states are as the user says. -/
theorem C102_own_states_partial {user : Raw} {base : Str} {l : Loaded} (h : loadConfigSimulation base user = some l) {d : Raw}
    (hd : user.get (SBayes.Log.lit "n_states") = some (.dict d)) (h2 : (d.get (SBayes.Log.lit "2")).isSome)
    (h3 : (d.get (SBayes.Log.lit "3")).isSome) (h4 : (d.get (SBayes.Log.lit "4")).isSome) :
    l.config.get (SBayes.Log.lit "n_states") = some (.dict d) := by
  rw [load_states h hd]
  congr 2
  refine setDefaults_fixed _ defaultStates_distinct _ fun k v hk => ?_
  unfold defaultStates at hk
  simp only [Dict.get] at hk
  split_ifs at hk with k2 k3 k4
  · obtain ⟨old, ho⟩ := Option.isSome_iff_exists.mp h2
    exact ⟨old, k2 ▸ ho, by rw [← Option.some.inj hk, keepVal]⟩
  · obtain ⟨old, ho⟩ := Option.isSome_iff_exists.mp h3
    exact ⟨old, k3 ▸ ho, by rw [← Option.some.inj hk, keepVal]⟩
  · obtain ⟨old, ho⟩ := Option.isSome_iff_exists.mp h4
    exact ⟨old, k4 ▸ ho, by rw [← Option.some.inj hk, keepVal]⟩

theorem mem_shares {n : ℕ} : ∀ {d : Raw} {l : List (ℕ × ℕ)} {k : Str} {v : ℚ}, shares n d = some l → d.get k = some (.atom (.num v)) →
    ∃ s, readNat k = some s ∧ (s, ⌊(n : ℚ) * v⌋.toNat) ∈ l
  | .nil, l, k, v, _, hk => by simp [Dict.get] at hk
  | .cons k' (.dict _) rest, l, k, v, h, _ => by simp [shares] at h
  | .cons k' (.atom (.str _)) rest, l, k, v, h, _ => by simp [shares] at h
  | .cons k' (.atom (.other _)) rest, l, k, v, h, _ => by simp [shares] at h
  | .cons k' (.atom (.num v')) rest, l, k, v, h, hk => by
    rw [shares] at h
    simp only [Option.bind_eq_bind, Option.bind_eq_some_iff] at h
    obtain ⟨s, h1, l', h2, h3⟩ := h
    rw [Option.some.injEq] at h3
    subst h3
    rw [Dict.get] at hk
    split_ifs at hk with he
    · subst he
      have e : v' = v := by simpa using hk
      subst e
      exact ⟨s, h1, List.mem_cons_self⟩
    · obtain ⟨s', h4, h5⟩ := mem_shares h2 hk
      exact ⟨s', h4, List.mem_cons_of_mem _ h5⟩

/-- **C102.** The default shares stay in force for every number of states that the user does not mention: if `n_states` of the user has no key
`k`, the features with that many states are still simulated, as many as the default says. -/
theorem C102_default_shares_stay {user : Raw} {base : Str} {l : Loaded} (h : loadConfigSimulation base user = some l) {d : Raw}
    (hd : user.get (SBayes.Log.lit "n_states") = some (.dict d)) {k : Str} (hk : d.get k = none) {v : ℚ}
    (hv : defaultStates.get k = some (.atom (.num v))) {n : ℕ} (hn : l.config.get (SBayes.Log.lit "n_features") = some (.atom (.num n)))
    (draws : ℕ → ℕ) {list : List ℕ} (hl : statesPerFeature l.config draws = some list) :
    ∃ s, readNat k = some s ∧ ⌊(n : ℚ) * v⌋.toNat ≤ list.count s := by
  unfold statesPerFeature at hl
  rw [hn, load_states h hd] at hl
  dsimp only at hl
  split_ifs at hl
  simp only [Option.bind_eq_bind, Option.bind_eq_some_iff] at hl
  obtain ⟨sh, h1, h2⟩ := hl
  have hget : (setDefaults d defaultStates).get k = some (.atom (.num v)) := by
    rw [get_setDefaults _ defaultStates_distinct, hk]
    exact hv
  obtain ⟨s, h3, h4⟩ := mem_shares h1 hget
  refine ⟨s, h3, ?_⟩
  have := ((SBayes.Sim.C63_states_per_feature _ sh draws).2 list h2).2.2.2 _ h4
  simpa using this

/-- Numbers in decimal digits are read as such. -/
theorem readNat_digits (n : ℕ) : readNat (Nat.toDigits 10 n) = some n := by
  unfold readNat
  rw [if_pos ⟨Nat.toDigits_ne_nil, List.all_eq_true.mpr fun c hc => Nat.isDigit_of_mem_toDigits (by omega) (by omega) hc⟩]
  congr 1
  have h := Nat.ofDigitChars_toDigits (b := 10) (n := n) (by omega) (by omega)
  rw [Nat.ofDigitChars] at h
  exact h

/-- **C102.** The user's own shares: if the user gives the number `s` of states (in decimal digits) the share `v`, then at least `⌊n * v⌋` of
the numbers of states drawn for the `n` features are `s`, and there are numbers for all `n` features. -/
theorem C102_own_shares {user : Raw} {base : Str} {l : Loaded} (h : loadConfigSimulation base user = some l) {d : Raw}
    (hd : user.get (SBayes.Log.lit "n_states") = some (.dict d)) (s : ℕ) {v : ℚ}
    (hv : d.get (Nat.toDigits 10 s) = some (.atom (.num v))) {n : ℕ}
    (hn : l.config.get (SBayes.Log.lit "n_features") = some (.atom (.num n)))
    (draws : ℕ → ℕ) {list : List ℕ} (hl : statesPerFeature l.config draws = some list) :
    n ≤ list.length ∧ ⌊(n : ℚ) * v⌋.toNat ≤ list.count s := by
  unfold statesPerFeature at hl
  rw [hn, load_states h hd] at hl
  dsimp only at hl
  split_ifs at hl
  simp only [Option.bind_eq_bind, Option.bind_eq_some_iff] at hl
  obtain ⟨sh, h1, h2⟩ := hl
  have hget : (setDefaults d defaultStates).get (Nat.toDigits 10 s) = some (.atom (.num v)) := by
    rw [get_setDefaults _ defaultStates_distinct, hv]
    cases defaultStates.get (Nat.toDigits 10 s) with
    | none => rfl
    | some w => cases w <;> simp [keepVal]
  obtain ⟨s', h3, h4⟩ := mem_shares h1 hget
  rw [readNat_digits] at h3
  cases h3
  have := (SBayes.Sim.C63_states_per_feature _ sh draws).2 list h2
  have h5 := this.2.2.2 _ h4
  exact ⟨by simpa using this.1, by simpa using h5⟩

/-- A user who wants features with two states only. -/
def twoStates : Raw :=
  .cons (SBayes.Log.lit "canvas") (.atom (.str (SBayes.Log.lit "canvas.csv")))
    (.cons (SBayes.Log.lit "n_states") (.dict (.cons (SBayes.Log.lit "2") (.atom (.num 1)) .nil))
    (.cons (SBayes.Log.lit "cluster_effect") (.dict (.cons (SBayes.Log.lit "intensity") (.atom (.num 1)) .nil))
    (.cons (SBayes.Log.lit "confounding_effects") (.dict .nil) .nil)))

theorem twoStates_distinct : twoStates.Distinct := by
  simp only [twoStates, Dict.Distinct, Val.Distinct, Dict.get]
  decide

theorem twoStates_clean : ∀ p, (Val.dict twoStates).at p ≠ some (.atom (.str (SBayes.Log.lit "<REQUIRED>"))) := by
  intro p hp
  have := (C43_iter_items _ twoStates_distinct).1
  rcases List.eq_nil_or_concat p with rfl | ⟨loc, k, rfl⟩
  · rw [at_nil] at hp; simp at hp
  · have h1 := (this k _ loc).mpr (by simpa using hp)
    have h2 : ∀ i ∈ iterItems [] twoStates, i.2.1 ≠ required := by
      simp only [twoStates, iterItems, iterVal]
      decide
    exact h2 _ h1 rfl

/-- The requirements of the theorems above are met: this configuration is loaded, keeps the user's values and gets the defaults. -/
example : ∃ l, loadConfigSimulation (SBayes.Log.lit "/home") twoStates = some l ∧ l.pathResults = SBayes.Log.lit "/home" ∧
    (Val.dict l.config).at [SBayes.Log.lit "cluster_effect", SBayes.Log.lit "intensity"] = some (.atom (.num 1)) ∧
    (Val.dict l.config).at [SBayes.Log.lit "n_features"] = some (.atom (.num 20)) ∧
    ∀ draws, ∀ list, statesPerFeature l.config draws = some list → 6 ≤ list.count 4 := by
  obtain ⟨l, hl, hp, -⟩ := C102_loads twoStates_distinct (SBayes.Log.lit "/home") (SBayes.Log.lit "canvas.csv") [] rfl rfl rfl twoStates_clean
    (Or.inr ⟨open_key rfl _, rfl⟩)
  have hn := (C102_values_kept hl [SBayes.Log.lit "n_features"] (by decide)).2 (open_key rfl _)
  refine ⟨l, hl, hp, (C102_values_kept hl _ (by decide)).1 _ rfl, hn, fun draws list h => ?_⟩
  have hn' : l.config.get (SBayes.Log.lit "n_features") = some (.atom (.num (20 : ℕ))) := by
    rw [load_get hl (by decide), get_setDefaults _ defaults_distinct]
    rfl
  obtain ⟨s, h1, h2⟩ := C102_default_shares_stay hl (k := SBayes.Log.lit "4") rfl (v := 3 / 10) (by decide) rfl hn' draws h
  have : s = 4 := by
    have e : readNat (SBayes.Log.lit "4") = some 4 := by decide
    rw [e] at h1
    exact (Option.some.inj h1).symm
  subst this
  refine le_trans (le_of_eq ?_) h2
  norm_num
  rfl

/-- The requirements of `C102_own_shares` are met: the share 1 for two states gives at least 20 times the number 2. -/
example : ∃ l, loadConfigSimulation (SBayes.Log.lit "/home") twoStates = some l ∧
    ∀ draws, ∀ list, statesPerFeature l.config draws = some list → 20 ≤ list.count 2 := by
  obtain ⟨l, hl, -, -⟩ := C102_loads twoStates_distinct (SBayes.Log.lit "/home") (SBayes.Log.lit "canvas.csv") [] rfl rfl rfl twoStates_clean
    (Or.inr ⟨open_key rfl _, rfl⟩)
  refine ⟨l, hl, fun draws list h => ?_⟩
  have hn' : l.config.get (SBayes.Log.lit "n_features") = some (.atom (.num (20 : ℕ))) := by
    rw [load_get hl (by decide), get_setDefaults _ defaults_distinct]
    rfl
  have := (C102_own_shares hl (d := .cons (SBayes.Log.lit "2") (.atom (.num 1)) .nil) rfl 2 (v := 1) rfl hn' draws h).2
  refine le_trans (le_of_eq ?_) this
  norm_num
  rfl

/-- **C102.** It is not true that the user's `n_states` determine the numbers of states: a user who asks for two states in all features gets
a list of 32 numbers for 20 features, six of them 3 and six of them 4, and which feature gets which is a matter of the shuffle. -/
theorem C102_own_states_false : ∃ (user : Raw) (base : Str) (l : Loaded), user.Distinct ∧ loadConfigSimulation base user = some l ∧
    (Val.dict user).at [SBayes.Log.lit "n_states"] = some (.dict (.cons (SBayes.Log.lit "2") (.atom (.num 1)) .nil)) ∧
    ∀ draws, ∃ list, statesPerFeature l.config draws = some list ∧ list.length = 32 ∧ list.count 3 = 6 ∧ list.count 4 = 6 ∧
      ∃ shuffled : List ℕ, shuffled.Perm list ∧ shuffled.head? = some 4 := by
  obtain ⟨l, hl, -, -⟩ := C102_loads twoStates_distinct (SBayes.Log.lit "/home") (SBayes.Log.lit "canvas.csv") [] rfl rfl rfl twoStates_clean
    (Or.inr ⟨open_key rfl _, rfl⟩)
  refine ⟨twoStates, SBayes.Log.lit "/home", l, twoStates_distinct, hl, rfl, fun draws => ?_⟩
  have e : statesPerFeature l.config draws = some (List.replicate 20 2 ++ List.replicate 6 3 ++ List.replicate 6 4) := by
    unfold statesPerFeature
    have h1 : (setDefaults twoStates defaults).get (SBayes.Log.lit "n_features") = some (.atom (.num 20)) := by
      rw [get_setDefaults _ defaults_distinct]
      rfl
    have h2 : setDefaults (.cons (SBayes.Log.lit "2") (.atom (.num 1)) .nil) defaultStates =
        .cons (SBayes.Log.lit "2") (.atom (.num 1)) (.cons (SBayes.Log.lit "3") (.atom (.num (3 / 10)))
          (.cons (SBayes.Log.lit "4") (.atom (.num (3 / 10))) .nil)) := by
      have e3 : SBayes.Log.lit "3" ≠ SBayes.Log.lit "2" := by decide
      have e4 : SBayes.Log.lit "4" ≠ SBayes.Log.lit "2" := by decide
      have e5 : SBayes.Log.lit "4" ≠ SBayes.Log.lit "3" := by decide
      simp only [defaultStates, setDefaults, Dict.get, Dict.set, keepVal, if_pos, if_neg e3, if_neg e4, if_neg e5]
    have h3 : shares 20 (.cons (SBayes.Log.lit "2") (.atom (.num 1)) (.cons (SBayes.Log.lit "3") (.atom (.num (3 / 10)))
          (.cons (SBayes.Log.lit "4") (.atom (.num (3 / 10))) .nil))) = some [(2, 20), (3, 6), (4, 6)] := by
      have r2 : readNat (SBayes.Log.lit "2") = some 2 := by decide
      have r3 : readNat (SBayes.Log.lit "3") = some 3 := by decide
      have r4 : readNat (SBayes.Log.lit "4") = some 4 := by decide
      simp only [shares, r2, r3, r4, Option.bind_eq_bind, Option.bind_some]
      norm_num
      exact ⟨rfl, rfl⟩
    rw [load_states hl (d := .cons (SBayes.Log.lit "2") (.atom (.num 1)) .nil) rfl, load_get hl (by decide), h1, h2]
    dsimp only
    have h4 : ((20 : ℚ).isInt = true ∧ (0 : ℚ) ≤ 20) := ⟨rfl, by norm_num⟩
    rw [if_pos h4, show (20 : ℚ).num.toNat = 20 from rfl, h3]
    rfl
  refine ⟨_, e, by simp, by decide, by decide, ?_⟩
  exact ⟨List.replicate 6 4 ++ (List.replicate 20 2 ++ List.replicate 6 3), List.perm_append_comm, rfl⟩

/-! ### The files -/

/-- **C102.** With a path for the results, the files are written to the directory that is created for them. -/
theorem C102_files_partial (base path name : Str) (hp : path ≠ []) :
    writtenFile base path name = fixRelativePath base path ++ '/' :: name := by
  obtain ⟨ch, rest, rfl⟩ := List.exists_cons_of_ne_nil hp
  unfold writtenFile fixRelativePath
  simp only [List.cons_append, List.head?_cons, Option.some.injEq, reduceCtorEq, if_false]
  split_ifs with h
  · rfl
  · simp

example : writtenFile (SBayes.Log.lit "/home") (SBayes.Log.lit "out") (SBayes.Log.lit "simulated_features.csv") =
    SBayes.Log.lit "/home/out/simulated_features.csv" := by decide

/-- **C102.** Without a path for the results, the results directory is that of the configuration file, and the log is there, but the data are
written to the root directory. -/
theorem C102_default_path_false (base name : Str) (hb : base ≠ []) {user : Raw} {l : Loaded} (h : loadConfigSimulation base user = some l)
    (ho : Open (.dict user) [SBayes.Log.lit "results", SBayes.Log.lit "path"]) :
    (Val.dict l.config).at [SBayes.Log.lit "results", SBayes.Log.lit "path"] = some (.atom (.str [])) ∧ l.pathResults = base ∧
      writtenFile base [] name = '/' :: name ∧ writtenFile base [] name ≠ base ++ '/' :: name := by
  have h1 := (C102_values_kept h [SBayes.Log.lit "results", SBayes.Log.lit "path"] (by decide)).2 ho
  obtain ⟨canvas, path, results, -, hr, hp, rfl⟩ := load_some h
  refine ⟨h1, ?_, rfl, ?_⟩
  · rw [at_dict_cons, get_set, if_neg (by decide), hr, Option.bind_some, at_dict_cons, hp] at h1
    have : path = [] := by
      have h2 : (some (Val.atom (Atom.str path)) : Option (Val Str Atom)) = some (.atom (.str [])) := h1
      simpa using h2
    subst this
    rfl
  · intro he
    have := congrArg List.length he
    simp [writtenFile, fixRelativePath] at this
    exact hb this

example : Open (.dict twoStates) [SBayes.Log.lit "results", SBayes.Log.lit "path"] := open_key rfl _

end SBayes.SimConfig
