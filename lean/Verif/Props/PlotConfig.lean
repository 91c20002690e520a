import Verif.Spec.PlotConfig
import Verif.Props.Config
/-
C113: the settings for plots.
-/
namespace SBayes.PlotConfig
open SBayes.Config (Val Dict setDefaults Open Blocked get_set at_dict_cons at_nil at_atom_cons C43_set_defaults C43_paths not_open_nil)
open SBayes.Log (lit)

/-! ### Lemmas -/

mutual
/-- A test for `Distinct`. -/
def distinctVal : Val Str Atom → Bool
  | .atom _ => true
  | .dict d => distinctDict d
def distinctDict : Raw → Bool
  | .nil => true
  | .cons k v rest => (rest.get k).isNone && distinctVal v && distinctDict rest
end

mutual
theorem distinctVal_sound : ∀ v : Val Str Atom, distinctVal v = true → v.Distinct
  | .atom _, _ => trivial
  | .dict d, h => distinctDict_sound d (by rw [distinctVal] at h; exact h)
theorem distinctDict_sound : ∀ d : Raw, distinctDict d = true → d.Distinct
  | .nil, _ => trivial
  | .cons k v rest, h => by
    rw [distinctDict, Bool.and_eq_true, Bool.and_eq_true, Option.isNone_iff_eq_none] at h
    exact ⟨h.1.1, distinctVal_sound v h.1.2, distinctDict_sound rest h.2⟩
end

theorem defaults_distinct : defaults.Distinct := distinctDict_sound _ (by decide +kernel)

theorem lookup_eq : ∀ (p : List Str) (v : Val Str Atom), lookup v p = v.at p
  | [], v => by cases v <;> rfl
  | k :: p, .atom a => rfl
  | k :: p, .dict d => by
    rw [at_dict_cons, lookup]
    cases d.get k with
    | none => rfl
    | some v => exact lookup_eq p v

theorem get_convert : ∀ (d : Raw) (k : Str), (convertConfig d).get k = (d.get k).map convertVal
  | .nil, _ => by rw [convertConfig]; rfl
  | .cons k' v rest, k => by
    rw [convertConfig]
    simp only [Dict.get]
    split_ifs
    · rfl
    · exact get_convert rest k

theorem at_convert : ∀ (p : List Str) (v : Val Str Atom), (convertVal v).at p = (v.at p).map convertVal
  | [], v => by rw [at_nil, at_nil]; rfl
  | k :: p, .atom a => by rw [convertVal, at_atom_cons, at_atom_cons]; rfl
  | k :: p, .dict d => by
    rw [convertVal, at_dict_cons, at_dict_cons, get_convert]
    cases d.get k with
    | none => rfl
    | some v => exact at_convert p v

/-- What was assigned is found. -/
theorem assign_self : ∀ (p : List Str) {v w v' : Val Str Atom}, assign v p w = some v' → v'.at p = some w
  | [], v, w, v', h => by cases v <;> (rw [assign] at h; cases h; exact at_nil _)
  | k :: p, .atom a, w, v', h => by rw [assign] at h; cases h
  | [k], .dict d, w, v', h => by
    rw [assign] at h; cases h
    rw [at_dict_cons, get_set, if_pos rfl]
    exact at_nil _
  | k :: k' :: p, .dict d, w, v', h => by
    rw [assign] at h
    cases hg : d.get k with
    | none => rw [hg] at h; cases h
    | some v =>
      rw [hg] at h
      dsimp only at h
      cases ha : assign v (k' :: p) w with
      | none => rw [ha] at h; cases h
      | some v'' =>
        rw [ha] at h; cases h
        rw [at_dict_cons, get_set, if_pos rfl]
        exact assign_self (k' :: p) ha

/-- Other paths lead to what they led to before. -/
theorem assign_other : ∀ (p : List Str) {v w v' : Val Str Atom} {q : List Str}, assign v p w = some v' → ¬ p <+: q → ¬ q <+: p →
    v'.at q = v.at q
  | [], _, _, _, q, _, h1, _ => absurd (List.nil_prefix) h1
  | _, _, _, _, [], _, _, h2 => absurd (List.nil_prefix) h2
  | k :: p, .atom a, w, v', _ :: _, h, _, _ => by rw [assign] at h; cases h
  | [k], .dict d, w, v', x :: q, h, h1, h2 => by
    rw [assign] at h; cases h
    have : x ≠ k := by
      rintro rfl
      exact h1 (by simp)
    rw [at_dict_cons, at_dict_cons, get_set, if_neg this]
  | k :: k' :: p, .dict d, w, v', x :: q, h, h1, h2 => by
    rw [assign] at h
    cases hg : d.get k with
    | none => rw [hg] at h; cases h
    | some v =>
      rw [hg] at h
      dsimp only at h
      cases ha : assign v (k' :: p) w with
      | none => rw [ha] at h; cases h
      | some v'' =>
        rw [ha] at h; cases h
        rw [at_dict_cons, at_dict_cons, get_set]
        split_ifs with hx
        · subst hx
          rw [hg, Option.bind_some, Option.bind_some]
          refine assign_other (k' :: p) ha (fun hp => h1 ?_) (fun hp => h2 ?_)
          · exact (List.cons_prefix_cons).mpr ⟨rfl, hp⟩
          · exact (List.cons_prefix_cons).mpr ⟨rfl, hp⟩
        · rfl

/-- On the way there are dictionaries. -/
theorem assign_parent : ∀ (p : List Str) {v w v' : Val Str Atom} {q : List Str}, assign v p w = some v' → q <+: p → q ≠ p →
    ∃ d, v.at q = some (.dict d)
  | [], _, _, _, q, _, h1, h2 => absurd (List.prefix_nil.mp h1) h2
  | k :: p, .atom a, w, v', _, h, _, _ => by rw [assign] at h; cases h
  | k :: p, .dict d, _, _, [], _, _, _ => ⟨d, at_nil _⟩
  | [k], .dict d, w, v', x :: q, h, h1, h2 => by
    obtain ⟨rfl, h3⟩ := (List.cons_prefix_cons).mp h1
    rw [List.prefix_nil.mp h3] at h2
    exact absurd rfl h2
  | k :: k' :: p, .dict d, w, v', x :: q, h, h1, h2 => by
    obtain ⟨rfl, h3⟩ := (List.cons_prefix_cons).mp h1
    rw [assign] at h
    cases hg : d.get x with
    | none => rw [hg] at h; cases h
    | some v =>
      rw [hg] at h
      dsimp only at h
      cases ha : assign v (k' :: p) w with
      | none => rw [ha] at h; cases h
      | some v'' =>
        rw [at_dict_cons, hg, Option.bind_some]
        exact assign_parent (k' :: p) ha h3 (fun e => h2 (by rw [e]))

/-- Where there is a value, it can be replaced. -/
theorem assign_some : ∀ (p : List Str) {v u : Val Str Atom} (w : Val Str Atom), v.at p = some u → ∃ v', assign v p w = some v'
  | [], v, _, w, _ => ⟨w, by cases v <;> rw [assign]⟩
  | k :: p, .atom a, _, _, h => by rw [at_atom_cons] at h; cases h
  | [k], .dict d, _, w, _ => ⟨_, by rw [assign]⟩
  | k :: k' :: p, .dict d, _, w, h => by
    rw [at_dict_cons] at h
    cases hg : d.get k with
    | none => rw [hg] at h; cases h
    | some v =>
      rw [hg, Option.bind_some] at h
      obtain ⟨v', hv⟩ := assign_some (k' :: p) w h
      exact ⟨.dict (d.set k v'), by rw [assign, hg]; dsimp only; rw [hv]⟩

theorem assign_atom {p : List Str} {v w v' : Val Str Atom} {q : List Str} (h : assign v p w = some v') (h1 : ¬ p <+: q) {a : Atom}
    (ha : v.at q = some (.atom a)) : v'.at q = some (.atom a) := by
  by_cases h2 : q <+: p
  · obtain ⟨d, hd⟩ := assign_parent p h h2 (fun e => h1 (by rw [e]))
    rw [ha] at hd; cases hd
  · rw [assign_other p h h1 h2, ha]

theorem setProjection_inv {c c' : Val Str Atom} (h : setProjection c = some c') :
    ∃ p, c.at pProj = some p ∧ (falsy p = false ∧ c' = c ∨ falsy p = true ∧ ∃ q, c.at pData = some q ∧ assign c pProj q = some c') := by
  unfold setProjection at h
  simp only [lookup_eq, Option.bind_eq_bind, Option.bind_eq_some_iff] at h
  obtain ⟨p, h1, h2⟩ := h
  refine ⟨p, h1, ?_⟩
  cases hp : falsy p with
  | true =>
    rw [hp, if_pos rfl, Option.bind_eq_some_iff] at h2
    exact Or.inr ⟨rfl, h2⟩
  | false =>
    rw [hp, if_neg Bool.false_ne_true] at h2
    exact Or.inl ⟨rfl, (Option.some.inj h2).symm⟩

theorem setLabels_inv {c c' : Val Str Atom} (h : setLabels c = some c') :
    ∃ t, c.at pType = some t ∧ (isDensityMap t = false ∧ c' = c ∨ isDensityMap t = true ∧ assign c pLab (.atom (.bool false)) = some c') := by
  unfold setLabels at h
  simp only [lookup_eq, Option.bind_eq_bind, Option.bind_eq_some_iff] at h
  obtain ⟨p, h1, h2⟩ := h
  refine ⟨p, h1, ?_⟩
  cases hp : isDensityMap p with
  | true =>
    rw [hp, if_pos rfl] at h2
    exact Or.inr ⟨rfl, h2⟩
  | false =>
    rw [hp, if_neg Bool.false_ne_true] at h2
    exact Or.inl ⟨rfl, (Option.some.inj h2).symm⟩

theorem load_inv {base : Str} {user : Raw} {l : Loaded} (h : loadConfig base user = some l) :
    ∃ c, setProjection (.dict (convertConfig (setDefaults user defaults))) = some c ∧ setLabels c = some l.config ∧
      (∃ v, l.config.at pOut = some v ∧ fixPath base v = some l.pathPlots) ∧
      (∃ v, l.config.at pFeatures = some v ∧ fixPath base v = some l.pathFeatures) ∧
      (∃ v, l.config.at pStates = some v ∧ fixPath base v = some l.pathFeatureStates) ∧
      (∃ v, l.config.at pClusters = some v ∧ fixPaths base v = some l.clusterPaths) ∧
      (∃ v, l.config.at pStats = some v ∧ fixPaths base v = some l.statsPaths) := by
  unfold loadConfig at h
  simp only [lookup_eq, Option.bind_eq_bind, Option.bind_eq_some_iff, Option.some.injEq] at h
  obtain ⟨c, h1, c2, h2, v1, h3, p1, h4, v2, h5, p2, h6, v3, h7, p3, h8, v4, h9, p4, h10, v5, h11, p5, h12, rfl⟩ := h
  exact ⟨c, h1, h2, ⟨v1, h3, h4⟩, ⟨v2, h5, h6⟩, ⟨v3, h7, h8⟩, ⟨v4, h9, h10⟩, ⟨v5, h11, h12⟩⟩

theorem same_convert (a : Atom) : Same a a.convert := by
  cases a
  case list l => exact Or.inr ⟨l, rfl, rfl⟩
  all_goals exact Or.inl ⟨fun l h => Atom.noConfusion h, rfl⟩

/-- The settings before the projection and the labels are looked at. -/
theorem merged_user {user : Raw} {q : List Str} {a : Atom} (h : (Val.dict user).at q = some (.atom a)) :
    (Val.dict (convertConfig (setDefaults user defaults))).at q = some (.atom a.convert) := by
  have e : Val.dict (convertConfig (setDefaults user defaults)) = convertVal (.dict (setDefaults user defaults)) := by rw [convertVal]
  rw [e, at_convert, (C43_set_defaults user defaults defaults_distinct q).1 a h, Option.map_some, convertVal]

theorem merged_default {user : Raw} {q : List Str} {a : Atom} (h : Open (.dict user) q) (ha : (Val.dict defaults).at q = some (.atom a)) :
    (Val.dict (convertConfig (setDefaults user defaults))).at q = some (.atom a.convert) := by
  have e : Val.dict (convertConfig (setDefaults user defaults)) = convertVal (.dict (setDefaults user defaults)) := by rw [convertVal]
  rw [e, at_convert, (C43_set_defaults user defaults defaults_distinct q).2.2.1 h, ha, Option.map_some, convertVal]

theorem merged_some {user : Raw} {q : List Str} (h : ¬ Blocked (.dict user) q) (hd : ((Val.dict defaults).at q).isSome) :
    ∃ v, (Val.dict (convertConfig (setDefaults user defaults))).at q = some v := by
  have e : Val.dict (convertConfig (setDefaults user defaults)) = convertVal (.dict (setDefaults user defaults)) := by rw [convertVal]
  have h1 := C43_set_defaults user defaults defaults_distinct q
  rw [e, at_convert]
  rcases C43_paths user q with ⟨a, ha⟩ | ⟨d, hd⟩ | ho | hb
  · exact ⟨_, by rw [h1.1 a ha]; rfl⟩
  · obtain ⟨e', he⟩ := h1.2.1 d hd
    exact ⟨_, by rw [he]; rfl⟩
  · rw [h1.2.2.1 ho]
    obtain ⟨v, hv⟩ := Option.isSome_iff_exists.mp hd
    exact ⟨_, by rw [hv]; rfl⟩
  · exact absurd hb h

/-- A plain value elsewhere is not changed by the steps on the projection and the labels. -/
theorem load_atom {base : Str} {user : Raw} {l : Loaded} (h : loadConfig base user = some l) {q : List Str} (h1 : ¬ pProj <+: q)
    (h2 : ¬ pLab <+: q) {a : Atom} (ha : (Val.dict (convertConfig (setDefaults user defaults))).at q = some (.atom a)) :
    l.config.at q = some (.atom a) := by
  obtain ⟨c, hc, hl, -⟩ := load_inv h
  obtain ⟨p, -, hp⟩ := setProjection_inv hc
  have hca : c.at q = some (.atom a) := by
    rcases hp with ⟨-, rfl⟩ | ⟨-, w, -, hw⟩
    · exact ha
    · exact assign_atom hw h1 ha
  obtain ⟨t, -, ht⟩ := setLabels_inv hl
  rcases ht with ⟨-, e⟩ | ⟨-, hw⟩
  · rw [e]; exact hca
  · exact assign_atom hw h2 hca

/-! ### The theorems -/

/-- **C113.** Every value the user gives is in the loaded settings, and every setting the user leaves out has its default (lists are read as
tuples); the projection of the map and the coloured labels are dealt with below. -/
theorem C113_values_kept {base : Str} {user : Raw} {l : Loaded} (h : loadConfig base user = some l) (q : List Str) (h1 : ¬ pProj <+: q)
    (h2 : ¬ pLab <+: q) :
    (∀ a, (Val.dict user).at q = some (.atom a) → ∃ b, l.config.at q = some (.atom b) ∧ Same a b) ∧
    (Open (.dict user) q → ∀ a, (Val.dict defaults).at q = some (.atom a) → ∃ b, l.config.at q = some (.atom b) ∧ Same a b) :=
  ⟨fun a ha => ⟨_, load_atom h h1 h2 (merged_user ha), same_convert a⟩,
    fun ho a ha => ⟨_, load_atom h h1 h2 (merged_default ho ha), same_convert a⟩⟩

theorem load_proj {base : Str} {user : Raw} {l : Loaded} (h : loadConfig base user = some l) {a : Atom}
    (ha : (Val.dict (convertConfig (setDefaults user defaults))).at pProj = some (.atom a)) :
    (falsy (.atom a) = false → l.config.at pProj = some (.atom a)) ∧
    (falsy (.atom a) = true → l.config.at pProj = (Val.dict (convertConfig (setDefaults user defaults))).at pData) := by
  obtain ⟨c, hc, hl, -⟩ := load_inv h
  obtain ⟨p, hp1, hp⟩ := setProjection_inv hc
  rw [ha] at hp1
  cases hp1
  have hfin : l.config.at pProj = c.at pProj := by
    obtain ⟨t, -, ht⟩ := setLabels_inv hl
    rcases ht with ⟨-, e⟩ | ⟨-, hw⟩
    · rw [e]
    · exact assign_other pLab hw (by decide) (by decide)
  constructor
  · intro hf
    rcases hp with ⟨-, rfl⟩ | ⟨h1, -⟩
    · rw [hfin, ha]
    · rw [hf] at h1; cases h1
  · intro hf
    rcases hp with ⟨h1, -⟩ | ⟨-, q, hq, hw⟩
    · rw [hf] at h1; cases h1
    · rw [hfin, hq, assign_self pProj hw]

/-- **C113 (partial).** The map is drawn in the projection that the user sets for it; if that is the empty text or `null`, in the projection of the
data, which may be set or not. Missing: the same if the user sets no projection for the map, which fails (`C113_projection_false`). -/
theorem C113_projection_partial {base : Str} {user : Raw} {l : Loaded} (h : loadConfig base user = some l) :
    (∀ s, s ≠ [] → (Val.dict user).at pProj = some (.atom (.str s)) → l.config.at pProj = some (.atom (.str s))) ∧
    ((Val.dict user).at pProj = some (.atom (.str [])) ∨ (Val.dict user).at pProj = some (.atom .null) →
      (∀ s, (Val.dict user).at pData = some (.atom (.str s)) → l.config.at pProj = some (.atom (.str s))) ∧
      (Open (.dict user) pData → l.config.at pProj = some (.atom (.str (lit "EPSG:4326"))))) := by
  constructor
  · intro s hs hu
    refine (load_proj h (merged_user hu)).1 ?_
    cases s with
    | nil => exact absurd rfl hs
    | cons c s => rfl
  · intro hu
    have key : l.config.at pProj = (Val.dict (convertConfig (setDefaults user defaults))).at pData := by
      rcases hu with hu | hu
      · exact (load_proj h (merged_user hu)).2 rfl
      · exact (load_proj h (merged_user hu)).2 rfl
    exact ⟨fun s hs => by rw [key, merged_user hs]; rfl,
      fun ho => by rw [key, merged_default ho (a := .str (lit "EPSG:4326")) rfl]; rfl⟩

/-- **C113.** A map for which the user sets no projection is drawn in longitude and latitude, whatever the projection of the data. -/
theorem C113_projection_unset {base : Str} {user : Raw} {l : Loaded} (h : loadConfig base user = some l) (ho : Open (.dict user) pProj) :
    l.config.at pProj = some (.atom (.str (lit "epsg:4326"))) :=
  (load_proj h (merged_default ho (a := .str (lit "epsg:4326")) rfl)).1 rfl

/-- **C113.** Labels are not coloured on a density map; on other maps, the setting of the user for coloured labels stands. -/
theorem C113_labels {base : Str} {user : Raw} {l : Loaded} (h : loadConfig base user = some l) {s : Str}
    (hs : (Val.dict user).at pType = some (.atom (.str s))) :
    (s = lit "density_map" → l.config.at pLab = some (.atom (.bool false))) ∧
    (s ≠ lit "density_map" → (∀ b, (Val.dict user).at pLab = some (.atom (.bool b)) → l.config.at pLab = some (.atom (.bool b))) ∧
      (Open (.dict user) pLab → l.config.at pLab = some (.atom (.bool false)))) := by
  obtain ⟨c, hc, hl, -⟩ := load_inv h
  obtain ⟨p, -, hp⟩ := setProjection_inv hc
  have hca : ∀ q a, ¬ pProj <+: q → (Val.dict (convertConfig (setDefaults user defaults))).at q = some (.atom a) → c.at q = some (.atom a) := by
    intro q a h1 ha
    rcases hp with ⟨-, rfl⟩ | ⟨-, w, -, hw⟩
    · exact ha
    · exact assign_atom hw h1 ha
  obtain ⟨t, ht0, ht⟩ := setLabels_inv hl
  rw [hca pType _ (by decide) (merged_user hs)] at ht0
  cases ht0
  constructor
  · rintro rfl
    rcases ht with ⟨h1, -⟩ | ⟨-, hw⟩
    · exact absurd h1 (by decide)
    · exact assign_self pLab hw
  · intro hne
    rcases ht with ⟨-, e⟩ | ⟨h1, -⟩
    · rw [e]
      exact ⟨fun b hb => hca pLab _ (by decide) (merged_user hb), fun ho => hca pLab _ (by decide) (merged_default ho (a := .bool false) rfl)⟩
    · exact absurd (by simpa [isDensityMap, Atom.convert] using h1) hne

theorem mapM_fixPath (base : Str) : ∀ (L : List Str), (L.map fun s => Val.atom (Atom.str s)).mapM (fixPath base) = some (L.map (resolved base))
  | [] => rfl
  | s :: L => by
    rw [List.map_cons, List.mapM_cons, mapM_fixPath base L]
    rfl

/-- **C113.** The input files: from a list of paths, one file for each entry, in the order of the list, relative to the directory of the
configuration file. The same for the files of features and of states and for the directory of the plots. -/
theorem C113_paths {base : Str} {user : Raw} {l : Loaded} (h : loadConfig base user = some l) :
    (∀ L : List Str, (Val.dict user).at pClusters = some (.atom (.list (L.map .str))) → l.clusterPaths = L.map (resolved base)) ∧
    (∀ L : List Str, (Val.dict user).at pStats = some (.atom (.list (L.map .str))) → l.statsPaths = L.map (resolved base)) ∧
    (∀ s, (Val.dict user).at pFeatures = some (.atom (.str s)) → l.pathFeatures = resolved base s) ∧
    (∀ s, (Val.dict user).at pStates = some (.atom (.str s)) → l.pathFeatureStates = resolved base s) ∧
    (∀ s, (Val.dict user).at pOut = some (.atom (.str s)) → l.pathPlots = resolved base s) ∧
    (Open (.dict user) pOut → l.pathPlots = base ++ lit "/./plots") := by
  obtain ⟨c, -, -, ⟨v1, a1, b1⟩, ⟨v2, a2, b2⟩, ⟨v3, a3, b3⟩, ⟨v4, a4, b4⟩, ⟨v5, a5, b5⟩⟩ := load_inv h
  refine ⟨fun L hL => ?_, fun L hL => ?_, fun s hs => ?_, fun s hs => ?_, fun s hs => ?_, fun ho => ?_⟩
  · rw [load_atom h (by decide) (by decide) (merged_user hL)] at a4
    cases a4
    have : fixPaths base (.atom (Atom.convert (.list (L.map .str)))) = some (L.map (resolved base)) := by
      rw [← mapM_fixPath base L]
      unfold fixPaths
      simp only [Atom.convert, items, Option.bind_some, List.map_map]
      rfl
    rw [this] at b4
    exact (Option.some.inj b4).symm
  · rw [load_atom h (by decide) (by decide) (merged_user hL)] at a5
    cases a5
    have : fixPaths base (.atom (Atom.convert (.list (L.map .str)))) = some (L.map (resolved base)) := by
      rw [← mapM_fixPath base L]
      unfold fixPaths
      simp only [Atom.convert, items, Option.bind_some, List.map_map]
      rfl
    rw [this] at b5
    exact (Option.some.inj b5).symm
  · rw [load_atom h (by decide) (by decide) (merged_user hs)] at a2
    cases a2
    exact (Option.some.inj b2).symm
  · rw [load_atom h (by decide) (by decide) (merged_user hs)] at a3
    cases a3
    exact (Option.some.inj b3).symm
  · rw [load_atom h (by decide) (by decide) (merged_user hs)] at a1
    cases a1
    exact (Option.some.inj b1).symm
  · rw [load_atom h (by decide) (by decide) (merged_default ho (a := .str (lit "./plots")) rfl)] at a1
    cases a1
    exact (Option.some.inj b1).symm

theorem setProjection_some {c v w : Val Str Atom} (h1 : c.at pProj = some v) (h2 : c.at pData = some w) : ∃ c', setProjection c = some c' := by
  unfold setProjection
  have e1 : lookup c [lit "map", lit "geo", lit "map_projection"] = some v := by rw [lookup_eq]; exact h1
  have e2 : lookup c [lit "data", lit "projection"] = some w := by rw [lookup_eq]; exact h2
  rw [e1, Option.bind_eq_bind, Option.bind_some]
  split_ifs
  · rw [e2]
    exact assign_some pProj w h1
  · exact ⟨_, rfl⟩

theorem setLabels_some {c v w : Val Str Atom} (h1 : c.at pType = some v) (h2 : c.at pLab = some w) : ∃ c', setLabels c = some c' := by
  unfold setLabels
  have e1 : lookup c [lit "map", lit "content", lit "type"] = some v := by rw [lookup_eq]; exact h1
  rw [e1, Option.bind_eq_bind, Option.bind_some]
  split_ifs
  · exact assign_some pLab _ h2
  · exact ⟨_, rfl⟩

theorem load_intro {base : Str} {user : Raw} {c c2 : Val Str Atom} (h1 : setProjection (.dict (convertConfig (setDefaults user defaults))) = some c)
    (h2 : setLabels c = some c2) {v1 v2 v3 v4 v5 : Val Str Atom} {p1 p2 p3 : Str} {p4 p5 : List Str}
    (a1 : c2.at pOut = some v1) (b1 : fixPath base v1 = some p1) (a2 : c2.at pFeatures = some v2) (b2 : fixPath base v2 = some p2)
    (a3 : c2.at pStates = some v3) (b3 : fixPath base v3 = some p3) (a4 : c2.at pClusters = some v4) (b4 : fixPaths base v4 = some p4)
    (a5 : c2.at pStats = some v5) (b5 : fixPaths base v5 = some p5) : loadConfig base user = some ⟨c2, p1, p2, p3, p4, p5⟩ := by
  unfold loadConfig
  simp only [lookup_eq, Option.bind_eq_bind, Option.bind_eq_some_iff, Option.some.injEq]
  exact ⟨c, h1, c2, h2, v1, a1, p1, b1, v2, a2, p2, b2, v3, a3, p3, b3, v4, a4, p4, b4, v5, a5, p5, b5, rfl⟩

/-- Loading succeeds if the settings used have values of the right kind. -/
theorem load_exists {user : Raw} (base : Str) (hb : ∀ q ∈ [pProj, pData, pType, pLab], ¬ Blocked (.dict user) q)
    {s1 s2 s3 : Str} {A B : Atom} {L M : List Str}
    (h1 : (Val.dict (convertConfig (setDefaults user defaults))).at pOut = some (.atom (.str s1)))
    (h2 : (Val.dict (convertConfig (setDefaults user defaults))).at pFeatures = some (.atom (.str s2)))
    (h3 : (Val.dict (convertConfig (setDefaults user defaults))).at pStates = some (.atom (.str s3)))
    (h4 : (Val.dict (convertConfig (setDefaults user defaults))).at pClusters = some (.atom A)) (h4' : fixPaths base (.atom A) = some L)
    (h5 : (Val.dict (convertConfig (setDefaults user defaults))).at pStats = some (.atom B)) (h5' : fixPaths base (.atom B) = some M) :
    ∃ l, loadConfig base user = some l ∧ l.clusterPaths = L ∧ l.statsPaths = M := by
  obtain ⟨v, hv⟩ := merged_some (hb pProj (by simp)) (by decide)
  obtain ⟨w, hw⟩ := merged_some (hb pData (by simp)) (by decide)
  obtain ⟨t, ht⟩ := merged_some (hb pType (by simp)) (by decide)
  obtain ⟨u, hu⟩ := merged_some (hb pLab (by simp)) (by decide)
  obtain ⟨c, hc⟩ := setProjection_some hv hw
  obtain ⟨p, -, hp⟩ := setProjection_inv hc
  have keep : ∀ q, ¬ pProj <+: q → ¬ q <+: pProj → c.at q = (Val.dict (convertConfig (setDefaults user defaults))).at q := by
    intro q n1 n2
    rcases hp with ⟨-, rfl⟩ | ⟨-, x, -, hx⟩
    · rfl
    · exact assign_other pProj hx n1 n2
  obtain ⟨c2, hc2⟩ := setLabels_some ((keep pType (by decide) (by decide)).trans ht) ((keep pLab (by decide) (by decide)).trans hu)
  obtain ⟨t', -, ht'⟩ := setLabels_inv hc2
  have keep2 : ∀ q, ¬ pLab <+: q → ¬ q <+: pLab → c2.at q = c.at q := by
    intro q n1 n2
    rcases ht' with ⟨-, rfl⟩ | ⟨-, hx⟩
    · rfl
    · exact assign_other pLab hx n1 n2
  have keep3 : ∀ q, ¬ pProj <+: q → ¬ q <+: pProj → ¬ pLab <+: q → ¬ q <+: pLab →
      c2.at q = (Val.dict (convertConfig (setDefaults user defaults))).at q :=
    fun q n1 n2 n3 n4 => (keep2 q n3 n4).trans (keep q n1 n2)
  exact ⟨_, load_intro hc hc2 ((keep3 pOut (by decide) (by decide) (by decide) (by decide)).trans h1) rfl
    ((keep3 pFeatures (by decide) (by decide) (by decide) (by decide)).trans h2) rfl
    ((keep3 pStates (by decide) (by decide) (by decide) (by decide)).trans h3) rfl
    ((keep3 pClusters (by decide) (by decide) (by decide) (by decide)).trans h4) h4'
    ((keep3 pStats (by decide) (by decide) (by decide) (by decide)).trans h5) h5', rfl, rfl⟩

theorem fixPaths_list (base : Str) (L : List Str) :
    fixPaths base (.atom (Atom.convert (.list (L.map .str)))) = some (L.map (resolved base)) := by
  rw [← mapM_fixPath base L]
  unfold fixPaths
  simp only [Atom.convert, items, Option.bind_some, List.map_map]
  rfl

theorem fixPaths_text (base s : Str) : fixPaths base (.atom (.str s)) = some (s.map fun c => resolved base [c]) := by
  have := mapM_fixPath base (s.map fun c => [c])
  rw [List.map_map, List.map_map] at this
  exact this

/-- **C113.** Settings with lists of cluster files and statistics files, the file of the features and that of the states are loaded, if no plain
value stands where a section of settings should be, and the directory of the plots is a text or left out. -/
theorem C113_loads {user : Raw} (base : Str) (hb : ∀ q ∈ [pProj, pData, pType, pLab], ¬ Blocked (.dict user) q) {s2 s3 : Str} {L M : List Str}
    (ho : Open (.dict user) pOut ∨ ∃ s, (Val.dict user).at pOut = some (.atom (.str s)))
    (h2 : (Val.dict user).at pFeatures = some (.atom (.str s2))) (h3 : (Val.dict user).at pStates = some (.atom (.str s3)))
    (h4 : (Val.dict user).at pClusters = some (.atom (.list (L.map .str))))
    (h5 : (Val.dict user).at pStats = some (.atom (.list (M.map .str)))) : ∃ l, loadConfig base user = some l := by
  have h1 : ∃ s1, (Val.dict (convertConfig (setDefaults user defaults))).at pOut = some (.atom (.str s1)) := by
    rcases ho with ho | ⟨s, hs⟩
    · exact ⟨_, merged_default ho (a := .str (lit "./plots")) rfl⟩
    · exact ⟨s, merged_user hs⟩
  obtain ⟨s1, h1⟩ := h1
  obtain ⟨l, hl, -⟩ := load_exists base hb h1 (merged_user h2) (merged_user h3) (merged_user h4) (fixPaths_list base L) (merged_user h5)
    (fixPaths_list base M)
  exact ⟨l, hl⟩

/-- **C113.** A single path, not in a list, is taken for a list of its characters: as many files as it has characters, each with a name of one
character (or, for a `/`, the root directory). -/
theorem C113_single_path {base : Str} {user : Raw} {l : Loaded} (h : loadConfig base user = some l) {s : Str}
    (hs : (Val.dict user).at pClusters = some (.atom (.str s))) : l.clusterPaths = s.map fun c => resolved base [c] := by
  obtain ⟨c, -, -, -, -, -, ⟨v4, a4, b4⟩, -⟩ := load_inv h
  rw [load_atom h (by decide) (by decide) (merged_user hs)] at a4
  cases a4
  have : fixPaths base (.atom (Atom.convert (.str s))) = _ := fixPaths_text base s
  rw [this] at b4
  exact (Option.some.inj b4).symm

/-! ### Examples, and what does not hold -/

theorem not_blocked {user : Raw} {q : List Str} (h : Open (.dict user) q) (hd : ((Val.dict defaults).at q).isSome) : ¬ Blocked (.dict user) q := by
  intro hb
  have h1 := C43_set_defaults user defaults defaults_distinct q
  rw [← h1.2.2.1 h, h1.2.2.2 hb] at hd
  cases hd

theorem open_key {user : Raw} {k : Str} (h : user.get k = none) (p : List Str) : Open (.dict user) (k :: p) :=
  ⟨[], k, p, user, rfl, at_nil _, h⟩

/-- Settings with the files of one model, data in a projection `proj` of their own. -/
def settings (clusters : Atom) (proj : Str) : Raw :=
  toDict [(lit "results", sub [(lit "path_in", sub [(lit "clusters", one clusters), (lit "stats", one (.list [.str (lit "stats_K1_0.txt")]))])]),
    (lit "data", sub [(lit "features", one (.str (lit "features.csv"))), (lit "feature_states", one (.str (lit "/data/states.csv"))),
      (lit "projection", one (.str proj))])]

theorem settings_load (base : Str) {clusters : Atom} {L : List Str} (proj : Str) (hL : fixPaths base (.atom clusters.convert) = some L) :
    ∃ l, loadConfig base (settings clusters proj) = some l ∧ l.clusterPaths = L := by
  have ho : Open (.dict (settings clusters proj)) pOut := ⟨[lit "results"], lit "path_out", [], _, rfl, rfl, rfl⟩
  have hm : ∀ p, Open (.dict (settings clusters proj)) (lit "map" :: p) := fun p => open_key rfl p
  have hd : ¬ Blocked (.dict (settings clusters proj)) pData := by
    intro hb
    have h1 := C43_set_defaults (settings clusters proj) defaults defaults_distinct pData
    have h2 := h1.1 (.str proj) rfl
    rw [h1.2.2.2 hb] at h2
    cases h2
  obtain ⟨l, hl, h1, -⟩ := load_exists base (user := settings clusters proj) (L := L) (M := [resolved base (lit "stats_K1_0.txt")])
    (by
      intro q hq
      simp only [List.mem_cons, List.not_mem_nil, or_false] at hq
      rcases hq with rfl | rfl | rfl | rfl
      · exact not_blocked (hm _) (by decide)
      · exact hd
      · exact not_blocked (hm _) (by decide)
      · exact not_blocked (hm _) (by decide))
    (merged_default ho (a := .str (lit "./plots")) rfl) (merged_user (a := .str (lit "features.csv")) rfl)
    (merged_user (a := .str (lit "/data/states.csv")) rfl) (merged_user (a := clusters) rfl) hL
    (merged_user (a := .list [.str (lit "stats_K1_0.txt")]) rfl) (fixPaths_list base [lit "stats_K1_0.txt"])
  exact ⟨l, hl, h1⟩

/-- The requirements of the theorems above are met: these settings are loaded; the value of a default and of the user, and the files. -/
example : ∃ l, loadConfig (lit "/home") (settings (.list [.str (lit "clusters_K1_0.txt"), .str (lit "/r/clusters_K2_0.txt")]) (lit "EPSG:3857")) = some l ∧
    l.clusterPaths = [lit "/home/clusters_K1_0.txt", lit "/r/clusters_K2_0.txt"] ∧ l.statsPaths = [lit "/home/stats_K1_0.txt"] ∧
    l.pathFeatures = lit "/home/features.csv" ∧ l.pathFeatureStates = lit "/data/states.csv" ∧ l.pathPlots = lit "/home/./plots" ∧
    l.config.at [lit "map", lit "content", lit "burn_in"] = some (.atom (.num (1 / 5))) ∧
    l.config.at pData = some (.atom (.str (lit "EPSG:3857"))) := by
  obtain ⟨l, hl, -⟩ := settings_load (lit "/home") (clusters := .list [.str (lit "clusters_K1_0.txt"), .str (lit "/r/clusters_K2_0.txt")])
    (lit "EPSG:3857") (fixPaths_list _ [lit "clusters_K1_0.txt", lit "/r/clusters_K2_0.txt"])
  obtain ⟨h1, h2, h3, h4, -, h6⟩ := C113_paths hl
  obtain ⟨b, hb, hs⟩ := (C113_values_kept hl [lit "map", lit "content", lit "burn_in"] (by decide) (by decide)).2 (open_key rfl _) (.num (1 / 5)) rfl
  obtain ⟨b', hb', hs'⟩ := (C113_values_kept hl pData (by decide) (by decide)).1 (.str (lit "EPSG:3857")) rfl
  refine ⟨l, hl, h1 [lit "clusters_K1_0.txt", lit "/r/clusters_K2_0.txt"] rfl, h2 [lit "stats_K1_0.txt"] rfl, h3 _ rfl, h4 _ rfl,
    h6 ⟨[lit "results"], lit "path_out", [], _, rfl, rfl, rfl⟩, ?_, ?_⟩
  · rcases hs with ⟨-, rfl⟩ | ⟨_, h, -⟩
    · exact hb
    · cases h
  · rcases hs' with ⟨-, rfl⟩ | ⟨_, h, -⟩
    · exact hb'
    · cases h

/-- A density map in the projection of the data, with coloured labels. -/
def densitySettings : Raw :=
  .cons (lit "map") (sub [(lit "content", sub [(lit "type", one (.str (lit "density_map")))]), (lit "geo", sub [(lit "map_projection", one (.str []))]),
    (lit "legend", sub [(lit "correspondence", sub [(lit "color_labels", one (.bool true))])])])
    (settings (.list [.str (lit "clusters_K1_0.txt")]) (lit "EPSG:3857"))

/-- The requirements of `C113_loads`, `C113_projection_partial` and `C113_labels` are met. -/
example : ∃ l, loadConfig (lit "/home") densitySettings = some l ∧ l.config.at pProj = some (.atom (.str (lit "EPSG:3857"))) ∧
    l.config.at pLab = some (.atom (.bool false)) := by
  have hnb : ∀ q a, (Val.dict densitySettings).at q = some (.atom a) → ¬ Blocked (.dict densitySettings) q := by
    intro q a ha hb
    have h1 := C43_set_defaults densitySettings defaults defaults_distinct q
    have h2 := h1.1 a ha
    rw [h1.2.2.2 hb] at h2
    cases h2
  obtain ⟨l, hl⟩ := C113_loads (user := densitySettings) (lit "/home") (s2 := lit "features.csv") (s3 := lit "/data/states.csv")
    (L := [lit "clusters_K1_0.txt"]) (M := [lit "stats_K1_0.txt"])
    (by
      intro q hq
      simp only [List.mem_cons, List.not_mem_nil, or_false] at hq
      rcases hq with rfl | rfl | rfl | rfl
      · exact hnb _ (.str []) rfl
      · exact hnb _ (.str (lit "EPSG:3857")) rfl
      · exact hnb _ (.str (lit "density_map")) rfl
      · exact hnb _ (.bool true) rfl)
    (Or.inl ⟨[lit "results"], lit "path_out", [], _, rfl, rfl, rfl⟩) rfl rfl rfl rfl
  exact ⟨l, hl, ((C113_projection_partial hl).2 (Or.inl rfl)).1 _ rfl, (C113_labels hl (s := lit "density_map") rfl).1 rfl⟩

/-- **C113.** It is not true that a map without a projection of its own is drawn in the projection of the data. -/
theorem C113_projection_false : ∃ (base : Str) (user : Raw) (l : Loaded) (proj : Str), loadConfig base user = some l ∧
    (Val.dict user).at pData = some (.atom (.str proj)) ∧ Open (.dict user) pProj ∧ l.config.at pProj ≠ some (.atom (.str proj)) := by
  obtain ⟨l, hl, -⟩ := settings_load (lit "/home") (clusters := .list [.str (lit "clusters_K1_0.txt")]) (lit "EPSG:3857") (fixPaths_list _ [lit "clusters_K1_0.txt"])
  refine ⟨_, _, l, lit "EPSG:3857", hl, rfl, open_key rfl _, ?_⟩
  rw [C113_projection_unset hl (open_key rfl _), Ne, Option.some.injEq, Val.atom.injEq, Atom.str.injEq]
  decide

/-- **C113.** It is not true that settings without the required input files are rejected: those without any setting are loaded, with ten cluster
files, whose names are the characters of the placeholder. -/
theorem C113_required_false : ∀ base : Str, ∃ l, loadConfig base .nil = some l ∧
    l.clusterPaths = (lit "<REQUIRED>").map (fun c => resolved base [c]) ∧ l.pathFeatures = base ++ lit "/<REQUIRED>" := by
  intro base
  have ho : ∀ k p, Open (.dict (.nil : Raw)) (k :: p) := fun k p => open_key rfl p
  obtain ⟨l, hl, h1, -⟩ := load_exists base (user := .nil)
    (by
      intro q hq
      simp only [List.mem_cons, List.not_mem_nil, or_false] at hq
      rcases hq with rfl | rfl | rfl | rfl <;> exact not_blocked (ho _ _) (by decide))
    (merged_default (ho _ _) (a := .str (lit "./plots")) rfl) (merged_default (ho _ _) (a := .str (lit "<REQUIRED>")) rfl)
    (merged_default (ho _ _) (a := .str (lit "<REQUIRED>")) rfl) (merged_default (ho _ _) (a := .str (lit "<REQUIRED>")) rfl)
    (fixPaths_text base _) (merged_default (ho _ _) (a := .str (lit "<REQUIRED>")) rfl) (fixPaths_text base _)
  refine ⟨l, hl, h1, ?_⟩
  obtain ⟨c, -, -, -, ⟨v2, a2, b2⟩, -⟩ := load_inv hl
  rw [load_atom hl (q := pFeatures) (by decide) (by decide) (merged_default (ho _ _) (a := .str (lit "<REQUIRED>")) rfl)] at a2
  cases a2
  exact (Option.some.inj b2).symm

/-- **C113.** It is not true that a single path stands for one file. -/
theorem C113_single_path_false : ∃ (base : Str) (user : Raw) (l : Loaded), loadConfig base user = some l ∧
    (Val.dict user).at pClusters = some (.atom (.str (lit "clusters"))) ∧
    l.clusterPaths = [lit "/home/c", lit "/home/l", lit "/home/u", lit "/home/s", lit "/home/t", lit "/home/e", lit "/home/r", lit "/home/s"] := by
  obtain ⟨l, hl, -⟩ := settings_load (lit "/home") (clusters := .str (lit "clusters")) (lit "EPSG:3857") (fixPaths_text _ _)
  exact ⟨_, _, l, hl, rfl, C113_single_path hl rfl⟩

end SBayes.PlotConfig
