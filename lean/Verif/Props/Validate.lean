import Verif.Lemmas.Validate
import Verif.Props.Config
/- C86: validation of configurations. -/
namespace SBayes.Validate
open SBayes.Config
open SBayes.Log (lit)

variable {env : Env}

theorem required {T : Type} {d : Raw} {k : Str} {p : RawVal → Option T} {r : T} (h : field d k none p = some r) :
    ∃ v, d.get k = some v ∧ p v = some r := by
  rcases field_cases h with ⟨-, h⟩ | h
  · simp at h
  · exact h

theorem mapDict_get {T : Type} {p : RawVal → Option T} {k : Str} {v : RawVal} : ∀ {d : Raw} {l : List (Str × T)},
    mapDict p d = some l → d.get k = some v → ∃ y, p v = some y
  | .nil, _, _, hg => by simp [Dict.get] at hg
  | .cons k' w rest, l, h, hg => by
    simp only [mapDict] at h
    invert h
    obtain ⟨y, hy, ys, hys, rfl⟩ := h
    rw [Dict.get] at hg
    split at hg
    · rw [← Option.some.inj hg]; exact ⟨y, hy⟩
    · exact mapDict_get hys hg

theorem mapM_mem {α β : Type} {f : α → Option β} : ∀ {l : List α} {r : List β}, l.mapM f = some r → ∀ b ∈ r, ∃ a ∈ l, f a = some b
  | [], r, h, b, hb => by simp at h; subst h; simp at hb
  | a :: l, r, h, b, hb => by
    rw [List.mapM_cons] at h
    invert h
    obtain ⟨y, hy, ys, hys, h⟩ := h
    cases h
    rcases List.mem_cons.mp hb with rfl | hb
    · exact ⟨a, List.mem_cons_self, hy⟩
    · obtain ⟨a', ha', e⟩ := mapM_mem hys b hb
      exact ⟨a', List.mem_cons_of_mem _ ha', e⟩

theorem toStrs_mem {g : Str} {v : RawVal} {l : List Str} (priors : RawVal) (h : toStrs env v = some l)
    (hp : groupsHavePriors v priors = true) (hg : g ∈ l) : contains priors (.str g) = true := by
  unfold groupsHavePriors at hp
  split at hp
  · rename_i as
    simp only [toStrs] at h
    obtain ⟨a, ha, hag⟩ := mapM_mem h g hg
    have hc := List.all_eq_true.mp hp a ha
    cases a with
    | str s => cases Option.some.inj hag; exact hc
    | _ => unfold contains at hc; split at hc <;> simp_all
  · simp at hp

theorem confs_mem {priors : RawVal} : ∀ {cs : Raw} {L : List (Str × List Str)}, confoundersHavePriors priors cs = true →
    mapDict (toStrs env) cs = some L → ∀ x ∈ L, ∃ p, item priors x.1 = some p ∧ ∀ g ∈ x.2, contains p (.str g) = true
  | .nil, L, _, h, x, hx => by cases Option.some.inj h; simp at hx
  | .cons c groups rest, L, hc, h, x, hx => by
    simp only [mapDict] at h
    invert h
    obtain ⟨y, hy, ys, hys, rfl⟩ := h
    simp only [confoundersHavePriors, Bool.and_eq_true] at hc
    rcases List.mem_cons.mp hx with rfl | hx
    · have h1 := hc.1
      split at h1
      · simp at h1
      · rename_i p hp
        exact ⟨p, hp, fun g hg => toStrs_mem p hy h1 hg⟩
    · exact confs_mem hc.2 hys x hx

theorem model_priors {v : RawVal} {m : ModelConfig} (h : parseModel env v = some m) : ∀ x ∈ m.confounders,
    ∃ P, m.prior.confoundingEffects.lookup x.1 = some P ∧ ∀ g ∈ x.2, (P.lookup g).isSome := by
  obtain ⟨d, hd⟩ := model_inv h
  intro x hx
  have hck := hd.check
  unfold validateConfounderPriors at hck
  invert hck
  obtain ⟨cv, hcv, hck⟩ := hck
  obtain ⟨pv, hpv, hpp⟩ := required hd.prior
  obtain ⟨pd, hpd⟩ := prior_inv hpp
  obtain ⟨ev, hev, hep⟩ := required hpd.conf
  have hconf := hd.confounders
  rw [field, hcv] at hconf
  cases cv with
  | atom a => simp at hck
  | dict cs =>
    simp only [toDict, Option.bind_some] at hconf
    dsimp only at hck
    have hit : ((d.get (lit "prior")).bind fun p => item p (lit "confounding_effects")) = some ev := by
      rw [hpv, Option.bind_some]
      have hdict := hpd.dict
      unfold toDict at hdict
      split at hdict
      · cases Option.some.inj hdict; exact hev
      all_goals (cases hdict <;> simp [Dict.get] at hev)
    rw [hit] at hck
    dsimp only at hck
    rw [Option.guard_eq_some'] at hck
    obtain ⟨p, hp, hg⟩ := confs_mem hck hconf x hx
    unfold item at hp
    split at hp
    · rename_i ed
      simp only [toDict, Option.bind_some] at hep
      obtain ⟨P, hP⟩ := mapDict_get hep hp
      refine ⟨P, by rw [mapDict_lookup x.1 hep, hp, Option.bind_some, hP], fun g hgx => ?_⟩
      have hc := hg g hgx
      unfold contains at hc
      obtain ⟨gd, hgd, hgP⟩ := Option.bind_eq_some_iff.mp hP
      split at hc
      · rename_i d' s' e
        simp only [Option.some.injEq] at hgd
        simp only [Atom.str.injEq] at e
        subst hgd e
        obtain ⟨w, hw⟩ := Option.isSome_iff_exists.mp hc
        obtain ⟨y, hy⟩ := mapDict_get hgP hw
        rw [mapDict_lookup g hgP, hw, Option.bind_some, hy]
        rfl
      · rename_i l s' e
        cases l with
        | nil => simp at hc
        | cons a l => simp at hgd
      · simp at hc
    · simp at hp

/-- **C86.** An accepted configuration has the properties that the configuration classes promise. -/
theorem C86_accepted_configurations_are_valid {raw : Raw} {c : SBayesConfig} (h : parseConfig env raw = some c) :
    Guarantees env c := by
  obtain ⟨d, hd⟩ := config_inv h
  obtain ⟨mv, -, hm⟩ := required hd.mcmc
  obtain ⟨md, hmd⟩ := mcmc_inv hm
  obtain ⟨ov, -, ho⟩ := required hd.model
  obtain ⟨od, hod⟩ := model_inv ho
  obtain ⟨pv, -, hp⟩ := required hod.prior
  obtain ⟨pd, hpd⟩ := prior_inv hp
  obtain ⟨gv, -, hg⟩ := required hpd.geo
  obtain ⟨gd, hgd⟩ := geo_inv hg
  obtain ⟨sv, -, hs⟩ := required hpd.size
  obtain ⟨sd, hsd⟩ := size_inv hs
  obtain ⟨dv, -, hda⟩ := required hd.data
  obtain ⟨dd, hdd⟩ := data_inv hda
  have pos : ∀ {d : Raw} {k : Str} {n0 n : ℕ}, 0 < n0 → field d k (some n0) (toPosInt env) = some n → 0 < n :=
    fun h0 hf => field_pred (fun n => 0 < n) hf (fun x e => by cases e; exact h0) (fun v x => posInt_pos)
  have nonneg : ∀ {d : Raw} {k : Str} {n0 n : ℚ}, 0 ≤ n0 → field d k (some n0) (toNumIf env fun q => decide (0 ≤ q)) = some n → 0 ≤ n :=
    fun h0 hf => field_pred (fun n => 0 ≤ n) hf (fun x e => by cases e; exact h0) (fun v x hx => by simpa using numIf_ok hx)
  have warm : 0 < c.mcmc.warmup.steps ∧ 0 < c.mcmc.warmup.chains :=
    field_pred (fun w => 0 < w.steps ∧ 0 < w.chains) hmd.warmup (fun x e => by cases e; simp)
      (fun v x hx => by obtain ⟨e, he⟩ := warmup_inv hx; exact ⟨pos (by norm_num) he.steps, pos (by norm_num) he.chains⟩)
  exact {
    steps := pos (by norm_num) hmd.steps
    samples := pos (by norm_num) hmd.samples
    spacing := Nat.dvd_of_mod_eq_zero hmd.spacing
    runs := pos (by norm_num) hmd.runs
    initSize := pos (by norm_num) hmd.init
    grow := field_pred (fun q : ℚ => 0 ≤ q ∧ q ≤ 1) hmd.grow (fun x e => by cases e; norm_num)
      (fun v x hx => by simpa using numIf_ok hx)
    warmup := warm
    operators := field_pred (fun o : OperatorsConfig => 0 ≤ o.clusters ∧ 0 ≤ o.weights ∧ 0 ≤ o.clusterEffect ∧
        0 ≤ o.confoundingEffects ∧ 0 ≤ o.source) hmd.operators (fun x e => by cases e; norm_num [defaultOperators])
      (fun v x hx => by
        obtain ⟨e, he⟩ := operators_inv hx
        exact ⟨nonneg (by norm_num) he.clusters, nonneg (by norm_num) he.weights, nonneg (by norm_num) he.clusterEffect,
          nonneg (by norm_num) he.confoundingEffects, nonneg (by norm_num) he.source⟩)
    sizes := ⟨pos (by norm_num) hsd.min, pos (by norm_num) hsd.max⟩
    rate := optional_pred (fun q : ℚ => 0 < q) hgd.rate fun v x hx => by simpa using numIf_ok hx
    costBased := fun ht => by
      have := hgd.check
      rw [not_and] at this
      have := this ht
      cases hr : c.model.prior.geo.rate with
      | none => rw [hr] at this; simp at this
      | some r => rfl
    costs := field_pred (fun x => ∀ p, x = Costs.file p → env.isFile p = true) hgd.costs
      (fun x e p hx => by cases e; cases hx) (fun v x hx => costs_exist hx)
    clusterEffect := by obtain ⟨v, -, hv⟩ := required hpd.clusterEffect; exact dirichlet_ok hv
    weights := by obtain ⟨v, -, hv⟩ := required hpd.weights; exact dirichlet_ok hv
    confounding := fun x hx y hy => by
      obtain ⟨v, -, hv⟩ := required hpd.conf
      obtain ⟨ed, -, hed⟩ := Option.bind_eq_some_iff.mp hv
      obtain ⟨w, hw⟩ := mapDict_mem hed x hx
      obtain ⟨fd, -, hfd⟩ := Option.bind_eq_some_iff.mp hw
      obtain ⟨u, hu⟩ := mapDict_mem hfd y hy
      exact dirichlet_ok hu
    priors := model_priors ho
    data := ⟨by obtain ⟨v, -, hv⟩ := required hdd.features; exact file_exists hv,
      by obtain ⟨v, -, hv⟩ := required hdd.featureStates; exact file_exists hv⟩ }

/-! ### Where the settings come from -/

def sourcePath : List Str := [lit "mcmc", lit "operators", lit "source"]

theorem at_set (d : Raw) (x : Str) (w : RawVal) (k : Str) (p : List Str) :
    (Val.dict (d.set x w)).at (k :: p) = if k = x then w.at p else (Val.dict d).at (k :: p) := by
  rw [at_dict_cons, at_dict_cons, get_set]
  split <;> simp

theorem at_single (d : Raw) (k : Str) : (Val.dict d).at [k] = d.get k := by
  rw [at_dict_cons]
  cases d.get k <;> simp [at_nil]

theorem bind_at_nil (o : Option RawVal) : (o.bind fun w => w.at []) = o := by cases o <;> simp [at_nil]

theorem at_clearSource {raw d : Raw} (h : clearSource raw = some d) {p : List Str} (h1 : ¬ p <+: sourcePath) (h2 : ¬ sourcePath <+: p) :
    (Val.dict d).at p = (Val.dict raw).at p := by
  unfold clearSource at h
  invert h
  obtain ⟨mv, hmv, h⟩ := h
  cases mv with
  | atom a => simp at h
  | dict md =>
    dsimp only at h
    invert h
    obtain ⟨ov, hov, h⟩ := h
    cases ov with
    | atom a => simp at h
    | dict od =>
      cases Option.some.inj h
      rcases p with _ | ⟨k, p⟩
      · exact absurd List.nil_prefix h1
      rw [at_set]
      split
      · rename_i hk
        subst hk
        rw [at_dict_cons, hmv, Option.bind_some]
        rcases p with _ | ⟨k, p⟩
        · exact absurd (by decide) h1
        rw [at_set]
        split
        · rename_i hk
          subst hk
          rw [at_dict_cons, hov, Option.bind_some]
          rcases p with _ | ⟨k, p⟩
          · exact absurd (by decide) h1
          rw [at_set]
          split
          · rename_i hk
            subst hk
            exact absurd ⟨p, rfl⟩ h2
          · rfl
        · rfl
      · rfl

theorem at_validated {raw d : Raw} (h : validateOperators raw = some d) {p : List Str} (h1 : ¬ p <+: sourcePath) (h2 : ¬ sourcePath <+: p) :
    says_at raw p = (Val.dict d).at p := by
  unfold validateOperators at h
  invert h
  obtain ⟨_, _, _, _, h⟩ := h
  split at h
  · exact (at_clearSource h h1 h2).symm
  · cases h; rfl

theorem lookup_mem {T : Type} {s : Str} {t : T} : ∀ {table : List (Str × T)}, table.lookup s = some t → (s, t) ∈ table
  | [], h => by simp at h
  | (k, x) :: r, h => by
    rw [List.lookup_cons] at h
    split at h
    · rename_i e
      cases Option.some.inj h
      rw [beq_iff_eq] at e
      subst e
      exact List.mem_cons_self
    · exact List.mem_cons_of_mem _ (lookup_mem h)

theorem int_setting {raw d : Raw} {p : List Str} {k : Str} {n0 n : ℕ} (hat : says_at raw p = d.get k)
    (h : field d k (some n0) (toPosInt env) = some n) : IntSetting env raw p n0 n := by
  unfold IntSetting
  rw [hat]
  unfold field at h
  refine ⟨fun m hm => ?_, fun q hm => ?_, fun b hm => ?_, fun t hm => ?_, fun hn => ?_⟩
  · rw [hm] at h
    simp only [toPosInt, toInt] at h
    split at h
    · have := Option.some.inj h; omega
    · simp at h
  · rw [hm] at h
    simp only [toPosInt, toInt] at h
    split at h
    · rename_i hpos
      have e : (n : ℤ) = q.num.tdiv q.den := by have := Option.some.inj h; omega
      have hq : 0 ≤ q.num := by
        by_contra hneg
        have h0 : 0 ≤ (-q.num).tdiv q.den := Int.tdiv_nonneg (by omega) (by positivity)
        rw [Int.neg_tdiv] at h0
        omega
      rw [Int.tdiv_eq_ediv_of_nonneg hq, ← Rat.floor_def] at e
      rw [show (n : ℚ) = ((n : ℤ) : ℚ) by simp, e]
      exact ⟨Int.floor_le q, Int.lt_floor_add_one q⟩
    · simp at h
  · rw [hm] at h
    cases b
    · simp [toPosInt, toInt] at h
    · simpa [toPosInt, toInt, eq_comm] using h
  · rw [hm] at h
    simp only [toPosInt, toInt] at h
    split at h
    · rename_i m e
      split at h
      · rw [e]; have := Option.some.inj h; congr 1; omega
      · simp at h
    · simp at h
  · rw [hn] at h; exact (Option.some.inj h).symm

theorem num_setting {raw d : Raw} {p : List Str} {k : Str} {n0 n : ℚ} {ok : ℚ → Bool} (hat : says_at raw p = d.get k)
    (h : field d k (some n0) (toNumIf env ok) = some n) : NumSetting env raw p n0 n := by
  unfold NumSetting
  rw [hat]
  unfold field at h
  refine ⟨fun m hm => ?_, fun m hm => ?_, fun b hm => ?_, fun t hm => ?_, fun hn => ?_⟩
  · rw [hm] at h
    simp only [toNumIf, toNum] at h
    split at h
    · exact (Option.some.inj h).symm
    · simp at h
  · rw [hm] at h
    simp only [toNumIf, toNum] at h
    split at h
    · exact (Option.some.inj h).symm
    · simp at h
  · rw [hm] at h
    have e : toNumIf env ok (.atom (.bool b)) = some n := h
    cases b <;> simp [toNumIf, toNum] at e
    · exact e.2.symm
    · exact e.2.symm
  · rw [hm] at h
    simp only [toNumIf, toNum] at h
    split at h
    · rename_i e
      split at h
      · rw [e]; exact h
      · simp at h
    · simp at h
  · rw [hn] at h; exact (Option.some.inj h).symm

theorem optnum_setting {raw d : Raw} {p : List Str} {k : Str} {r : Option ℚ} {f : RawVal → Option ℚ}
    (hf : ∀ v q, f v = some q → toNum env v = some q) (hat : says_at raw p = d.get k)
    (h : optional d k f = some r) : OptNumSetting env raw p r := by
  unfold OptNumSetting
  rw [hat]
  rcases optional_cases h with ⟨hg, rfl⟩ | ⟨hg, rfl⟩ | ⟨v, x, hg, hne, hx, rfl⟩
  · simp [hg]
  · simp [hg]
  · rw [hg]
    have := hf _ _ hx
    refine ⟨fun q e => ?_, fun q e => ?_, fun b e => ?_, fun t e => ?_, fun e => ?_⟩
    · cases e; exact this.symm
    · cases e; exact this.symm
    · cases e; exact this.symm
    · cases e; exact ⟨rfl, this⟩
    · rcases e with e | e
      · exact absurd (Option.some.inj e) hne
      · simp at e

theorem numIf_num {ok : ℚ → Bool} {v : RawVal} {q : ℚ} (h : toNumIf env ok v = some q) : toNum env v = some q := by
  unfold toNumIf at h
  split at h
  · rename_i q' hq
    split at h
    · rw [hq]; exact h
    · simp at h
  · simp at h

theorem bool_setting {raw d : Raw} {p : List Str} {k : Str} {b0 b : Bool} (hat : says_at raw p = d.get k)
    (h : field d k (some b0) toBool = some b) : BoolSetting raw p b0 b := by
  unfold BoolSetting
  rw [hat]
  unfold field at h
  refine ⟨fun m hm => ?_, fun n hm => ?_, fun q hm => ?_, fun t hm => ?_, fun hn => ?_⟩
  · rw [hm] at h; exact (Option.some.inj h).symm
  · rw [hm] at h
    simp only [toBool] at h
    split_ifs at h with h1 h2 <;> cases Option.some.inj h
    · exact h1
    · exact h2
  · rw [hm] at h
    simp only [toBool] at h
    split_ifs at h with h1 h2 <;> cases Option.some.inj h
    · exact h1
    · exact h2
  · rw [hm] at h
    simp only [toBool] at h
    split_ifs at h with h1 h2 <;> cases Option.some.inj h
    · exact h1
    · exact h2
  · rw [hn] at h; exact (Option.some.inj h).symm

theorem enum_setting {T : Type} {raw d : Raw} {p : List Str} {k : Str} {t0 : Option T} {t : T} {table : List (Str × T)} {name : T → Str}
    (hname : ∀ q ∈ table, q.1 = name q.2)
    (hat : says_at raw p = d.get k) (h : field d k t0 (toEnum table) = some t) : EnumSetting raw p name t0 t := by
  unfold EnumSetting
  rw [hat]
  unfold field at h
  refine ⟨fun m hm => ?_, fun hn => ?_⟩
  · rw [hm] at h
    obtain ⟨s, e, hl⟩ := enum_str h
    rw [e, show s = name t from hname (s, t) (lookup_mem hl)]
  · rw [hn] at h; exact h

theorem geo_names : ∀ q ∈ geoTypes, q.1 = geoName q.2 := by decide
theorem agg_names : ∀ q ∈ aggTypes, q.1 = aggName q.2 := by decide
theorem prob_names : ∀ q ∈ probTypes, q.1 = probName q.2 := by decide
theorem skeleton_names : ∀ q ∈ skeletons, q.1 = skeletonName q.2 := by decide
theorem size_names : ∀ q ∈ sizeTypes, q.1 = sizeName q.2 := by decide
theorem dir_names : ∀ q ∈ dirTypes, q.1 = dirName q.2 := by decide

theorem falsy_iff (v : RawVal) : falsy v = true ↔ PyFalse v := by
  rcases v with a | d
  · rcases a with _ | b | n | q | s | l <;> simp [falsy, PyFalse]
  · cases d <;> simp [falsy, PyFalse]

theorem toStr_text (a : Atom) : toStr env a = pyText env a := by
  rcases a with _ | b | n | q | s | l <;> try rfl
  cases b <;> rfl

theorem file_setting {raw d : Raw} {p : List Str} {k : Str} {t : Str}
    (hat : says_at raw p = d.get k) (h : field d k none (toFile env) = some t) : FileSetting env raw p t := by
  obtain ⟨v, hv, ht⟩ := required h
  unfold toFile at ht
  split at ht
  · rename_i s
    split at ht
    · exact ⟨s, hat.trans hv, (Option.some.inj ht).symm⟩
    · simp at ht
  · simp at ht

/-- **C86.** Every setting of an accepted configuration is the one in the file, or else the documented default. -/
theorem C86_settings_are_those_of_the_file {raw : Raw} {c : SBayesConfig} (h : parseConfig env raw = some c) :
    Settings env raw c := by
  obtain ⟨d, hd⟩ := config_inv h
  obtain ⟨mv, hmv, hm⟩ := required hd.mcmc
  obtain ⟨md, hmd⟩ := mcmc_inv hm
  obtain ⟨ov, hov, ho⟩ := required hd.model
  obtain ⟨od, hod⟩ := model_inv ho
  obtain ⟨pv, hpv, hp⟩ := required hod.prior
  obtain ⟨pd, hpd⟩ := prior_inv hp
  obtain ⟨gv, hgv, hg⟩ := required hpd.geo
  obtain ⟨gd, hgd⟩ := geo_inv hg
  obtain ⟨sv, hsv, hs⟩ := required hpd.size
  obtain ⟨sd, hsd⟩ := size_inv hs
  obtain ⟨dv, hdv, hda⟩ := required hd.data
  obtain ⟨dd, hdd⟩ := data_inv hda
  obtain ⟨wv, hwv, hw⟩ := required hpd.weights
  obtain ⟨wd, hwd⟩ := dirichlet_inv hw
  obtain ⟨ev, hev, he⟩ := required hpd.clusterEffect
  obtain ⟨ed, hed⟩ := dirichlet_inv he
  have amcmc : ∀ k p, ¬ (lit "mcmc" :: k :: p) <+: sourcePath → ¬ sourcePath <+: (lit "mcmc" :: k :: p) →
      says_at raw (lit "mcmc" :: k :: p) = (md.get k).bind fun w => w.at p := fun k p h1 h2 => by
    rw [at_validated hd.ops h1 h2, at_dict_cons, hmv, Option.bind_some, at_of_toDict hmd.dict]
  have amodel : ∀ k p, says_at raw (lit "model" :: k :: p) = (od.get k).bind fun w => w.at p := fun k p => by
    rw [at_validated hd.ops (by simp [sourcePath, lit]) (by simp [sourcePath, lit]), at_dict_cons, hov, Option.bind_some,
      at_of_toDict hod.dict]
  have adata : ∀ k p, says_at raw (lit "data" :: k :: p) = (dd.get k).bind fun w => w.at p := fun k p => by
    rw [at_validated hd.ops (by simp [sourcePath, lit]) (by simp [sourcePath, lit]), at_dict_cons, hdv, Option.bind_some,
      at_of_toDict hdd.dict]
  have aprior : ∀ k p, says_at raw (lit "model" :: lit "prior" :: k :: p) = (pd.get k).bind fun w => w.at p := fun k p => by
    rw [amodel, hpv, Option.bind_some, at_of_toDict hpd.dict]
  have ageo : ∀ k, says_at raw [lit "model", lit "prior", lit "geo", k] = gd.get k := fun k => by
    rw [aprior, hgv, Option.bind_some, at_of_toDict hgd.dict, bind_at_nil]
  have asize : ∀ k, says_at raw [lit "model", lit "prior", lit "objects_per_cluster", k] = sd.get k := fun k => by
    rw [aprior, hsv, Option.bind_some, at_of_toDict hsd.dict, bind_at_nil]
  have awts : ∀ k, says_at raw [lit "model", lit "prior", lit "weights", k] = wd.get k := fun k => by
    rw [aprior, hwv, Option.bind_some, at_of_toDict hwd.dict, bind_at_nil]
  have aeff : ∀ k, says_at raw [lit "model", lit "prior", lit "cluster_effect", k] = ed.get k := fun k => by
    rw [aprior, hev, Option.bind_some, at_of_toDict hed.dict, bind_at_nil]
  have m1 : ∀ k, k ≠ lit "operators" → says_at raw [lit "mcmc", k] = md.get k := fun k hk => by
    rw [amcmc k [] (by simp [sourcePath, hk]) (by simp [sourcePath, hk.symm]), bind_at_nil]
  have warm : IntSetting env raw [lit "mcmc", lit "warmup", lit "warmup_steps"] 50000 c.mcmc.warmup.steps ∧
      IntSetting env raw [lit "mcmc", lit "warmup", lit "warmup_chains"] 10 c.mcmc.warmup.chains := by
    have hk : ∀ k, says_at raw [lit "mcmc", lit "warmup", k] = (md.get (lit "warmup")).bind fun w => w.at [k] := fun k =>
      amcmc _ _ (by simp [sourcePath, lit]) (by simp [sourcePath, lit])
    rcases field_cases hmd.warmup with ⟨hn, hx⟩ | ⟨v, hv, hx⟩
    · rw [← Option.some.inj hx]
      simp [IntSetting, hk, hn]
    · obtain ⟨ud, hud⟩ := warmup_inv hx
      have hk' : ∀ k, says_at raw [lit "mcmc", lit "warmup", k] = ud.get k := fun k => by
        rw [hk, hv, Option.bind_some, at_of_toDict hud.dict, bind_at_nil]
      exact ⟨int_setting (hk' _) hud.steps, int_setting (hk' _) hud.chains⟩
  have ops : NumSetting env raw [lit "mcmc", lit "operators", lit "clusters"] 45 c.mcmc.operators.clusters ∧
      NumSetting env raw [lit "mcmc", lit "operators", lit "weights"] 15 c.mcmc.operators.weights ∧
      NumSetting env raw [lit "mcmc", lit "operators", lit "cluster_effect"] 5 c.mcmc.operators.clusterEffect ∧
      NumSetting env raw [lit "mcmc", lit "operators", lit "confounding_effects"] 15 c.mcmc.operators.confoundingEffects := by
    have hk : ∀ k, k ≠ lit "source" → says_at raw [lit "mcmc", lit "operators", k] =
        (md.get (lit "operators")).bind fun w => w.at [k] := fun k hk =>
      amcmc _ _ (by simp [sourcePath, hk]) (by simp [sourcePath, hk.symm])
    rcases field_cases hmd.operators with ⟨hn, hx⟩ | ⟨v, hv, hx⟩
    · rw [← Option.some.inj hx]
      have hd : ∀ k n, k ≠ lit "source" → NumSetting env raw [lit "mcmc", lit "operators", k] n n := fun k n h => by
        simp [NumSetting, hk k h, hn]
      exact ⟨hd _ _ (by decide), hd _ _ (by decide), hd _ _ (by decide), hd _ _ (by decide)⟩
    · obtain ⟨ud, hud⟩ := operators_inv hx
      have hk' : ∀ k, k ≠ lit "source" → says_at raw [lit "mcmc", lit "operators", k] = ud.get k := fun k h => by
        rw [hk k h, hv, Option.bind_some, at_of_toDict hud.dict, bind_at_nil]
      exact ⟨num_setting (hk' _ (by decide)) hud.clusters, num_setting (hk' _ (by decide)) hud.weights,
        num_setting (hk' _ (by decide)) hud.clusterEffect, num_setting (hk' _ (by decide)) hud.confoundingEffects⟩
  have asrc : ∀ v, says_at raw [lit "model", lit "sample_source"] = some v →
      (if falsy v then clearSource raw = some d else d = raw) := fun v hb => by
    have hv := hd.ops
    unfold validateOperators at hv
    invert hv
    obtain ⟨mo, hmo, ss, hss, hv⟩ := hv
    have : ss = v := by
      rw [says_at, at_dict_cons, hmo, Option.bind_some] at hb
      unfold item at hss
      split at hss
      · rw [at_single, hss] at hb; exact Option.some.inj hb
      · simp at hss
    subst this
    split
    · rename_i hf; rw [if_pos hf] at hv; exact hv
    · rename_i hf; rw [if_neg hf] at hv; exact (Option.some.inj hv).symm
  exact {
    steps := int_setting (m1 _ (by decide)) hmd.steps
    samples := int_setting (m1 _ (by decide)) hmd.samples
    runs := int_setting (m1 _ (by decide)) hmd.runs
    fromPrior := bool_setting (m1 _ (by decide)) hmd.fromPrior
    initSize := int_setting (m1 _ (by decide)) hmd.init
    grow := num_setting (m1 _ (by decide)) hmd.grow
    warmupSteps := warm.1
    warmupChains := warm.2
    opClusters := ops.1
    opWeights := ops.2.1
    opClusterEffect := ops.2.2.1
    opConfounding := ops.2.2.2
    opSource := fun v hs hf => by
      have := asrc v hs
      rw [if_neg (by rwa [falsy_iff])] at this
      subst this
      have hk : ∀ k, says_at d [lit "mcmc", lit "operators", k] = (md.get (lit "operators")).bind fun w => w.at [k] := fun k => by
        rw [says_at, at_dict_cons, hmv, Option.bind_some, at_of_toDict hmd.dict]
      rcases field_cases hmd.operators with ⟨hn, hx⟩ | ⟨v, hv, hx⟩
      · rw [← Option.some.inj hx]
        simp [NumSetting, hk, hn, defaultOperators]
      · obtain ⟨ud, hud⟩ := operators_inv hx
        exact num_setting (by rw [hk, hv, Option.bind_some, at_of_toDict hud.dict, bind_at_nil]) hud.source
    opNoSource := fun v hs hf => by
      have := asrc v hs
      rw [if_pos ((falsy_iff v).mpr hf)] at this
      unfold clearSource at this
      invert this
      obtain ⟨mv', hmv', this⟩ := this
      cases mv' with
      | atom a => simp at this
      | dict md' =>
        dsimp only at this
        invert this
        obtain ⟨ov', hov', this⟩ := this
        cases ov' with
        | atom a => simp at this
        | dict od' =>
          cases Option.some.inj this
          rw [get_set, if_pos rfl] at hmv
          cases Option.some.inj hmv
          have hdict := hmd.dict
          cases Option.some.inj hdict
          have hop := hmd.operators
          rw [field, get_set, if_pos rfl] at hop
          obtain ⟨ud, hud⟩ := operators_inv hop
          have hdict := hud.dict
          cases Option.some.inj hdict
          have hsrc := hud.source
          rw [field, get_set, if_pos rfl] at hsrc
          simpa [toNumIf, toNum, eq_comm] using hsrc
    sampleSource := bool_setting (by rw [amodel, bind_at_nil]) hod.sampleSource
    clusters := by
      rw [amodel, bind_at_nil]
      have := hod.clusters
      unfold field at this
      refine ⟨fun n hn => ?_, fun hn => ?_⟩
      · rw [hn] at this; exact (Option.some.inj this).symm
      · rw [hn] at this; exact (Option.some.inj this).symm
    confounders := fun name groups hg => by
      rw [amodel] at hg
      rcases field_cases hod.confounders with ⟨hn, -⟩ | ⟨v, hv, hx⟩
      · rw [hn] at hg; simp at hg
      · obtain ⟨cd, hcd, hx⟩ := Option.bind_eq_some_iff.mp hx
        rw [hv, Option.bind_some, at_of_toDict hcd, bind_at_nil] at hg
        obtain ⟨y, hy⟩ := mapDict_get hx hg
        refine ⟨y, by rw [mapDict_lookup name hx, hg, Option.bind_some, hy], ?_⟩
        change groups.mapM (toStr env) = some y at hy
        clear hg
        induction groups generalizing y with
        | nil => cases Option.some.inj hy; rfl
        | cons g gs ih =>
          rw [List.mapM_cons] at hy
          invert hy
          obtain ⟨z, hz, zs, hzs, hy⟩ := hy
          cases hy
          rw [List.map_cons, List.map_cons, ih zs hzs, ← toStr_text, hz]
    clusterList := fun l hl => by
      rw [amodel, bind_at_nil] at hl
      have := hod.clusters
      rw [field, hl] at this
      have hm : (l.map Atom.int).mapM (fun a => toInt env (.atom a)) = some l := by
        clear hl this
        induction l with
        | nil => rfl
        | cons g gs ih => rw [List.map_cons, List.mapM_cons, ih]; rfl
      change ((l.map Atom.int).mapM fun a => toInt env (.atom a)).map NumClusters.many = _ at this
      rw [hm] at this
      exact (Option.some.inj this).symm
    noConfounders := fun name hg => by
      rw [amodel] at hg
      rcases field_cases hod.confounders with ⟨hn, hx⟩ | ⟨v, hv, hx⟩
      · rw [← Option.some.inj hx]; rfl
      · obtain ⟨cd, hcd, hx⟩ := Option.bind_eq_some_iff.mp hx
        rw [hv, Option.bind_some, at_of_toDict hcd, bind_at_nil] at hg
        rw [mapDict_lookup name hx, hg, Option.bind_none]
    minSize := int_setting (asize _) hsd.min
    maxSize := int_setting (asize _) hsd.max
    sizeType := enum_setting size_names (asize _) hsd.type
    geoType := enum_setting geo_names (ageo _) hgd.type
    aggregation := enum_setting agg_names (ageo _) hgd.aggregation
    prob := enum_setting prob_names (ageo _) hgd.prob
    skeleton := enum_setting skeleton_names (ageo _) hgd.skeleton
    rate := optnum_setting (env := env) (fun v q => numIf_num) (ageo _) hgd.rate
    inflection := optnum_setting (env := env) (fun v q h => h) (ageo _) hgd.inflection
    weightsType := enum_setting dir_names (awts _) hwd.type
    clusterEffectType := enum_setting dir_names (aeff _) hed.type
    features := file_setting (by rw [adata, bind_at_nil]) hdd.features
    featureStates := file_setting (by rw [adata, bind_at_nil]) hdd.featureStates
    logFile := by
      have ares : ∀ k, says_at raw [lit "results", k] = (d.get (lit "results")).bind fun w => w.at [k] := fun k => by
        rw [at_validated hd.ops (by simp [sourcePath, lit]) (by simp [sourcePath, lit]), at_dict_cons]
      rcases field_cases hd.results with ⟨hn, hx⟩ | ⟨v, hv, hx⟩
      · rw [← Option.some.inj hx]
        simp [BoolSetting, ares, hn]
      · obtain ⟨rd, hrd⟩ := results_inv hx
        exact bool_setting (by rw [ares, hv, Option.bind_some, at_of_toDict hrd.dict, bind_at_nil]) hrd.logFile
    projection := by
      rw [adata, bind_at_nil]
      have := hdd.projection
      unfold field at this
      refine ⟨fun a ha => ?_, fun hn => ?_⟩
      · rw [ha] at this; rw [← toStr_text]; exact this
      · rw [hn] at this; exact (Option.some.inj this).symm
    resultsPath := by
      have ares : ∀ k, says_at raw [lit "results", k] = (d.get (lit "results")).bind fun w => w.at [k] := fun k => by
        rw [at_validated hd.ops (by simp [sourcePath, lit]) (by simp [sourcePath, lit]), at_dict_cons]
      have hdef : fixPath env (lit "./results") = env.base ++ ['/'] ++ lit "./results" := if_neg (by decide)
      rcases field_cases hd.results with ⟨hn, hx⟩ | ⟨v, hv, hx⟩
      · rw [← Option.some.inj hx]
        simp [ares, hn, hdef]
      · obtain ⟨rd, hrd⟩ := results_inv hx
        have har : says_at raw [lit "results", lit "path"] = rd.get (lit "path") := by
          rw [ares, hv, Option.bind_some, at_of_toDict hrd.dict, bind_at_nil]
        rcases field_cases hrd.path with ⟨hn, hx⟩ | ⟨v, hv, hx⟩
        · rw [har, hn, ← Option.some.inj hx]
          exact ⟨fun h => by simp at h, fun _ => hdef⟩
        · rw [har, hv]
          refine ⟨fun hs => ?_, fun h => by simp at h⟩
          clear hs
          unfold toDir at hx
          split at hx
          · rename_i s
            split at hx
            · exact ⟨s, har.trans hv, (Option.some.inj hx).symm⟩
            · simp at hx
          · simp at hx }

/-! ### Back and forth -/

theorem get_mkDict (k : Str) : ∀ l : List (Str × RawVal), (mkDict l).get k = l.lookup k
  | [] => rfl
  | (k', v) :: r => by
    rw [mkDict, Dict.get, List.lookup_cons]
    by_cases h : k = k'
    · subst h; simp
    · have : (k == k') = false := by simpa using h
      rw [if_neg h, this, get_mkDict k r]

theorem fixPath_abs {p : Str} (h : p.head? = some '/') : fixPath env p = p := by rw [fixPath, if_pos h]

theorem abs_fixPath (hb : env.base.head? = some '/') (p : Str) : (fixPath env p).head? = some '/' := by
  unfold fixPath
  split
  · assumption
  · rw [List.append_assoc, List.head?_append, hb]; rfl

theorem toFile_abs (hb : env.base.head? = some '/') {v : RawVal} {p : Str} (h : toFile env v = some p) :
    toFile env (.atom (.str p)) = some p := by
  have he := file_exists h
  unfold toFile at h
  split at h
  · split at h
    · have ha : p.head? = some '/' := by rw [← Option.some.inj h]; exact abs_fixPath hb _
      simp only [toFile, fixPath_abs ha, he, if_true]
    · simp at h
  · simp at h

theorem posInt_cast {n : ℕ} (h : 0 < n) : toPosInt env (.atom (.int n)) = some n := by
  simp only [toPosInt, toInt]
  rw [if_pos (by omega)]
  simp

theorem numIf_cast {ok : ℚ → Bool} {q : ℚ} (h : ok q = true) : toNumIf env ok (.atom (.num q)) = some q := by
  simp only [toNumIf, toNum, h, if_true]

theorem enum_geo (t : GeoType) : toEnum geoTypes (enumName geoTypes t) = some t := by cases t <;> rfl
theorem enum_agg (t : AggType) : toEnum aggTypes (enumName aggTypes t) = some t := by cases t <;> rfl
theorem enum_prob (t : ProbType) : toEnum probTypes (enumName probTypes t) = some t := by cases t <;> rfl
theorem enum_skel (t : Skeleton) : toEnum skeletons (enumName skeletons t) = some t := by cases t <;> rfl
theorem enum_size (t : SizeType) : toEnum sizeTypes (enumName sizeTypes t) = some t := by cases t <;> rfl
theorem enum_dir (t : DirType) : toEnum dirTypes (enumName dirTypes t) = some t := by cases t <;> rfl

theorem field_some {T : Type} {d : Raw} {k : Str} {dflt : Option T} {p : RawVal → Option T} {v : RawVal} (h : d.get k = some v) :
    field d k dflt p = p v := by rw [field, h]

theorem optional_dump {T : Type} {d : Raw} {k : Str} {p : RawVal → Option T} {r : Option T} (f : T → RawVal)
    (hf : ∀ x, f x ≠ .atom .null) (h : d.get k = some (ofOption (r.map f))) (hp : ∀ x, r = some x → p (f x) = some x) :
    optional d k p = some r := by
  unfold optional
  cases r with
  | none => rw [h]; rfl
  | some x =>
    rw [h]
    simp only [Option.map_some, ofOption]
    have := hp x rfl
    split
    · simp_all
    · rename_i e; exact absurd (Option.some.inj e) (hf x)
    · rename_i e; cases e; rw [this]; rfl

theorem geo_intro {v : RawVal} {g : GeoPriorConfig} {d : Raw} (h : GeoInv env v g d) : parseGeo env v = some g := by
  unfold parseGeo
  simp only [h.dict, h.keys, h.type, h.costs, h.aggregation, h.prob, h.rate, h.inflection, h.skeleton, h.check, Option.bind_eq_bind, Option.bind_some, not_false_eq_true, if_true, Option.pure_def, guard]

theorem size_intro {v : RawVal} {g : SizePriorConfig} {d : Raw} (h : SizeInv env v g d) : parseSize env v = some g := by
  unfold parseSize
  simp only [h.dict, h.keys, h.type, h.min, h.max, Option.bind_eq_bind, Option.bind_some, if_true, Option.pure_def, guard]

theorem dirichlet_intro {v : RawVal} {g : DirichletConfig} {d : Raw} (h : DirichletInv env v g d) : parseDirichlet env v = some g := by
  unfold parseDirichlet
  simp only [h.dict, h.check, h.keys, h.type, h.file, h.parameters, Option.bind_eq_bind, Option.bind_some, not_false_eq_true, if_true, Option.pure_def, guard]

theorem prior_intro {v : RawVal} {g : PriorConfig} {d : Raw} (h : PriorInv env v g d) : parsePrior env v = some g := by
  unfold parsePrior
  simp only [h.dict, h.keys, h.conf, h.clusterEffect, h.geo, h.size, h.weights, Option.bind_eq_bind, Option.bind_some, if_true, Option.pure_def, guard]

theorem model_intro {v : RawVal} {g : ModelConfig} {d : Raw} (h : ModelInv env v g d) : parseModel env v = some g := by
  unfold parseModel
  simp only [h.dict, h.check, h.keys, h.clusters, h.confounders, h.sampleSource, h.prior, Option.bind_eq_bind, Option.bind_some, if_true, Option.pure_def, guard]

theorem operators_intro {v : RawVal} {g : OperatorsConfig} {d : Raw} (h : OperatorsInv env v g d) : parseOperators env v = some g := by
  unfold parseOperators
  simp only [h.dict, h.keys, h.clusters, h.weights, h.clusterEffect, h.confoundingEffects, h.source, Option.bind_eq_bind, Option.bind_some, if_true, Option.pure_def, guard]

theorem warmup_intro {v : RawVal} {g : WarmupConfig} {d : Raw} (h : WarmupInv env v g d) : parseWarmup env v = some g := by
  unfold parseWarmup
  simp only [h.dict, h.keys, h.steps, h.chains, Option.bind_eq_bind, Option.bind_some, if_true, Option.pure_def, guard]

theorem mcmc_intro {v : RawVal} {g : MCMCConfig} {d : Raw} (h : McmcInv env v g d) : parseMcmc env v = some g := by
  unfold parseMcmc
  simp only [h.dict, h.keys, h.steps, h.samples, h.runs, h.fromPrior, h.init, h.grow, h.operators, h.warmup, h.spacing, Option.bind_eq_bind, Option.bind_some, if_true, Option.pure_def, guard]

theorem data_intro {v : RawVal} {g : DataConfig} {d : Raw} (h : DataInv env v g d) : parseData env v = some g := by
  unfold parseData
  simp only [h.dict, h.keys, h.features, h.featureStates, h.projection, Option.bind_eq_bind, Option.bind_some, if_true, Option.pure_def, guard]

theorem results_intro {v : RawVal} {g : ResultsConfig} {d : Raw} (h : ResultsInv env v g d) : parseResults env v = some g := by
  unfold parseResults
  simp only [h.dict, h.keys, h.path, h.logFile, Option.bind_eq_bind, Option.bind_some, if_true, Option.pure_def, guard]

theorem config_intro {raw : Raw} {g : SBayesConfig} {d : Raw} (h : ConfigInv env raw g d) : parseConfig env raw = some g := by
  unfold parseConfig
  simp only [h.ops, h.keys, h.data, h.model, h.mcmc, h.results, Option.bind_eq_bind, Option.bind_some, if_true, Option.pure_def, guard]

theorem parse_dumpGeo (hb : env.base.head? = some '/') (hno : toFile env (.atom (.str (lit "from_data"))) = none) {v : RawVal}
    {g : GeoPriorConfig} (h : parseGeo env v = some g) : parseGeo env (dumpGeo g) = some g := by
  obtain ⟨d, hd⟩ := geo_inv h
  have hrate := optional_pred (fun q : ℚ => decide (0 < q) = true) hd.rate (fun v x hx => numIf_ok hx)
  have hcosts : toCosts env (match g.costs with | .fromData => .atom (.str (lit "from_data")) | .file p => .atom (.str p)) =
      some g.costs := by
    cases hc : g.costs with
    | fromData => simp only [toCosts, hno]; rfl
    | file p =>
      have hc' := hd.costs
      rw [hc] at hc'
      rcases field_cases hc' with ⟨-, h⟩ | ⟨w, -, h⟩
      · simp at h
      · unfold toCosts at h
        split at h
        · rename_i q hq
          have := Option.some.inj h
          cases this
          simp only [toCosts, toFile_abs hb hq]
        · obtain ⟨s, rfl, hs⟩ := enum_str h
          simp only [List.lookup_cons, List.lookup_nil] at hs
          split at hs <;> simp at hs
  refine geo_intro (d := _) ⟨rfl, rfl, ?_, ?_, ?_, ?_, ?_, ?_, ?_, hd.check⟩
  · exact (field_some rfl).trans (enum_geo _)
  · exact (field_some rfl).trans hcosts
  · exact (field_some rfl).trans (enum_agg _)
  · exact (field_some rfl).trans (enum_prob _)
  · exact optional_dump (fun q => .atom (.num q)) (by simp) rfl fun q hq => numIf_cast (hrate q hq)
  · exact optional_dump (fun q => .atom (.num q)) (by simp) rfl fun q hq => rfl
  · exact (field_some rfl).trans (enum_skel _)

theorem parse_dumpSize {v : RawVal} {g : SizePriorConfig} (h : parseSize env v = some g) : parseSize env (dumpSize g) = some g := by
  obtain ⟨d, hd⟩ := size_inv h
  have pos : ∀ {d : Raw} {k : Str} {n0 n : ℕ}, 0 < n0 → field d k (some n0) (toPosInt env) = some n → 0 < n :=
    fun h0 hf => field_pred (fun n => 0 < n) hf (fun x e => by cases e; exact h0) (fun v x => posInt_pos)
  refine size_intro (d := _) ⟨rfl, rfl, ?_, ?_, ?_⟩
  · exact (field_some rfl).trans (enum_size _)
  · exact (field_some rfl).trans (posInt_cast (pos (by norm_num) hd.min))
  · exact (field_some rfl).trans (posInt_cast (pos (by norm_num) hd.max))

theorem toFile_optional (hb : env.base.head? = some '/') {d : Raw} {k : Str} {r : Option Str} (h : optional d k (toFile env) = some r) :
    ∀ p, r = some p → toFile env (.atom (.str p)) = some p :=
  optional_pred (fun p => toFile env (.atom (.str p)) = some p) h fun _ _ hx => toFile_abs hb hx

theorem parse_dumpDirichlet (hb : env.base.head? = some '/') {v : RawVal} {g : DirichletConfig} (h : parseDirichlet env v = some g) :
    parseDirichlet env (dumpDirichlet g) = some g.used := by
  have hok := dirichlet_ok h
  obtain ⟨d, hd⟩ := dirichlet_inv h
  have hf := toFile_optional hb hd.file
  rcases g with ⟨t, f, p⟩
  cases t with
  | uniform => rfl
  | dirichlet =>
    cases f with
    | some f =>
      refine dirichlet_intro (d := _) ⟨rfl, by rintro ⟨-, h, -⟩; exact absurd h (by simp [isNone, mkDict, Dict.get, ofOption, lit]), rfl, ?_, ?_, ?_⟩
      · exact (field_some rfl).trans (enum_dir _)
      · exact optional_dump (fun q => .atom (.str q)) (by simp) rfl hf
      · rfl
    | none =>
      cases p with
      | none => rcases hok.given rfl with h | h <;> simp at h
      | some p =>
        refine dirichlet_intro (d := _) ⟨rfl, by rintro ⟨-, -, h⟩; exact absurd h (by simp [isNone, mkDict, Dict.get, ofOption, lit]), rfl, ?_, ?_, ?_⟩
        · exact (field_some rfl).trans (enum_dir _)
        · rfl
        · exact optional_dump Val.dict (by simp) rfl fun q _ => rfl

theorem mapDict_dump {T U : Type} {p : RawVal → Option T} (f : U → RawVal) (u : U → T) : ∀ {l : List (Str × U)},
    (∀ x ∈ l, p (f x.2) = some (u x.2)) → mapDict p (mkDict (l.map fun x => (x.1, f x.2))) = some (l.map fun x => (x.1, u x.2))
  | [], _ => rfl
  | x :: l, h => by
    simp only [List.map_cons, mkDict, mapDict, h x List.mem_cons_self, mapDict_dump f u fun y hy => h y (List.mem_cons_of_mem _ hy),
      Option.bind_eq_bind, Option.bind_some]

/-- `used` for the priors. -/
def usedPrior (g : PriorConfig) : PriorConfig :=
  { g with
    confoundingEffects := g.confoundingEffects.map fun x => (x.1, x.2.map fun y => (y.1, y.2.used))
    clusterEffect := g.clusterEffect.used
    weights := g.weights.used }

theorem parse_dumpPrior (hb : env.base.head? = some '/') (hno : toFile env (.atom (.str (lit "from_data"))) = none) {v : RawVal}
    {g : PriorConfig} (h : parsePrior env v = some g) : parsePrior env (dumpPrior g) = some (usedPrior g) := by
  obtain ⟨d, hd⟩ := prior_inv h
  refine prior_intro (d := _) ⟨rfl, rfl, ?_, ?_, ?_, ?_, ?_⟩
  · refine (field_some rfl).trans ?_
    obtain ⟨v, -, hv⟩ := required hd.conf
    obtain ⟨ed, -, hed⟩ := Option.bind_eq_some_iff.mp hv
    refine mapDict_dump (fun x : List (Str × DirichletConfig) => .dict (mkDict (x.map fun g => (g.1, dumpDirichlet g.2)))) (fun x : List (Str × DirichletConfig) => x.map fun y => (y.1, y.2.used)) fun x hx => ?_
    obtain ⟨w, hw⟩ := mapDict_mem hed x hx
    obtain ⟨fd, -, hfd⟩ := Option.bind_eq_some_iff.mp hw
    refine mapDict_dump dumpDirichlet DirichletConfig.used fun y hy => ?_
    obtain ⟨u, hu⟩ := mapDict_mem hfd y hy
    exact parse_dumpDirichlet hb hu
  · obtain ⟨v, -, hv⟩ := required hd.clusterEffect
    exact (field_some rfl).trans (parse_dumpDirichlet hb hv)
  · obtain ⟨v, -, hv⟩ := required hd.geo
    exact (field_some rfl).trans (parse_dumpGeo hb hno hv)
  · obtain ⟨v, -, hv⟩ := required hd.size
    exact (field_some rfl).trans (parse_dumpSize hv)
  · obtain ⟨v, -, hv⟩ := required hd.weights
    exact (field_some rfl).trans (parse_dumpDirichlet hb hv)

theorem mapM_str (l : List Str) : (l.map Atom.str).mapM (toStr env) = some l := by
  induction l with
  | nil => rfl
  | cons g gs ih => rw [List.map_cons, List.mapM_cons, ih]; rfl

theorem lookup_map {T U : Type} (f : T → U) (k : Str) : ∀ l : List (Str × T), (l.map fun x => (x.1, f x.2)).lookup k = (l.lookup k).map f
  | [] => rfl
  | x :: l => by
    rw [List.map_cons, List.lookup_cons, List.lookup_cons, lookup_map f k l]
    split <;> rfl

theorem havePriors_dump (P : List (Str × List (Str × DirichletConfig))) : ∀ (L : List (Str × List Str)),
    (∀ x ∈ L, ∃ Q, P.lookup x.1 = some Q ∧ ∀ g ∈ x.2, (Q.lookup g).isSome) →
    confoundersHavePriors (.dict (mkDict (P.map fun c => (c.1, .dict (mkDict (c.2.map fun g => (g.1, dumpDirichlet g.2)))))))
      (mkDict (L.map fun c => (c.1, .atom (.list (c.2.map .str))))) = true
  | [], _ => rfl
  | x :: L, h => by
    obtain ⟨Q, hQ, hg⟩ := h x List.mem_cons_self
    simp only [List.map_cons, mkDict, confoundersHavePriors, Bool.and_eq_true]
    refine ⟨?_, havePriors_dump P L fun y hy => h y (List.mem_cons_of_mem _ hy)⟩
    simp only [item, get_mkDict, lookup_map (fun c : List (Str × DirichletConfig) => Val.dict (mkDict (c.map fun g => (g.1, dumpDirichlet g.2)))), hQ,
      Option.map_some, groupsHavePriors]
    rw [List.all_eq_true]
    intro a ha
    obtain ⟨g, hgx, rfl⟩ := List.mem_map.mp ha
    simp only [contains, get_mkDict, lookup_map dumpDirichlet]
    obtain ⟨y, hy⟩ := Option.isSome_iff_exists.mp (hg g hgx)
    rw [hy]; rfl

theorem parse_dumpModel (hb : env.base.head? = some '/') (hno : toFile env (.atom (.str (lit "from_data"))) = none) {v : RawVal}
    {g : ModelConfig} (h : parseModel env v = some g) : parseModel env (dumpModel g) = some { g with prior := usedPrior g.prior } := by
  have hpr := model_priors h
  obtain ⟨d, hd⟩ := model_inv h
  refine model_intro (d := _) ⟨rfl, ?_, rfl, ?_, ?_, ?_, ?_⟩
  · show (guard (confoundersHavePriors _ _ = true) : Option Unit) = some ()
    rw [Option.guard_eq_some']
    exact havePriors_dump _ _ hpr
  · refine (field_some rfl).trans ?_
    cases g.clusters with
    | one n => rfl
    | many l =>
      show Option.map NumClusters.many ((l.map Atom.int).mapM fun a => toInt env (.atom a)) = _
      have : ((l.map Atom.int).mapM fun a => toInt env (.atom a)) = some l := by
        induction l with
        | nil => rfl
        | cons g gs ih => rw [List.map_cons, List.mapM_cons, ih]; rfl
      rw [this]; rfl
  · refine (field_some rfl).trans ?_
    have := mapDict_dump (p := toStrs env) (fun c : List Str => .atom (.list (c.map .str))) id (l := g.confounders) fun x _ => mapM_str _
    refine this.trans ?_
    simp
  · exact (field_some rfl).trans rfl
  · obtain ⟨v, -, hv⟩ := required hd.prior
    exact (field_some rfl).trans (parse_dumpPrior hb hno hv)

theorem parse_dumpMcmc {g : MCMCConfig} {o : ℚ} (ho : 0 ≤ o)
    (pos : 0 < g.steps ∧ 0 < g.samples ∧ 0 < g.runs ∧ 0 < g.initObjectsPerCluster ∧ 0 < g.warmup.steps ∧ 0 < g.warmup.chains)
    (hs : g.samples ∣ g.steps) (hg : 0 ≤ g.growToAdjacent ∧ g.growToAdjacent ≤ 1)
    (hop : 0 ≤ g.operators.clusters ∧ 0 ≤ g.operators.weights ∧ 0 ≤ g.operators.clusterEffect ∧ 0 ≤ g.operators.confoundingEffects) :
    parseMcmc env (dumpMcmc { g with operators := { g.operators with source := o } }) =
      some { g with operators := { g.operators with source := o } } := by
  refine mcmc_intro (d := _) ⟨rfl, rfl, ?_, ?_, ?_, ?_, ?_, ?_, ?_, ?_, Nat.mod_eq_zero_of_dvd hs⟩
  · exact (field_some rfl).trans (posInt_cast pos.1)
  · exact (field_some rfl).trans (posInt_cast pos.2.1)
  · exact (field_some rfl).trans (posInt_cast pos.2.2.1)
  · exact (field_some rfl).trans rfl
  · exact (field_some rfl).trans (posInt_cast pos.2.2.2.1)
  · exact (field_some rfl).trans (numIf_cast (by simpa using hg))
  · refine (field_some rfl).trans (operators_intro (d := _) ⟨rfl, rfl, ?_, ?_, ?_, ?_, ?_⟩)
    · exact (field_some rfl).trans (numIf_cast (by simpa using hop.1))
    · exact (field_some rfl).trans (numIf_cast (by simpa using hop.2.1))
    · exact (field_some rfl).trans (numIf_cast (by simpa using hop.2.2.1))
    · exact (field_some rfl).trans (numIf_cast (by simpa using hop.2.2.2))
    · exact (field_some rfl).trans (numIf_cast (by simpa using ho))
  · refine (field_some rfl).trans (warmup_intro (d := _) ⟨rfl, rfl, ?_, ?_⟩)
    · exact (field_some rfl).trans (posInt_cast pos.2.2.2.2.1)
    · exact (field_some rfl).trans (posInt_cast pos.2.2.2.2.2)

theorem toDir_abs (hb : env.base.head? = some '/') {v : RawVal} {p : Str} (h : toDir env v = some p) : p.head? = some '/' := by
  unfold toDir at h
  split at h
  · split at h
    · rw [← Option.some.inj h]; exact abs_fixPath hb _
    · simp at h
  · simp at h

/-- **C86.** `config.update({})` is the same configuration, up to parts that are not used. (Provided that the directory of the
configuration file is given as an absolute path, as `from_config_file` does, that there is no file called `from_data` in it,
and that the results directory can be created.) -/
theorem C86_update_with_nothing {raw : Raw} {c : SBayesConfig} (h : parseConfig env raw = some c)
    (hb : env.base.head? = some '/') (hno : env.isFile (env.base ++ ['/'] ++ lit "from_data") = false)
    (hres : env.canMakeDir c.results.path = true) : update env c .nil = some c.used := by
  have G := C86_accepted_configurations_are_valid h
  obtain ⟨d, hd⟩ := config_inv h
  have hno' : toFile env (.atom (.str (lit "from_data"))) = none := by
    have : fixPath env (lit "from_data") = env.base ++ ['/'] ++ lit "from_data" := if_neg (by decide)
    simp only [toFile, this, hno, Bool.false_eq_true, if_false]
  obtain ⟨ov, -, ho⟩ := required hd.model
  obtain ⟨dv, -, hda⟩ := required hd.data
  obtain ⟨dd, hdd⟩ := data_inv hda
  show parseConfig env (dump c) = some c.used
  have hmodel := parse_dumpModel hb hno' ho
  have hmcmc : ∀ o : ℚ, 0 ≤ o → _ := fun o ho' => parse_dumpMcmc (env := env) (g := c.mcmc) (o := o) ho'
    ⟨G.steps, G.samples, G.runs, G.initSize, G.warmup⟩ G.spacing G.grow
    ⟨G.operators.1, G.operators.2.1, G.operators.2.2.1, G.operators.2.2.2.1⟩
  have hdata : parseData env (.dict (mkDict [(lit "features", .atom (.str c.data.features)),
      (lit "feature_states", .atom (.str c.data.featureStates)), (lit "projection", .atom (.str c.data.projection))])) = some c.data := by
    refine data_intro (d := _) ⟨rfl, rfl, ?_, ?_, (field_some rfl).trans rfl⟩
    · obtain ⟨w, -, hw⟩ := required hdd.features
      exact (field_some rfl).trans (toFile_abs hb hw)
    · obtain ⟨w, -, hw⟩ := required hdd.featureStates
      exact (field_some rfl).trans (toFile_abs hb hw)
  have hresults : parseResults env (.dict (mkDict [(lit "path", .atom (.str c.results.path)),
      (lit "log_file", .atom (.bool c.results.logFile))])) = some c.results := by
    have habs : c.results.path.head? = some '/' := by
      refine field_pred (fun r : ResultsConfig => r.path.head? = some '/') hd.results (fun x e => by cases e; exact abs_fixPath hb (lit "./results"))
        (fun v x hx => ?_)
      obtain ⟨rd, hrd⟩ := results_inv hx
      exact field_pred (fun r : Str => r.head? = some '/') hrd.path (fun x e => by cases e; exact abs_fixPath hb _)
        (fun v x hx => toDir_abs hb hx)
    refine results_intro (d := _) ⟨rfl, rfl, (field_some rfl).trans ?_, (field_some rfl).trans rfl⟩
    simp only [toDir, fixPath_abs habs, hres, if_true]
  cases hsrc : c.model.sampleSource with
  | true =>
    have hu : c.used.mcmc = { c.mcmc with operators := { c.mcmc.operators with source := c.mcmc.operators.source } } := by
      simp [SBayesConfig.used, hsrc]
    refine config_intro (d := dump c) ⟨?_, rfl, (field_some rfl).trans hdata, (field_some rfl).trans hmodel, ?_, (field_some rfl).trans hresults⟩
    · show (if falsy (.atom (.bool c.model.sampleSource)) then _ else _) = _
      rw [hsrc]; rfl
    · rw [hu]
      exact (field_some rfl).trans (hmcmc _ G.operators.2.2.2.2)
  | false =>
    have hu : c.used.mcmc = { c.mcmc with operators := { c.mcmc.operators with source := 0 } } := by
      simp [SBayesConfig.used, hsrc]
    refine config_intro (d := dump { c with mcmc := { c.mcmc with operators := { c.mcmc.operators with source := 0 } } })
      ⟨?_, rfl, (field_some rfl).trans hdata, (field_some rfl).trans hmodel, ?_, (field_some rfl).trans hresults⟩
    · show (if falsy (.atom (.bool c.model.sampleSource)) then clearSource (dump c) else _) = _
      rw [hsrc]; rfl
    · rw [hu]
      exact (field_some rfl).trans (hmcmc _ le_rfl)

theorem only_get {ks : List Str} {k : Str} {v : RawVal} : ∀ {d : Raw}, onlyKeys ks d = true → d.get k = some v → k ∈ ks
  | .nil, _, h => by simp [Dict.get] at h
  | .cons k' w rest, ho, h => by
    simp only [onlyKeys, Bool.and_eq_true, decide_eq_true_eq] at ho
    rw [Dict.get] at h
    split at h
    · rename_i e; rw [e]; exact ho.1
    · exact only_get ho.2 h

/-- The section that `validate_operators` changed has no keys less. -/
theorem isSome_validated {raw d : Raw} (h : validateOperators raw = some d) (p : List Str) (hp : (says_at raw p).isSome) :
    p <+: sourcePath ∨ sourcePath <+: p ∨ ((Val.dict d).at p).isSome := by
  by_cases h1 : p <+: sourcePath
  · exact .inl h1
  · by_cases h2 : sourcePath <+: p
    · exact .inr (.inl h2)
    · rw [← at_validated h h1 h2]; exact .inr (.inr hp)

/-- **C86.** Unknown settings are rejected: whatever an accepted file contains in one of the sections is a known setting. -/
theorem C86_unknown_settings_are_rejected {raw : Raw} {c : SBayesConfig} (h : parseConfig env raw = some c) :
    (∀ s ∈ sectionKeys, ∀ k, (says_at raw (s.1 ++ [k])).isSome → k ∈ s.2) ∧
    ∀ name group k, (says_at raw [lit "model", lit "prior", lit "confounding_effects", name, group, k]).isSome →
      k ∈ [lit "type", lit "file", lit "parameters"] := by
  obtain ⟨d, hd⟩ := config_inv h
  obtain ⟨mv, hmv, hm⟩ := required hd.mcmc
  obtain ⟨md, hmd⟩ := mcmc_inv hm
  obtain ⟨ov, hov, ho⟩ := required hd.model
  obtain ⟨od, hod⟩ := model_inv ho
  obtain ⟨pv, hpv, hp⟩ := required hod.prior
  obtain ⟨pd, hpd⟩ := prior_inv hp
  obtain ⟨gv, hgv, hg⟩ := required hpd.geo
  obtain ⟨gd, hgd⟩ := geo_inv hg
  obtain ⟨sv, hsv, hs⟩ := required hpd.size
  obtain ⟨sd, hsd⟩ := size_inv hs
  obtain ⟨dv, hdv, hda⟩ := required hd.data
  obtain ⟨dd, hdd⟩ := data_inv hda
  obtain ⟨wv, hwv, hw⟩ := required hpd.weights
  obtain ⟨wd, hwd⟩ := dirichlet_inv hw
  obtain ⟨ev, hev, he⟩ := required hpd.clusterEffect
  obtain ⟨ed, hed⟩ := dirichlet_inv he
  have amodel : ∀ k p, says_at raw (lit "model" :: k :: p) = (od.get k).bind fun w => w.at p := fun k p => by
    rw [at_validated hd.ops (by simp [sourcePath, lit]) (by simp [sourcePath, lit]), at_dict_cons, hov, Option.bind_some,
      at_of_toDict hod.dict]
  have aprior : ∀ k p, says_at raw (lit "model" :: lit "prior" :: k :: p) = (pd.get k).bind fun w => w.at p := fun k p => by
    rw [amodel, hpv, Option.bind_some, at_of_toDict hpd.dict]
  have fin : ∀ {ks : List Str} {e : Raw} {p : List Str} {k : Str}, onlyKeys ks e = true → says_at raw p = e.get k →
      (says_at raw p).isSome → k ∈ ks := fun ho hat hp => by
    rw [hat] at hp
    obtain ⟨v, hv⟩ := Option.isSome_iff_exists.mp hp
    exact only_get ho hv
  have amcmc : ∀ k p, ¬ (lit "mcmc" :: k :: p) <+: sourcePath → ¬ sourcePath <+: (lit "mcmc" :: k :: p) →
      says_at raw (lit "mcmc" :: k :: p) = (md.get k).bind fun w => w.at p := fun k p h1 h2 => by
    rw [at_validated hd.ops h1 h2, at_dict_cons, hmv, Option.bind_some, at_of_toDict hmd.dict]
  have sub : ∀ {ks : List Str} {e : Raw} {o : Option RawVal} {p : List Str} {k : Str}, onlyKeys ks e = true →
      (∀ v, o = some v → toDict v = some e) → says_at raw p = (o.bind fun w => w.at [k]) → (says_at raw p).isSome → k ∈ ks :=
    fun {ks e o p k} ho hdict hat hsome => by
      cases o with
      | none => rw [hat] at hsome; simp at hsome
      | some v => exact fin ho (by rw [hat, Option.bind_some, at_of_toDict (hdict v rfl), bind_at_nil]) hsome
  constructor
  · intro s hs' k hk
    simp only [sectionKeys, List.mem_cons, List.not_mem_nil, or_false] at hs'
    rcases hs' with rfl | rfl | rfl | rfl | rfl | rfl | rfl | rfl | rfl | rfl | rfl | rfl
    · by_cases e : k = lit "mcmc"
      · subst e; decide
      · refine fin hd.keys (e := d) ?_ hk
        rw [List.nil_append, at_validated hd.ops (by simp [sourcePath, e]) (by simp [sourcePath, lit]), at_single]
    · refine fin hdd.keys ?_ hk
      rw [List.cons_append, List.nil_append, at_validated hd.ops (by simp [sourcePath, lit]) (by simp [sourcePath, lit]), at_dict_cons,
        hdv, Option.bind_some, at_of_toDict hdd.dict, bind_at_nil]
    · have ares : ∀ k, says_at raw [lit "results", k] = (d.get (lit "results")).bind fun w => w.at [k] := fun k => by
        rw [at_validated hd.ops (by simp [sourcePath, lit]) (by simp [sourcePath, lit]), at_dict_cons]
      rcases field_cases hd.results with ⟨hn, hx⟩ | ⟨v, hv, hx⟩
      · rw [List.cons_append, List.nil_append, ares, hn] at hk; simp at hk
      · obtain ⟨rd, hrd⟩ := results_inv hx
        exact fin hrd.keys (by rw [List.cons_append, List.nil_append, ares, hv, Option.bind_some, at_of_toDict hrd.dict, bind_at_nil]) hk
    · by_cases e : k = lit "operators"
      · subst e; decide
      · refine fin hmd.keys ?_ hk
        rw [List.cons_append, List.nil_append, amcmc k [] (by simp [sourcePath, e]) (by simp [sourcePath, Ne.symm e]), bind_at_nil]
    · by_cases e : k = lit "source"
      · subst e; decide
      · have hat : says_at raw [lit "mcmc", lit "operators", k] = (md.get (lit "operators")).bind fun w => w.at [k] :=
          amcmc _ _ (by simp [sourcePath, e]) (by simp [sourcePath, Ne.symm e])
        rcases field_cases hmd.operators with ⟨hn, hx⟩ | ⟨v, hv, hx⟩
        · change (says_at raw [lit "mcmc", lit "operators", k]).isSome = true at hk
          rw [hat, hn] at hk; simp at hk
        · obtain ⟨ud, hud⟩ := operators_inv hx
          exact fin hud.keys (hat.trans (by rw [hv, Option.bind_some, at_of_toDict hud.dict, bind_at_nil])) hk
    · have hat : says_at raw [lit "mcmc", lit "warmup", k] = (md.get (lit "warmup")).bind fun w => w.at [k] :=
        amcmc _ _ (by simp [sourcePath, lit]) (by simp [sourcePath, lit])
      rcases field_cases hmd.warmup with ⟨hn, hx⟩ | ⟨v, hv, hx⟩
      · change (says_at raw [lit "mcmc", lit "warmup", k]).isSome = true at hk
        rw [hat, hn] at hk; simp at hk
      · obtain ⟨ud, hud⟩ := warmup_inv hx
        exact fin hud.keys (hat.trans (by rw [hv, Option.bind_some, at_of_toDict hud.dict, bind_at_nil])) hk
    · exact fin hod.keys ((amodel k []).trans (bind_at_nil _)) hk
    · exact fin hpd.keys ((aprior k []).trans (bind_at_nil _)) hk
    · exact fin hed.keys ((aprior _ [k]).trans (by rw [hev, Option.bind_some, at_of_toDict hed.dict, bind_at_nil])) hk
    · exact fin hwd.keys ((aprior _ [k]).trans (by rw [hwv, Option.bind_some, at_of_toDict hwd.dict, bind_at_nil])) hk
    · exact fin hsd.keys ((aprior _ [k]).trans (by rw [hsv, Option.bind_some, at_of_toDict hsd.dict, bind_at_nil])) hk
    · exact fin hgd.keys ((aprior _ [k]).trans (by rw [hgv, Option.bind_some, at_of_toDict hgd.dict, bind_at_nil])) hk
  · intro name group k hk
    obtain ⟨cv, hcv, hc⟩ := required hpd.conf
    obtain ⟨cd, hcd, hc⟩ := Option.bind_eq_some_iff.mp hc
    rw [aprior, hcv, Option.bind_some, at_of_toDict hcd] at hk
    cases hn : cd.get name with
    | none => rw [hn] at hk; simp at hk
    | some nv =>
      obtain ⟨P, hP⟩ := mapDict_get hc hn
      obtain ⟨nd, hnd, hP⟩ := Option.bind_eq_some_iff.mp hP
      rw [hn, Option.bind_some, at_of_toDict hnd] at hk
      cases hgr : nd.get group with
      | none => rw [hgr] at hk; simp at hk
      | some grv =>
        obtain ⟨x, hx⟩ := mapDict_get hP hgr
        obtain ⟨xd, hxd⟩ := dirichlet_inv hx
        rw [hgr, Option.bind_some, at_of_toDict hxd.dict, bind_at_nil] at hk
        obtain ⟨w, hw⟩ := Option.isSome_iff_exists.mp hk
        exact only_get hxd.keys hw

/-- **C86.** The priors of the confounding effects are those of the file. -/
theorem C86_confounding_priors_are_those_of_the_file {raw : Raw} {c : SBayesConfig} (h : parseConfig env raw = some c) :
    ConfoundingSettings env raw c := by
  obtain ⟨d, hd⟩ := config_inv h
  obtain ⟨ov, hov, ho⟩ := required hd.model
  obtain ⟨od, hod⟩ := model_inv ho
  obtain ⟨pv, hpv, hp⟩ := required hod.prior
  obtain ⟨pd, hpd⟩ := prior_inv hp
  obtain ⟨cv, hcv, hc⟩ := required hpd.conf
  obtain ⟨cd, hcd, hc⟩ := Option.bind_eq_some_iff.mp hc
  intro name group P x hname hgroup
  rw [mapDict_lookup name hc] at hname
  obtain ⟨nv, hnv, hP⟩ := Option.bind_eq_some_iff.mp hname
  obtain ⟨nd, hnd, hP⟩ := Option.bind_eq_some_iff.mp hP
  rw [mapDict_lookup group hP] at hgroup
  obtain ⟨gv, hgv, hx⟩ := Option.bind_eq_some_iff.mp hgroup
  obtain ⟨xd, hxd⟩ := dirichlet_inv hx
  have hat : ∀ k, says_at raw [lit "model", lit "prior", lit "confounding_effects", name, group, k] = xd.get k := fun k => by
    rw [at_validated hd.ops (by simp [sourcePath, lit]) (by simp [sourcePath, lit]), at_dict_cons, hov, Option.bind_some,
      at_of_toDict hod.dict, hpv, Option.bind_some, at_of_toDict hpd.dict, hcv, Option.bind_some, at_of_toDict hcd, hnv,
      Option.bind_some, at_of_toDict hnd, hgv, Option.bind_some, at_of_toDict hxd.dict, bind_at_nil]
  refine ⟨enum_setting dir_names (hat _) hxd.type, fun p hpf => ?_, fun e he => ?_⟩
  · have hf := hxd.file
    rw [hpf] at hf
    rcases optional_cases hf with ⟨-, h⟩ | ⟨-, h⟩ | ⟨v, y, hv, -, hy, h⟩
    · simp at h
    · simp at h
    · cases Option.some.inj h
      exact file_setting (hat _) ((field_some hv).trans hy)
  · have hpar := hxd.parameters
    rw [hat] at he
    rcases optional_cases hpar with ⟨h, -⟩ | ⟨h, -⟩ | ⟨v, y, hv, -, hy, h⟩
    · rw [h] at he; simp at he
    · rw [h] at he; simp at he
    · rw [hv] at he
      cases Option.some.inj he
      rw [h, ← hy]; rfl

/-- **C86.** Three settings have a documented default and must be given nevertheless: `model.sample_source` and
`model.confounders` always, `mcmc.operators` if sources are not sampled. -/
theorem C86_required_despite_default (env : Env) (raw : Raw) :
    (says_at raw [lit "model", lit "sample_source"] = none → parseConfig env raw = none) ∧
    (says_at raw [lit "model", lit "confounders"] = none → parseConfig env raw = none) ∧
    (says_at raw [lit "model", lit "sample_source"] = some (.atom (.bool false)) →
      says_at raw [lit "mcmc", lit "operators"] = none → parseConfig env raw = none) := by
  refine ⟨fun hn => ?_, fun hn => ?_, fun hs hn => ?_⟩ <;> cases hc : parseConfig env raw <;> try rfl
  all_goals exfalso
  · obtain ⟨d, hd⟩ := config_inv hc
    have hv := hd.ops
    unfold validateOperators at hv
    invert hv
    obtain ⟨mo, hmo, ss, hss, hv⟩ := hv
    rw [says_at, at_dict_cons, hmo, Option.bind_some] at hn
    unfold item at hss
    split at hss
    · rw [at_single, hss] at hn; simp at hn
    · simp at hss
  · obtain ⟨d, hd⟩ := config_inv hc
    obtain ⟨ov, hov, ho⟩ := required hd.model
    obtain ⟨od, hod⟩ := model_inv ho
    rw [at_validated hd.ops (by simp [sourcePath, lit]) (by simp [sourcePath, lit]), at_dict_cons, hov, Option.bind_some,
      at_of_toDict hod.dict, bind_at_nil] at hn
    have := hod.check
    unfold validateConfounderPriors at this
    rw [hn] at this
    simp at this
  · obtain ⟨d, hd⟩ := config_inv hc
    have hv := hd.ops
    unfold validateOperators at hv
    invert hv
    obtain ⟨mo, hmo, ss, hss, hv⟩ := hv
    have : ss = .atom (.bool false) := by
      rw [says_at, at_dict_cons, hmo, Option.bind_some] at hs
      unfold item at hss
      split at hss
      · rw [at_single, hss] at hs; exact Option.some.inj hs
      · simp at hss
    subst this
    simp only [falsy, Bool.not_false, if_true] at hv
    unfold clearSource at hv
    invert hv
    obtain ⟨mv, hmv, hv⟩ := hv
    cases mv with
    | atom a => simp at hv
    | dict md =>
      rw [says_at, at_dict_cons, hmv, Option.bind_some, at_single] at hn
      simp [hn] at hv

/-- **C86.** Custom settings have precedence over the file: the configuration is that of a dictionary that agrees with the
custom settings wherever they have a value, and with the file wherever they have none. -/
theorem C86_custom_settings_come_first {raw custom : Raw} {c : SBayesConfig} (hcu : custom.Distinct)
    (h : fromConfigFile env raw (some custom) = some c) :
    ∃ merged, Settings env merged c ∧ ConfoundingSettings env merged c ∧ Guarantees env c ∧
      ∀ p, (∀ a, says_at custom p = some (.atom a) → says_at merged p = some (.atom a)) ∧
        (Open (.dict custom) p → says_at merged p = says_at raw p) :=
  ⟨updateRecursive raw custom, C86_settings_are_those_of_the_file h, C86_confounding_priors_are_those_of_the_file h,
    C86_accepted_configurations_are_valid h, fun p => ⟨(C43_update raw custom hcu p).1, (C43_update raw custom hcu p).2.2.1⟩⟩

/-- **C86.** Without custom settings it is the configuration of the file. -/
theorem C86_without_custom_settings {raw : Raw} : fromConfigFile env raw none = parseConfig env raw := rfl

/-- A configuration file that is accepted: a cost-based geo-prior, two confounders, one of them with a Dirichlet prior. -/
def exampleRaw : Raw :=
  let uniform : RawVal := .dict (mkDict [(lit "type", .atom (.str (lit "uniform")))])
  mkDict [
    (lit "data", .dict (mkDict [(lit "features", .atom (.str (lit "features.csv"))),
      (lit "feature_states", .atom (.str (lit "/data/states.csv")))])),
    (lit "model", .dict (mkDict [
      (lit "clusters", .atom (.int 3)), (lit "sample_source", .atom (.bool false)),
      (lit "confounders", .dict (mkDict [(lit "universal", .atom (.list [.str (lit "<ALL>")])),
        (lit "family", .atom (.list [.str (lit "A"), .str (lit "B")]))])),
      (lit "prior", .dict (mkDict [
        (lit "objects_per_cluster", .dict (mkDict [(lit "type", .atom (.str (lit "quadratic"))), (lit "min", .atom (.int 3))])),
        (lit "geo", .dict (mkDict [(lit "type", .atom (.str (lit "cost_based"))), (lit "rate", .atom (.int 100))])),
        (lit "weights", uniform), (lit "cluster_effect", uniform),
        (lit "confounding_effects", .dict (mkDict [(lit "universal", .dict (mkDict [(lit "<ALL>", uniform)])),
          (lit "family", .dict (mkDict [(lit "A", uniform), (lit "B", .dict (mkDict [(lit "type", .atom (.str (lit "dirichlet"))),
            (lit "file", .atom (.str (lit "b.json")))]))]))]))]))])),
    (lit "mcmc", .dict (mkDict [(lit "steps", .atom (.int 1000)), (lit "samples", .atom (.int 10)),
      (lit "operators", .dict .nil)]))]

def exampleEnv : Env where
  base := lit "/home/user"
  isFile := fun p => p ∈ [lit "/home/user/features.csv", lit "/data/states.csv", lit "/home/user/b.json"]
  canMakeDir := fun _ => true
  intOfStr := fun _ => none
  numOfStr := fun _ => none
  showInt := fun _ => []
  showNum := fun _ => []

theorem exampleRaw_accepted : (parseConfig exampleEnv exampleRaw).isSome = true := by rfl

/-- The file of the example for `C86_update_with_nothing`: the other hypotheses hold as well. -/
example : exampleEnv.base.head? = some '/' ∧ exampleEnv.isFile (exampleEnv.base ++ ['/'] ++ lit "from_data") = false := by
  constructor <;> decide

/-- `C86_custom_settings_come_first`: the example with other steps. -/
def exampleCustom : Raw := mkDict [(lit "mcmc", .dict (mkDict [(lit "steps", .atom (.int 5000))]))]

example : ∃ c, fromConfigFile exampleEnv exampleRaw (some exampleCustom) = some c ∧ c.mcmc.steps = 5000 := by
  have h : (fromConfigFile exampleEnv exampleRaw (some exampleCustom)).isSome = true := by decide
  obtain ⟨c, hc⟩ := Option.isSome_iff_exists.mp h
  have hd : exampleCustom.Distinct := by
    simp [exampleCustom, mkDict, Dict.Distinct, Val.Distinct, Dict.get]
  refine ⟨c, hc, ?_⟩
  obtain ⟨m, hs, -, -, hm⟩ := C86_custom_settings_come_first hd hc
  have := hs.steps.1 5000 ((hm [lit "mcmc", lit "steps"]).1 _ rfl)
  omega

end SBayes.Validate
