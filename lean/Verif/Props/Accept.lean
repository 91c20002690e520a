import Verif.Spec.Accept
import Verif.Props.Validate
/- Property C86: a configuration as documented is accepted. -/
namespace SBayes.Validate
open SBayes.Config
open SBayes.Log (lit)

variable {env : Env}

theorem only_keys {ks : List Str} : ∀ {d : Raw}, Only d ks → onlyKeys ks d = true
  | .nil, _ => rfl
  | .cons k v rest, h => by
    rw [onlyKeys, Bool.and_eq_true, decide_eq_true_iff]
    refine ⟨h k (by simp [Dict.get]), only_keys fun k' hk' => h k' ?_⟩
    rw [Dict.get]
    split <;> simp_all

theorem field_if {T : Type} {d : Raw} {k : Str} {x0 : T} {p : RawVal → Option T} {P : RawVal → Prop}
    (h : If d k P) (hp : ∀ v, P v → ∃ x, p v = some x) : ∃ x, field d k (some x0) p = some x := by
  unfold field
  cases hd : d.get k with
  | none => exact ⟨_, rfl⟩
  | some v => exact hp v (h v hd)

theorem field_given {T : Type} {d : Raw} {k : Str} {x0 : Option T} {p : RawVal → Option T} {P : RawVal → Prop}
    (h : Given d k P) (hp : ∀ v, P v → ∃ x, p v = some x) : ∃ x, field d k x0 p = some x := by
  obtain ⟨v, hv, hP⟩ := h
  rw [field, hv]
  exact hp v hP

theorem optional_if {T : Type} {d : Raw} {k : Str} {p : RawVal → Option T} {P : RawVal → Prop}
    (h : If d k (OrNull P)) (hp : ∀ v, P v → ∃ x, p v = some x) : ∃ x, optional d k p = some x := by
  unfold optional
  split
  · exact ⟨_, rfl⟩
  · exact ⟨_, rfl⟩
  · rename_i v hne hv
    rcases h v hv with rfl | hP
    · exact absurd rfl hne
    · obtain ⟨x, hx⟩ := hp v hP
      exact ⟨some x, by rw [hx]; rfl⟩

theorem posInt_ok (v : RawVal) (h : PosIntValue v) : ∃ x, toPosInt env v = some x := by
  obtain ⟨n, hn, rfl⟩ := h
  exact ⟨n.toNat, by simp [toPosInt, toInt, hn]⟩

theorem num_ok {ok : ℚ → Prop} (v : RawVal) (h : NumValue ok v) : ∃ q, ok q ∧ toNum env v = some q := by
  rcases h with ⟨q, hq, rfl⟩ | ⟨n, hn, rfl⟩
  · exact ⟨q, hq, rfl⟩
  · exact ⟨n, hn, rfl⟩

theorem numIf_accepts {ok : ℚ → Prop} [DecidablePred ok] (v : RawVal) (h : NumValue ok v) : ∃ q, toNumIf env (fun q => decide (ok q)) v = some q := by
  obtain ⟨q, hq, e⟩ := num_ok (env := env) v h
  exact ⟨q, by simp [toNumIf, e, hq]⟩

theorem switch_ok (v : RawVal) (h : SwitchValue v) : ∃ b, toBool v = some b := by
  rcases h with ⟨b, rfl⟩ | ⟨s, b, hs, rfl⟩
  · exact ⟨b, rfl⟩
  · unfold toBool
    dsimp only
    split_ifs with h1 h2
    · exact ⟨_, rfl⟩
    · exact ⟨_, rfl⟩
    · cases b
      · exact absurd hs h1
      · exact absurd hs h2

theorem name_ok {T : Type} {name : T → Str} {table : List (Str × T)} (hn : ∀ t, table.lookup (name t) = some t) (v : RawVal)
    (h : NameValue name v) : ∃ t, toEnum table v = some t := by
  obtain ⟨t, rfl⟩ := h
  exact ⟨t, hn t⟩

theorem geo_lookup : ∀ t, geoTypes.lookup (geoName t) = some t := by intro t; cases t <;> rfl
theorem agg_lookup : ∀ t, aggTypes.lookup (aggName t) = some t := by intro t; cases t <;> rfl
theorem prob_lookup : ∀ t, probTypes.lookup (probName t) = some t := by intro t; cases t <;> rfl
theorem skeleton_lookup : ∀ t, skeletons.lookup (skeletonName t) = some t := by intro t; cases t <;> rfl
theorem size_lookup : ∀ t, sizeTypes.lookup (sizeName t) = some t := by intro t; cases t <;> rfl
theorem dir_lookup : ∀ t, dirTypes.lookup (dirName t) = some t := by intro t; cases t <;> rfl

theorem file_ok (v : RawVal) (h : FileValue env v) : ∃ x, toFile env v = some x := by
  obtain ⟨s, rfl, hs⟩ := h
  exact ⟨fixPath env s, if_pos hs⟩

theorem dirpath_ok (v : RawVal) (h : DirValue env v) : ∃ x, toDir env v = some x := by
  obtain ⟨s, rfl, hs⟩ := h
  exact ⟨fixPath env s, if_pos hs⟩

theorem mapDict_ok {T : Type} {p : RawVal → Option T} : ∀ {d : Raw}, d.Distinct → (∀ k v, d.get k = some v → ∃ x, p v = some x) →
    ∃ l, mapDict p d = some l
  | .nil, _, _ => ⟨[], rfl⟩
  | .cons k v rest, hd, h => by
    rw [Dict.Distinct] at hd
    obtain ⟨x, hx⟩ := h k v (by simp [Dict.get])
    obtain ⟨l, hl⟩ := mapDict_ok hd.2.2 fun k' v' h' => h k' v' (by
      rw [Dict.get, if_neg]
      · exact h'
      · intro e; rw [e] at h'; rw [hd.1] at h'; simp at h')
    exact ⟨(k, x) :: l, by simp [mapDict, hx, hl]⟩

theorem dirichlet_good (v : RawVal) (h : DictValue (DirichletGood env) v) : ∃ c, parseDirichlet env v = some c := by
  obtain ⟨d, rfl, h⟩ := h
  obtain ⟨t, ht⟩ := field_if (x0 := DirType.uniform) h.type (name_ok dir_lookup)
  obtain ⟨f, hf⟩ := optional_if h.file file_ok
  obtain ⟨p, hp⟩ := optional_if (p := toDict) h.parameters (by rintro v ⟨e, rfl, -⟩; exact ⟨e, rfl⟩)
  refine ⟨⟨t, f, p⟩, dirichlet_intro (d := d) ⟨rfl, ?_, only_keys h.only, ht, hf, hp⟩⟩
  rintro ⟨h1, h2, h3⟩
  unfold saysDirichlet at h1
  split at h1
  · rename_i s hs
    rw [beq_iff_eq] at h1
    subst h1
    rcases h.given hs with ⟨w, hw, s, rfl, -⟩ | ⟨w, hw, e, rfl, -⟩
    · simp [isNone, hw] at h2
    · simp [isNone, hw] at h3
  · simp at h1

theorem geo_good (v : RawVal) (h : DictValue (GeoGood env) v) : ∃ c, parseGeo env v = some c := by
  obtain ⟨d, rfl, h⟩ := h
  obtain ⟨t, ht⟩ := field_if (x0 := GeoType.uniform) h.type (name_ok geo_lookup)
  obtain ⟨co, hco⟩ := field_if (x0 := Costs.fromData) (p := toCosts env) h.costs (fun v hv => by
    unfold toCosts
    rcases hf : toFile env v with _ | f
    · rcases hv with hv | rfl
      · obtain ⟨x, hx⟩ := file_ok v hv
        rw [hx] at hf; simp at hf
      · exact ⟨.fromData, rfl⟩
    · exact ⟨.file f, rfl⟩)
  obtain ⟨ag, hag⟩ := field_if (x0 := AggType.mean) h.aggregation (name_ok agg_lookup)
  obtain ⟨pr, hpr⟩ := field_if (x0 := ProbType.exponential) h.prob (name_ok prob_lookup)
  obtain ⟨ra, hra⟩ := optional_if h.rate (numIf_accepts (env := env))
  obtain ⟨inf, hinf⟩ := optional_if (p := toNum env) h.inflection (fun v hv => by obtain ⟨q, -, e⟩ := num_ok (env := env) v hv; exact ⟨q, e⟩)
  obtain ⟨sk, hsk⟩ := field_if (x0 := Skeleton.mst) h.skeleton (name_ok skeleton_lookup)
  refine ⟨⟨t, co, ag, pr, ra, inf, sk⟩, geo_intro (d := d) ⟨rfl, only_keys h.only, ht, hco, hag, hpr, hra, hinf, hsk, ?_⟩⟩
  rintro ⟨h1, h2⟩
  dsimp only at h1 h2
  subst h1
  rcases field_cases ht with ⟨-, e⟩ | ⟨w, hw, e⟩
  · simp at e
  · obtain ⟨t', rfl⟩ := h.type w hw
    have e' : some t' = some GeoType.costBased := by rw [← geo_lookup t']; exact e
    cases Option.some.inj e'
    obtain ⟨w', hw', hn⟩ := h.costBased hw
    rcases optional_cases hra with ⟨e, -⟩ | ⟨e, -⟩ | ⟨_, x, -, -, -, rfl⟩
    · rw [hw'] at e; simp at e
    · rw [hw'] at e
      rcases hn with ⟨q, -, rfl⟩ | ⟨n, -, rfl⟩ <;> simp at e
    · simp at h2

theorem size_good (v : RawVal) (h : DictValue SizeGood v) : ∃ c, parseSize env v = some c := by
  obtain ⟨d, rfl, h⟩ := h
  obtain ⟨t, ht⟩ := field_given (x0 := none) h.type (name_ok size_lookup)
  obtain ⟨a, ha⟩ := field_if (x0 := 2) h.min (posInt_ok (env := env))
  obtain ⟨b, hb⟩ := field_if (x0 := 10000) h.max (posInt_ok (env := env))
  exact ⟨⟨t, a, b⟩, size_intro (d := d) ⟨rfl, only_keys h.only, ht, ha, hb⟩⟩

theorem distinct_get {d : Raw} {k : Str} {v : RawVal} (hd : d.Distinct) (h : d.get k = some v) : v.Distinct := by
  match d, hd with
  | .nil, _ => simp [Dict.get] at h
  | .cons k' w rest, hd =>
    rw [Dict.Distinct] at hd
    rw [Dict.get] at h
    split at h
    · cases Option.some.inj h; exact hd.2.1
    · exact distinct_get hd.2.2 h

theorem distinct_dict {d e : Raw} {k : Str} (hd : d.Distinct) (h : d.get k = some (.dict e)) : e.Distinct := by
  have := distinct_get hd h
  rwa [Val.Distinct] at this

theorem prior_good {d : Raw} (hd : d.Distinct) (h : PriorGood env d) : ∃ c, parsePrior env (.dict d) = some c := by
  obtain ⟨cv, hcv, ce, rfl, hce⟩ := h.conf
  have hc1 : ∃ l, mapDict (fun v => (toDict v).bind (mapDict (parseDirichlet env))) ce = some l :=
    mapDict_ok (distinct_dict hd hcv) fun name v hv => by
      obtain ⟨g, rfl, hg⟩ := hce name v hv
      show ∃ x, mapDict (parseDirichlet env) g = some x
      exact mapDict_ok (distinct_dict (distinct_dict hd hcv) hv) fun group w hw => dirichlet_good w (hg group w hw)
  obtain ⟨l, hl⟩ := hc1
  obtain ⟨ef, hef⟩ := field_given (x0 := none) h.clusterEffect dirichlet_good
  obtain ⟨ge, hge⟩ := field_given (x0 := none) h.geo geo_good
  obtain ⟨sz, hsz⟩ := field_given (x0 := none) h.size (size_good (env := env))
  obtain ⟨wt, hwt⟩ := field_given (x0 := none) h.weights dirichlet_good
  refine ⟨⟨l, ef, ge, sz, wt⟩, prior_intro (d := d) ⟨rfl, only_keys h.only, ?_, hef, hge, hsz, hwt⟩⟩
  rw [field, hcv]
  exact hl

theorem strs_ok (l : List Str) : (l.map Atom.str).mapM (toStr env) = some l := by
  induction l with
  | nil => rfl
  | cons g gs ih => rw [List.map_cons, List.mapM_cons, ih]; rfl

theorem confs_ok {e : Raw} : ∀ {cs : Raw}, cs.Distinct →
    (∀ name v, cs.get name = some v → ∃ groups : List Str, v = .atom (.list (groups.map .str)) ∧
      Given e name (DictValue fun g => ∀ x ∈ groups, (g.get x).isSome)) →
    confoundersHavePriors (.dict e) cs = true
  | .nil, _, _ => rfl
  | .cons k v rest, hd, h => by
    rw [Dict.Distinct] at hd
    rw [confoundersHavePriors, Bool.and_eq_true]
    constructor
    · obtain ⟨groups, rfl, w, hw, g, rfl, hg⟩ := h k v (by simp [Dict.get])
      simp only [item, hw, groupsHavePriors]
      rw [List.all_eq_true]
      intro a ha
      obtain ⟨x, hx, rfl⟩ := List.mem_map.mp ha
      exact hg x hx
    · refine confs_ok hd.2.2 fun k' v' h' => h k' v' ?_
      rw [Dict.get, if_neg]
      · exact h'
      · intro e; rw [e] at h'; rw [hd.1] at h'; simp at h'

theorem model_good {d : Raw} (hd : d.Distinct) (h : ModelGood env d) : ∃ c, parseModel env (.dict d) = some c := by
  obtain ⟨pv, hpv, pd, rfl, hpd, hcg⟩ := h.prior
  obtain ⟨p, hp⟩ := prior_good (distinct_dict hd hpv) hpd
  obtain ⟨cl, hcl⟩ := field_if (x0 := NumClusters.one 1) (p := toClusters env) h.clusters (fun v hv => by
    rcases hv with ⟨n, rfl⟩ | ⟨l, rfl⟩
    · exact ⟨.one n, rfl⟩
    · have hm : (l.map Atom.int).mapM (fun a => toInt env (.atom a)) = some l := by
        induction l with
        | nil => rfl
        | cons g gs ih => rw [List.map_cons, List.mapM_cons, ih]; rfl
      refine ⟨.many l, ?_⟩
      show ((l.map Atom.int).mapM fun a => toInt env (.atom a)).map NumClusters.many = _
      rw [hm]; rfl)
  obtain ⟨ss, hss⟩ := field_given (x0 := some true) h.sampleSource switch_ok
  obtain ⟨cv, hcv, cs, rfl, hcs⟩ := hcg
  have hcsd := distinct_dict hd hcv
  have hc1 : ∃ l, mapDict (toStrs env) cs = some l := mapDict_ok hcsd fun name v hv => by
    obtain ⟨groups, rfl, -⟩ := hcs name v hv
    exact ⟨groups, strs_ok groups⟩
  obtain ⟨l, hl⟩ := hc1
  refine ⟨⟨cl, l, ss, p⟩, model_intro (d := d) ⟨rfl, ?_, only_keys h.only, hcl, ?_, hss, ?_⟩⟩
  · obtain ⟨ev, hev, e, rfl, -⟩ := hpd.conf
    unfold validateConfounderPriors
    have hit : ((d.get (lit "prior")).bind fun p => item p (lit "confounding_effects")) = some (.dict e) := by
      rw [hpv]; exact hev
    have : confoundersHavePriors (.dict e) cs = true := confs_ok hcsd fun name v hv => by
      obtain ⟨groups, rfl, w, hw, e', rfl, he'⟩ := hcs name v hv
      rw [hev] at hw
      cases Option.some.inj hw
      exact ⟨groups, rfl, he'⟩
    simp only [hcv, hit, this, Option.bind_eq_bind, Option.bind_some, guard, if_true, Option.pure_def]
  · rw [field, hcv]; exact hl
  · rw [field, hpv]; exact hp

theorem operators_good (v : RawVal) (h : DictValue OperatorsGood v) : ∃ c, parseOperators env v = some c := by
  obtain ⟨d, rfl, h⟩ := h
  obtain ⟨a, ha⟩ := field_if (x0 := 45) (h.nonneg (lit "clusters")) (numIf_accepts (env := env))
  obtain ⟨b, hb⟩ := field_if (x0 := 15) (h.nonneg (lit "weights")) (numIf_accepts (env := env))
  obtain ⟨c, hc⟩ := field_if (x0 := 5) (h.nonneg (lit "cluster_effect")) (numIf_accepts (env := env))
  obtain ⟨e, he⟩ := field_if (x0 := 15) (h.nonneg (lit "confounding_effects")) (numIf_accepts (env := env))
  obtain ⟨f, hf⟩ := field_if (x0 := 10) (h.nonneg (lit "source")) (numIf_accepts (env := env))
  exact ⟨⟨a, b, c, e, f⟩, operators_intro (d := d) ⟨rfl, only_keys h.only, ha, hb, hc, he, hf⟩⟩

theorem warmup_good (v : RawVal) (h : DictValue WarmupGood v) : ∃ c, parseWarmup env v = some c := by
  obtain ⟨d, rfl, h⟩ := h
  obtain ⟨a, ha⟩ := field_if (x0 := 50000) (h.pos (lit "warmup_steps")) (posInt_ok (env := env))
  obtain ⟨b, hb⟩ := field_if (x0 := 10) (h.pos (lit "warmup_chains")) (posInt_ok (env := env))
  exact ⟨⟨a, b⟩, warmup_intro (d := d) ⟨rfl, only_keys h.only, ha, hb⟩⟩

theorem int_field {d : Raw} {k : Str} (dflt : ℕ) (h : If d k PosIntValue) :
    ∃ n : ℕ, field d k (some dflt) (toPosInt env) = some n ∧ IntIs d k dflt n := by
  unfold field IntIs
  cases hd : d.get k with
  | none => exact ⟨dflt, rfl, Or.inr ⟨rfl, rfl⟩⟩
  | some v =>
    obtain ⟨n, hn, rfl⟩ := h v hd
    refine ⟨n.toNat, by simp [toPosInt, toInt, hn], Or.inl ?_⟩
    rw [Int.toNat_of_nonneg hn.le]

theorem mcmc_good (v : RawVal) (h : DictValue McmcGood v) : ∃ c, parseMcmc env v = some c := by
  obtain ⟨d, rfl, h⟩ := h
  obtain ⟨st, hst, ist⟩ := int_field (env := env) 1000000 (h.ints (lit "steps") (by simp))
  obtain ⟨sa, hsa, isa⟩ := int_field (env := env) 1000 (h.ints (lit "samples") (by simp))
  obtain ⟨ru, hru, -⟩ := int_field (env := env) 1 (h.ints (lit "runs") (by simp))
  obtain ⟨ini, hini, -⟩ := int_field (env := env) 5 (h.ints (lit "init_objects_per_cluster") (by simp))
  obtain ⟨fp, hfp⟩ := field_if (x0 := false) h.fromPrior switch_ok
  obtain ⟨gr, hgr⟩ := field_if (x0 := 4 / 5) h.grow (numIf_accepts (env := env))
  obtain ⟨op, hop⟩ := field_if (x0 := defaultOperators) h.operators (operators_good (env := env))
  obtain ⟨wa, hwa⟩ := field_if (x0 := (⟨50000, 10⟩ : WarmupConfig)) h.warmup (warmup_good (env := env))
  refine ⟨⟨st, sa, ru, fp, ini, gr, op, wa⟩, mcmc_intro (d := d) ⟨rfl, only_keys h.only, hst, hsa, hru, hfp, hini, hgr, hop, hwa, ?_⟩⟩
  exact Nat.mod_eq_zero_of_dvd (Int.natCast_dvd_natCast.mp (h.spacing _ _ ist isa))

theorem data_good (v : RawVal) (h : DictValue (DataGood env) v) : ∃ c, parseData env v = some c := by
  obtain ⟨d, rfl, h⟩ := h
  obtain ⟨a, ha⟩ := field_given (x0 := none) h.features file_ok
  obtain ⟨b, hb⟩ := field_given (x0 := none) h.featureStates file_ok
  obtain ⟨c, hc⟩ := field_if (x0 := lit "epsg:4326") (p := toStrVal env) h.projection (by rintro v ⟨s, rfl⟩; exact ⟨s, rfl⟩)
  exact ⟨⟨a, b, c⟩, data_intro (d := d) ⟨rfl, only_keys h.only, ha, hb, hc⟩⟩

theorem results_good (v : RawVal) (h : DictValue (ResultsGood env) v) : ∃ c, parseResults env v = some c := by
  obtain ⟨d, rfl, h⟩ := h
  obtain ⟨a, ha⟩ := field_if (x0 := fixPath env (lit "./results")) h.path dirpath_ok
  obtain ⟨b, hb⟩ := field_if (x0 := true) h.logFile switch_ok
  exact ⟨⟨a, b⟩, results_intro (d := d) ⟨rfl, only_keys h.only, ha, hb⟩⟩

theorem only_set {d : Raw} {ks : List Str} {k : Str} {v : RawVal} (h : Only d ks) (hk : k ∈ ks) : Only (d.set k v) ks := by
  intro x hx
  rw [get_set] at hx
  split at hx
  · rename_i e; rw [e]; exact hk
  · exact h x hx

theorem operators_set {d : Raw} (h : OperatorsGood d) : OperatorsGood (d.set (lit "source") (.atom (.num 0))) := by
  refine ⟨only_set h.only (by simp), fun k v hv => ?_⟩
  rw [get_set] at hv
  split at hv
  · cases Option.some.inj hv; exact Or.inl ⟨0, le_refl _, rfl⟩
  · exact h.nonneg k v hv

theorem mcmc_set {d o : Raw} (h : McmcGood d) (ho : OperatorsGood o) : McmcGood (d.set (lit "operators") (.dict o)) := by
  have hne : ∀ k, k ≠ lit "operators" → (d.set (lit "operators") (.dict o)).get k = d.get k := fun k hk => by
    rw [get_set, if_neg hk]
  refine ⟨only_set h.only (by simp), fun k hk => ?_, ?_, ?_, ?_, ?_, ?_⟩
  · unfold If
    rw [hne k (by rintro rfl; revert hk; decide)]
    exact h.ints k hk
  · unfold If; rw [hne _ (by decide)]; exact h.fromPrior
  · unfold If; rw [hne _ (by decide)]; exact h.grow
  · intro v hv
    rw [get_set, if_pos rfl] at hv
    cases Option.some.inj hv
    exact ⟨o, rfl, ho⟩
  · unfold If; rw [hne _ (by decide)]; exact h.warmup
  · intro n m hn hm
    unfold IntIs at hn hm
    rw [hne _ (by decide)] at hn hm
    exact h.spacing n m hn hm

/-- **C86.** A configuration with the documented sections and settings, each of the documented type and range, is accepted. -/
theorem C86_documented_configurations_are_accepted {raw : Raw} (hd : raw.Distinct) (h : ConfigGood env raw) :
    ∃ c, parseConfig env raw = some c := by
  obtain ⟨dv, hdv, hdata⟩ := h.data
  obtain ⟨mv, hmv, md, rfl, hmodel⟩ := h.model
  obtain ⟨cv, hcv, cd, rfl, hmcmc⟩ := h.mcmc
  obtain ⟨sv, hsv, -⟩ := hmodel.sampleSource
  obtain ⟨da, hda⟩ := data_good dv hdata
  obtain ⟨mo, hmo⟩ := model_good (distinct_dict hd hmv) hmodel
  have hsays : says_at raw [lit "model", lit "sample_source"] = some sv := by
    rw [says_at, at_dict_cons, hmv, Option.bind_some, at_single, hsv]
  obtain ⟨d, hops, honly, hcd', hget⟩ : ∃ d, validateOperators raw = some d ∧ Only d [lit "data", lit "model", lit "mcmc", lit "results"] ∧
      Given d (lit "mcmc") (DictValue McmcGood) ∧ ∀ k, k ≠ lit "mcmc" → d.get k = raw.get k := by
    by_cases hf : falsy sv = true
    · have hop := h.noSource sv hsays ((falsy_iff sv).mp hf)
      rw [says_at, at_dict_cons, hcv, Option.bind_some, at_single] at hop
      obtain ⟨ov, hov⟩ := Option.isSome_iff_exists.mp hop
      obtain ⟨od, rfl, hod⟩ := hmcmc.operators ov hov
      refine ⟨raw.set (lit "mcmc") (.dict (cd.set (lit "operators") (.dict (od.set (lit "source") (.atom (.num 0)))))), ?_,
        only_set h.only (by simp), ⟨_, by rw [get_set, if_pos rfl], _, rfl, mcmc_set hmcmc (operators_set hod)⟩,
        fun k hk => by rw [get_set, if_neg hk]⟩
      unfold validateOperators clearSource
      simp only [hmv, item, hsv, hf, if_true, hcv, hov, Option.bind_eq_bind, Option.bind_some]
    · refine ⟨raw, ?_, h.only, ⟨_, hcv, _, rfl, hmcmc⟩, fun _ _ => rfl⟩
      unfold validateOperators
      simp only [hmv, item, hsv, hf, Option.bind_eq_bind, Option.bind_some, if_false, Bool.false_eq_true]
  obtain ⟨mc, hmc⟩ := field_given (x0 := none) hcd' (mcmc_good (env := env))
  obtain ⟨re, hre⟩ := field_if (d := d) (k := lit "results") (x0 := (⟨fixPath env (lit "./results"), true⟩ : ResultsConfig))
    (P := DictValue (ResultsGood env)) (by unfold If; rw [hget _ (by decide)]; exact h.results) results_good
  refine ⟨⟨da, mo, mc, re⟩, config_intro (d := d) ⟨hops, only_keys honly, ?_, ?_, hmc, hre⟩⟩
  · rw [field, hget _ (by decide), hdv]; exact hda
  · rw [field, hget _ (by decide), hmv]; exact hmo

/-! ### Examples -/

theorem only_of {ks : List Str} {d : Raw} (h : onlyKeys ks d = true) : Only d ks := fun k hk => by
  obtain ⟨v, hv⟩ := Option.isSome_iff_exists.mp hk
  exact only_get h hv

theorem if_none {d : Raw} {k : Str} {P : RawVal → Prop} (h : d.get k = none) : If d k P := fun v hv => by rw [h] at hv; simp at hv

theorem if_some {d : Raw} {k : Str} {P : RawVal → Prop} (v : RawVal) (h : d.get k = some v) (hp : P v) : If d k P :=
  fun w hw => by rw [h] at hw; cases Option.some.inj hw; exact hp

theorem all_nil {P : Str → RawVal → Prop} : ∀ k, If .nil k (P k) := fun _ _ h => by simp [Dict.get] at h

theorem all_cons {P : Str → RawVal → Prop} {k0 : Str} {v0 : RawVal} {rest : Raw} (h0 : P k0 v0) (h : ∀ k, If rest k (P k)) :
    ∀ k, If (.cons k0 v0 rest) k (P k) := fun k v hv => by
  rw [Dict.get] at hv
  split at hv
  · rename_i e; subst e; cases Option.some.inj hv; exact h0
  · exact h k v hv

theorem uniform_good : DirichletGood env (mkDict [(lit "type", .atom (.str (lit "uniform")))]) :=
  ⟨only_of rfl, if_some _ rfl ⟨.uniform, rfl⟩, if_none rfl, if_none rfl, fun h => by
    have h : some (Val.atom (Atom.str (lit "uniform")) : RawVal) = some (.atom (.str (lit "dirichlet"))) := h
    simp [lit] at h⟩

/-- The example file is as documented. -/
theorem exampleRaw_good : exampleRaw.Distinct ∧ ConfigGood exampleEnv exampleRaw := by
  refine ⟨by simp [exampleRaw, mkDict, Dict.Distinct, Val.Distinct, Dict.get, lit], ?_⟩
  refine ⟨only_of rfl, ?_, ?_, ?_, if_none rfl, fun _ _ _ => rfl⟩
  · exact ⟨_, rfl, _, rfl, only_of rfl, ⟨_, rfl, _, rfl, rfl⟩, ⟨_, rfl, _, rfl, rfl⟩, if_none rfl⟩
  · refine ⟨_, rfl, _, rfl, only_of rfl, if_some _ rfl (Or.inl ⟨3, rfl⟩), ⟨_, rfl, Or.inl ⟨false, rfl⟩⟩, ⟨_, rfl, _, rfl, ?_, ?_⟩⟩
    · refine ⟨only_of rfl, ⟨_, rfl, _, rfl, ?_⟩, ⟨_, rfl, _, rfl, uniform_good⟩, ⟨_, rfl, _, rfl, ?_⟩, ⟨_, rfl, _, rfl, ?_⟩,
        ⟨_, rfl, _, rfl, uniform_good⟩⟩
      · refine all_cons ⟨_, rfl, all_cons ⟨_, rfl, uniform_good⟩ all_nil⟩ (all_cons ⟨_, rfl, all_cons ⟨_, rfl, uniform_good⟩
          (all_cons ⟨_, rfl, ?_⟩ all_nil)⟩ all_nil)
        exact ⟨only_of rfl, if_some _ rfl ⟨.dirichlet, rfl⟩, if_some _ rfl (Or.inr ⟨_, rfl, rfl⟩), if_none rfl,
          fun _ => Or.inl ⟨_, rfl, _, rfl, rfl⟩⟩
      · exact ⟨only_of rfl, if_some _ rfl ⟨.costBased, rfl⟩, if_none rfl, if_none rfl, if_none rfl,
          if_some _ rfl (Or.inr (Or.inr ⟨100, by norm_num, rfl⟩)), if_none rfl, if_none rfl, fun _ => ⟨_, rfl, Or.inr ⟨100, by norm_num, rfl⟩⟩⟩
      · exact ⟨only_of rfl, ⟨_, rfl, .quadratic, rfl⟩, if_some _ rfl ⟨3, by norm_num, rfl⟩, if_none rfl⟩
    · refine ⟨_, rfl, _, rfl, all_cons ⟨[lit "<ALL>"], rfl, _, rfl, _, rfl, _, rfl, _, rfl, by decide⟩
        (all_cons ⟨[lit "A", lit "B"], rfl, _, rfl, _, rfl, _, rfl, _, rfl, by decide⟩ all_nil)⟩
  · refine ⟨_, rfl, _, rfl, only_of rfl, ?_, if_none rfl, if_none rfl, if_some _ rfl ⟨_, rfl, only_of rfl, all_nil⟩, if_none rfl, ?_⟩
    · intro k hk
      simp only [List.mem_cons, List.not_mem_nil, or_false] at hk
      rcases hk with rfl | rfl | rfl | rfl
      · exact if_some _ rfl ⟨1000, by norm_num, rfl⟩
      · exact if_some _ rfl ⟨10, by norm_num, rfl⟩
      · exact if_none rfl
      · exact if_none rfl
    · rintro n m (hn | ⟨hn, -⟩) (hm | ⟨hm, -⟩)
      · have hn : some (Val.atom (Atom.int 1000) : RawVal) = some (.atom (.int n)) := hn
        have hm : some (Val.atom (Atom.int 10) : RawVal) = some (.atom (.int m)) := hm
        simp only [Option.some.injEq, Val.atom.injEq, Atom.int.injEq] at hn hm
        subst hn hm
        norm_num
      all_goals first | exact absurd hn (by decide) | exact absurd hm (by decide)

/-- **C86**, finding: text for a switch (as in JSON, or in YAML with quotes) is understood by the model but not by the operators: without sources,
as the word `no` says, the frequency of the source operator stays as it is. -/
theorem C86_no_in_quotes {raw : Raw} {c : SBayesConfig} (h : parseConfig env raw = some c)
    (hs : says_at raw [lit "model", lit "sample_source"] = some (.atom (.str (lit "no")))) :
    c.model.sampleSource = false ∧
    (says_at raw [lit "mcmc", lit "operators", lit "source"] = none → c.mcmc.operators.source = 10) := by
  have S := C86_settings_are_those_of_the_file h
  constructor
  · have := S.sampleSource.2.2.2.1 _ hs
    cases hb : c.model.sampleSource
    · rfl
    · rw [hb] at this; exact absurd this (by decide)
  · exact (S.opSource _ hs (by simp [PyFalse, lit])).2.2.2.2

/-- `C86_no_in_quotes` applies to the example with `"no"`. -/
example : ∃ raw c, parseConfig exampleEnv raw = some c ∧ says_at raw [lit "model", lit "sample_source"] = some (.atom (.str (lit "no"))) ∧
    c.mcmc.operators.source = 10 := by
  have h : (parseConfig exampleEnv (updateRecursive exampleRaw
      (mkDict [(lit "model", .dict (mkDict [(lit "sample_source", .atom (.str (lit "no")))]))]))).isSome = true := by decide
  obtain ⟨c, hc⟩ := Option.isSome_iff_exists.mp h
  exact ⟨_, c, hc, rfl, (C86_no_in_quotes hc rfl).2 rfl⟩

end SBayes.Validate
