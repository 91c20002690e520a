import Verif.Spec.Cache
import Verif.Lemmas.Likelihood
/- Invariants of samples with caches. -/
namespace SBayes.Cache
open SBayes.Lik
open scoped BigOperators
set_option linter.unusedSectionVars false
variable {𝕜 : Type} [Field 𝕜] {K N F S M G : ℕ} {nG : Fin M → ℕ} {α : Type}

/-! ### Grouped parameters and cached group versions -/

def GP.WF (p : GP G α) : Prop := ∀ g, p.gver g ≤ p.version

/-- cached group versions `cg` were taken when the value was `snap` -/
def GSync (p : GP G α) (cg : Fin G → Option ℕ) (snap : Fin G → α) : Prop :=
  ∀ g m, cg g = some m → m ≤ p.version ∧ (m = p.gver g → p.value g = snap g)

/-- cached version `v` was taken together with the cached group versions -/
def VSync (p : GP G α) (cg : Fin G → Option ℕ) (v : ℕ) : Prop :=
  v ≤ p.version ∧ (v = p.version → ∀ g, cg g = some (p.gver g))

theorem GP.WF.edit {p : GP G α} (h : p.WF) (g : Fin G) (f) : (p.editGroup g f).WF := by
  intro g'
  by_cases hg : g' = g
  · subst hg; simp [GP.editGroup]
  · simp only [GP.editGroup, Function.update_of_ne hg]; exact Nat.le_succ_of_le (h g')

theorem GP.WF.editAll {p : GP G α} (h : p.WF) (f) : (p.editAll f).WF :=
  fun g => Nat.le_succ_of_le (h g)

theorem GSync.edit {p : GP G α} {cg snap} (h : GSync p cg snap) (g : Fin G) (f) :
    GSync (p.editGroup g f) cg snap := by
  intro g' m hm
  obtain ⟨h1, h2⟩ := h g' m hm
  refine ⟨Nat.le_succ_of_le h1, fun hv => ?_⟩
  by_cases hg : g' = g
  · subst hg; simp only [GP.editGroup, Function.update_self] at hv; omega
  · simp only [GP.editGroup, Function.update_of_ne hg] at hv ⊢; exact h2 hv

theorem VSync.edit {p : GP G α} {cg v} (h : VSync p cg v) (g : Fin G) (f) :
    VSync (p.editGroup g f) cg v :=
  ⟨Nat.le_succ_of_le h.1, fun hv => by
    have := h.1; simp only [GP.editGroup] at hv; omega⟩

theorem GSync.refl {p : GP G α} (h : p.WF) : GSync p (fun g => some (p.gver g)) p.value := by
  intro g m hm
  simp only [Option.some.injEq] at hm
  exact ⟨hm ▸ h g, fun _ => rfl⟩

theorem VSync.refl (p : GP G α) : VSync p (fun g => some (p.gver g)) p.version :=
  ⟨le_refl _, fun _ _ => rfl⟩

theorem GSync.value_eq {p : GP G α} {cg snap v} (h : GSync p cg snap) (hv : VSync p cg v)
    (he : v = p.version) : p.value = snap := by
  funext g
  exact (h g _ (hv.2 he g)).2 rfl

/-! ### Component likelihoods -/

/-- All component likelihoods, as a function of the parameters. -/
def compOf (d : ModelData N F S M nG) (cl : Fin K → Fin N → Bool) (ce : Fin K → Fin F → Fin S → 𝕜)
    (cf : (c : Fin M) → Fin (nG c) → Fin F → Fin S → 𝕜) : Fin N → Fin F → Fin (M + 1) → 𝕜 :=
  fun n f => Fin.cons (componentValue d.features ce cl n f)
    (fun c => componentValue d.features (cf c) (d.confGroups c) n f)

/-- Incremental update: visiting (at least) the groups that differ from the snapshot. -/
theorem compute_incremental {x : Features N F S} {probs snapP : Fin G → Fin F → Fin S → 𝕜}
    {groups snapG : Fin G → Fin N → Bool} (hd : DisjointGroups groups) (hds : DisjointGroups snapG)
    {order : List (Fin G)}
    (ho : ∀ g, g ∉ order → groups g = snapG g ∧ probs g = snapP g) (n : Fin N) (f : Fin F) :
    overwriteNA x (computeComponentLikelihood x probs groups order
        (componentValue x snapP snapG)) n f =
      componentValue x probs groups n f := by
  by_cases hna : isNA x n f = true
  · simp [overwriteNA, componentValue, hna]
  rw [← compute_all_eq hd (order := List.finRange G) (by intro g; simp) (fun _ _ => 0)]
  simp only [overwriteNA, hna]
  by_cases h : ∃ i, groups i n = true
  · obtain ⟨i, hi⟩ := h
    rw [compute_member hd (fun _ _ => 0) hi (by simp : i ∈ List.finRange G)]
    by_cases hio : i ∈ order
    · rw [compute_member hd _ hi hio]
    · rw [compute_unchanged hd _ hi hio]
      obtain ⟨h1, h2⟩ := ho i hio
      have hs : snapG i n = true := by rw [← h1]; exact hi
      unfold componentValue
      rw [overwriteNA]
      simp only [hna]
      rw [compute_member hds _ hs (by simp), h2]
      simp
  · have h' : ∀ i, groups i n = false := by simpa using h
    rw [compute_outside _ h', compute_outside _ h']

theorem updateComponents_all {d : ModelData N F S M nG} {p : Params 𝕜 K N F S M nG}
    (hd : DisjointGroups p.clusters) (hc : ∀ c, DisjointGroups (d.confGroups c))
    {clO : List (Fin K)} {cfO : (c : Fin M) → List (Fin (nG c))} (h1 : VisitsAll clO)
    (h2 : ∀ c, VisitsAll (cfO c)) (buf) :
    updateComponents d p clO cfO buf = compOf d p.clusters p.clusterEffect p.confEffect := by
  funext n f c
  refine Fin.cases ?_ (fun c => ?_) c
  · simp only [updateComponents, compOf, Fin.cons_zero]; exact compute_all_eq hd h1 _ n f
  · simp only [updateComponents, compOf, Fin.cons_succ]; exact compute_all_eq (hc c) (h2 c) _ n f

/-- State of the component-likelihood node. -/
def CompInv (d : ModelData N F S M nG) (s : Sample 𝕜 K N F S M nG) : Prop :=
  s.clusters.WF ∧ s.clusterEffect.WF ∧ (∀ c, (s.confEffect c).WF) ∧
  ((s.cache.comp.cached = none ∧ (∀ k, s.cache.comp.gCl k = none) ∧ (∀ k, s.cache.comp.gCe k = none) ∧
      ∀ c g, s.cache.comp.gCf c g = none) ∨
   ∃ v cl ce cf, s.cache.comp.cached = some v ∧ DisjointGroups cl ∧
      s.cache.comp.value = compOf d cl ce cf ∧
      GSync s.clusters s.cache.comp.gCl cl ∧ VSync s.clusters s.cache.comp.gCl v.1 ∧
      GSync s.clusterEffect s.cache.comp.gCe ce ∧ VSync s.clusterEffect s.cache.comp.gCe v.2.1 ∧
      ∀ c, GSync (s.confEffect c) (s.cache.comp.gCf c) (cf c) ∧
        VSync (s.confEffect c) (s.cache.comp.gCf c) (v.2.2 c))

theorem updateComp_spec {d : ModelData N F S M nG} (hc : ∀ c, DisjointGroups (d.confGroups c))
    {s : Sample 𝕜 K N F S M nG} (hI : CompInv d s) (hd : DisjointGroups s.clusters.value)
    (caching : Bool) {clO : List (Fin K)} {cfO : (c : Fin M) → List (Fin (nG c))}
    (h1 : VisitsAll clO) (h2 : ∀ c, VisitsAll (cfO c)) :
    (updateComp d s caching clO cfO).cache.comp.value =
      compOf d s.params.clusters s.params.clusterEffect s.params.confEffect := by
  obtain ⟨-, -, -, hI⟩ := hI
  unfold updateComp
  split
  · rename_i hcond
    rcases hI with ⟨hn, -⟩ | ⟨v, cl, ce, cf, hv, hds, hval, hg1, hv1, hg2, hv2, h3⟩
    · rw [hn] at hcond; exact absurd hcond.2 (by simp)
    · have hvv : v = s.compVersion := by rw [hv] at hcond; exact Option.some.inj hcond.2
      subst hvv
      rw [hval]
      have e1 : s.params.clusters = cl := hg1.value_eq hv1 rfl
      have e2 : s.params.clusterEffect = ce := hg2.value_eq hv2 rfl
      have e3 : s.params.confEffect = cf := by
        funext c; exact (h3 c).1.value_eq (h3 c).2 rfl
      rw [e1, e2, e3]
  · have hall : (∀ k, clustersChanged s caching k = true) → (∀ c g, confChanged s caching c g = true) →
        updateComponents d s.params (clO.filter (clustersChanged s caching))
          (fun c => (cfO c).filter (confChanged s caching c)) s.cache.comp.value =
        compOf d s.params.clusters s.params.clusterEffect s.params.confEffect := by
      intro ha hb
      refine updateComponents_all hd hc ?_ ?_ _
      · intro k; simp [h1 k, ha k]
      · intro c g; simp [h2 c g, hb c g]
    show updateComponents d s.params _ _ _ = _
    rcases hI with ⟨-, n1, n2, n3⟩ | ⟨v, cl, ce, cf, hv, hds, hval, hg1, hv1, hg2, hv2, h3⟩
    · refine hall ?_ ?_
      · intro k; simp [clustersChanged, n2 k]
      · intro c g; simp [confChanged, n3 c g]
    · rw [hval]
      funext n f c
      refine Fin.cases ?_ (fun c => ?_) c
      · simp only [updateComponents, compOf, Fin.cons_zero]
        refine compute_incremental hd hds ?_ n f
        intro k hk
        have hk' : clustersChanged s caching k = false := by
          rw [Bool.eq_false_iff]; intro h; exact hk (by simp [h1 k, h])
        simp only [clustersChanged, Bool.or_eq_false_iff, decide_eq_false_iff_not, not_not] at hk'
        exact ⟨(hg1 k _ hk'.2).2 rfl, (hg2 k _ hk'.1.2).2 rfl⟩
      · simp only [updateComponents, compOf, Fin.cons_succ]
        refine compute_incremental (hc c) (hc c) ?_ n f
        intro g hg
        have hg' : confChanged s caching c g = false := by
          rw [Bool.eq_false_iff]; intro h; exact hg (by simp [h2 c g, h])
        simp only [confChanged, Bool.or_eq_false_iff, decide_eq_false_iff_not, not_not] at hg'
        exact ⟨rfl, ((h3 c).1 g _ hg'.2).2 rfl⟩

theorem updateComp_inv {d : ModelData N F S M nG} (hc : ∀ c, DisjointGroups (d.confGroups c))
    {s : Sample 𝕜 K N F S M nG} (hI : CompInv d s) (hd : DisjointGroups s.clusters.value)
    (caching : Bool) {clO : List (Fin K)} {cfO : (c : Fin M) → List (Fin (nG c))}
    (h1 : VisitsAll clO) (h2 : ∀ c, VisitsAll (cfO c)) :
    CompInv d (updateComp d s caching clO cfO) := by
  have hspec := updateComp_spec hc hI hd caching h1 h2
  have hI' := hI
  obtain ⟨w1, w2, w3, -⟩ := hI
  unfold updateComp at hspec ⊢
  split
  · exact hI'
  · rename_i hcond
    rw [if_neg hcond] at hspec
    exact ⟨w1, w2, w3, .inr ⟨_, _, _, _, rfl, hd, hspec, GSync.refl w1, VSync.refl _, GSync.refl w2,
      VSync.refl _, fun c => ⟨GSync.refl (w3 c), VSync.refl _⟩⟩⟩

/-! ### The other nodes -/

/-- `has_components`, `weights_normalized`, size prior, source prior. -/
structure NodeInv (d : ModelData N F S M nG) (P : PriorFns 𝕜 K N F S M nG)
    (s : Sample 𝕜 K N F S M nG) : Prop where
  hasConst : ∀ n (c : Fin M), s.cache.has.value n c.succ = anyGroup (d.confGroups c) n
  hasCl : ∀ v, s.cache.has.cached = some v → v ≤ s.clusters.version ∧
    (v = s.clusters.version → ∀ n, s.cache.has.value n 0 = anyGroup s.clusters.value n)
  wn : ∀ v, s.cache.wnorm.cached = some v → v.1 ≤ s.clusters.version ∧ v.2 ≤ s.weights.version ∧
    (v = (s.clusters.version, s.weights.version) →
      s.cache.wnorm.value = normalizeWeights s.weights.value (hasComponents d s.clusters.value))
  sz : ∀ v, s.cache.size.cached = some v → v ≤ s.clusters.version ∧
    (v = s.clusters.version → s.cache.size.value = P.sizeP s.clusters.value)
  sr : ∀ v, s.cache.src.cached = some v → v.1 ≤ s.clusters.version ∧ v.2.1 ≤ s.weights.version ∧
    v.2.2 ≤ s.source.version ∧
    (v = (s.clusters.version, s.weights.version, s.source.version) →
      s.cache.src.value = ((sourceWeights (normalizeWeights s.weights.value
        (hasComponents d s.clusters.value)) s.source.value).map P.logf).sum)

variable {d : ModelData N F S M nG} {P : PriorFns 𝕜 K N F S M nG} {s : Sample 𝕜 K N F S M nG}

theorem readHas_value (h : NodeInv d P s) :
    (readHas s).cache.has.value = hasComponents d s.clusters.value := by
  unfold readHas
  split
  · rename_i hc
    funext n c
    refine Fin.cases ?_ (fun c => ?_) c
    · rw [(h.hasCl _ hc).2 rfl]; rfl
    · rw [h.hasConst]; rfl
  · funext n c
    refine Fin.cases ?_ (fun c => ?_) c
    · rfl
    · exact h.hasConst n c

theorem readHas_params : (readHas s).clusters = s.clusters ∧ (readHas s).weights = s.weights ∧
    (readHas s).clusterEffect = s.clusterEffect ∧ (readHas s).confEffect = s.confEffect ∧
    (readHas s).useSource = s.useSource ∧ (readHas s).source = s.source ∧
    (readHas s).cache.comp = s.cache.comp ∧ (readHas s).cache.wnorm = s.cache.wnorm ∧
    (readHas s).cache.geo = s.cache.geo ∧ (readHas s).cache.size = s.cache.size ∧
    (readHas s).cache.conf = s.cache.conf ∧ (readHas s).cache.src = s.cache.src := by
  unfold readHas; split <;> simp

theorem readHas_inv (h : NodeInv d P s) : NodeInv d P (readHas s) := by
  have hv := readHas_value h
  obtain ⟨e1, e2, e3, e4, e5, e6, e7, e8, e9, e10, e11, e12⟩ := readHas_params (s := s)
  constructor
  · intro n c; rw [hv]; rfl
  · intro v hc
    have : v = s.clusters.version := by
      unfold readHas at hc; split at hc
      · rename_i hh; rw [hh] at hc; exact (Option.some.inj hc).symm
      · exact (Option.some.inj hc).symm
    rw [e1, hv]; exact ⟨this.le, fun _ n => rfl⟩
  · rw [e1, e2, e8]; exact h.wn
  · rw [e1, e10]; exact h.sz
  · rw [e1, e2, e6, e12]; exact h.sr

theorem updateWeights_params (b : Bool) : (updateWeights s b).clusters = s.clusters ∧
    (updateWeights s b).weights = s.weights ∧
    (updateWeights s b).clusterEffect = s.clusterEffect ∧ (updateWeights s b).confEffect = s.confEffect ∧
    (updateWeights s b).useSource = s.useSource ∧ (updateWeights s b).source = s.source ∧
    (updateWeights s b).cache.comp = s.cache.comp ∧
    (updateWeights s b).cache.geo = s.cache.geo ∧ (updateWeights s b).cache.size = s.cache.size ∧
    (updateWeights s b).cache.conf = s.cache.conf ∧ (updateWeights s b).cache.src = s.cache.src := by
  obtain ⟨e1, e2, e3, e4, e5, e6, e7, e8, e9, e10, e11, e12⟩ := readHas_params (s := s)
  unfold updateWeights; split
  · simp
  · exact ⟨e1, e2, e3, e4, e5, e6, e7, e9, e10, e11, e12⟩

theorem updateWeights_value (h : NodeInv d P s) (b : Bool) :
    (updateWeights s b).cache.wnorm.value =
      normalizeWeights s.weights.value (hasComponents d s.clusters.value) := by
  unfold updateWeights; split
  · rename_i hc; exact (h.wn _ hc.2).2.2 rfl
  · show normalizeWeights (readHas s).weights.value (readHas s).cache.has.value = _
    rw [readHas_value h, readHas_params.2.1]

theorem updateWeights_inv (h : NodeInv d P s) (b : Bool) : NodeInv d P (updateWeights s b) := by
  have hv := updateWeights_value h b
  unfold updateWeights at hv ⊢; split
  · exact h
  · rename_i hc
    rw [if_neg hc] at hv
    have hr := readHas_inv h
    obtain ⟨e1, e2, e3, e4, e5, e6, e7, e8, e9, e10, e11, e12⟩ := readHas_params (s := s)
    refine ⟨hr.hasConst, hr.hasCl, ?_, hr.sz, hr.sr⟩
    intro v hvv
    have := (Option.some.inj hvv).symm
    subst this
    refine ⟨le_refl _, le_refl _, fun _ => ?_⟩
    show _ = normalizeWeights (readHas s).weights.value (hasComponents d (readHas s).clusters.value)
    rw [e1, e2]; exact hv

theorem evalSize_val (h : NodeInv d P s) (b : Bool) :
    (evalSize P s b).2 = P.sizeP s.clusters.value := by
  unfold evalSize; split
  · rename_i hc; exact (h.sz _ hc.2).2 rfl
  · rfl

theorem evalSize_inv (h : NodeInv d P s) (b : Bool) : NodeInv d P (evalSize P s b).1 := by
  unfold evalSize; split
  · exact h
  · refine ⟨h.hasConst, h.hasCl, h.wn, ?_, h.sr⟩
    intro v hv
    have := (Option.some.inj hv).symm
    subst this
    exact ⟨le_refl _, fun _ => rfl⟩

theorem evalSrc_val (h : NodeInv d P s) (b : Bool) :
    (evalSrc P s b).2 = ((sourceWeights (normalizeWeights s.weights.value
        (hasComponents d s.clusters.value)) s.source.value).map P.logf).sum := by
  unfold evalSrc; split
  · rename_i hc; exact (h.sr _ hc.2).2.2.2 rfl
  · show ((sourceWeights (updateWeights s true).cache.wnorm.value
      (updateWeights s true).source.value).map P.logf).sum = _
    rw [updateWeights_value h, (updateWeights_params true).2.2.2.2.2.1]

theorem evalSrc_inv (h : NodeInv d P s) (b : Bool) : NodeInv d P (evalSrc P s b).1 := by
  have hv := evalSrc_val h b
  unfold evalSrc at hv ⊢; split
  · exact h
  · rename_i hc
    rw [if_neg hc] at hv
    have hu := updateWeights_inv h true
    obtain ⟨e1, e2, e3, e4, e5, e6, e7, e8, e9, e10, e11⟩ := updateWeights_params (s := s) true
    refine ⟨hu.hasConst, hu.hasCl, hu.wn, hu.sz, ?_⟩
    intro v hvv
    have := (Option.some.inj hvv).symm
    subst this
    refine ⟨le_refl _, le_refl _, le_refl _, fun _ => ?_⟩
    show _ = ((sourceWeights (normalizeWeights (updateWeights s true).weights.value
        (hasComponents d (updateWeights s true).clusters.value))
        (updateWeights s true).source.value).map P.logf).sum
    rw [e1, e2, e6]; exact hv

theorem clear_inv (h : NodeInv d P s) : NodeInv d P { s with cache := s.cache.clear } :=
  ⟨h.hasConst, fun _ hv => by simp [ModelCache.clear] at hv, fun _ hv => by simp [ModelCache.clear] at hv,
    fun _ hv => by simp [ModelCache.clear] at hv, h.sr⟩

theorem updateComp_params (b : Bool) (clO : List (Fin K)) (cfO : (c : Fin M) → List (Fin (nG c))) :
    (updateComp d s b clO cfO).clusters = s.clusters ∧
    (updateComp d s b clO cfO).weights = s.weights ∧
    (updateComp d s b clO cfO).clusterEffect = s.clusterEffect ∧
    (updateComp d s b clO cfO).confEffect = s.confEffect ∧
    (updateComp d s b clO cfO).useSource = s.useSource ∧ (updateComp d s b clO cfO).source = s.source ∧
    (updateComp d s b clO cfO).cache.wnorm = s.cache.wnorm ∧
    (updateComp d s b clO cfO).cache.geo = s.cache.geo ∧
    (updateComp d s b clO cfO).cache.size = s.cache.size ∧
    (updateComp d s b clO cfO).cache.conf = s.cache.conf ∧
    (updateComp d s b clO cfO).cache.has = s.cache.has ∧
    (updateComp d s b clO cfO).cache.src = s.cache.src := by
  unfold updateComp; split <;> simp

theorem updateComp_nodeInv (h : NodeInv d P s) (b : Bool) (clO : List (Fin K))
    (cfO : (c : Fin M) → List (Fin (nG c))) : NodeInv d P (updateComp d s b clO cfO) := by
  obtain ⟨e1, e2, e3, e4, e5, e6, e7, e8, e9, e10, e11, e12⟩ :=
    updateComp_params (d := d) (s := s) b clO cfO
  constructor
  · rw [e11]; exact h.hasConst
  · rw [e1, e11]; exact h.hasCl
  · rw [e1, e2, e7]; exact h.wn
  · rw [e1, e9]; exact h.sz
  · rw [e1, e2, e6, e12]; exact h.sr

theorem evalLh_nodeInv (h : NodeInv d P s) (b : Bool) (clO : List (Fin K))
    (cfO : (c : Fin M) → List (Fin (nG c))) : NodeInv d P (evalLh d s b clO cfO).1 := by
  unfold evalLh
  cases b
  · exact updateWeights_inv (updateComp_nodeInv (clear_inv h) false clO cfO) false
  · exact updateWeights_inv (updateComp_nodeInv h true clO cfO) true

theorem evalGeo_params (b : Bool) : (evalGeo P s b).1.clusters = s.clusters ∧
    (evalGeo P s b).1.weights = s.weights ∧ (evalGeo P s b).1.source = s.source ∧
    (evalGeo P s b).1.clusterEffect = s.clusterEffect ∧ (evalGeo P s b).1.confEffect = s.confEffect ∧
    (evalGeo P s b).1.cache.comp = s.cache.comp ∧ (evalGeo P s b).1.cache.conf = s.cache.conf ∧
    (evalGeo P s b).1.cache.wnorm = s.cache.wnorm ∧ (evalGeo P s b).1.cache.size = s.cache.size ∧
    (evalGeo P s b).1.cache.has = s.cache.has ∧ (evalGeo P s b).1.cache.src = s.cache.src := by
  unfold evalGeo; split <;> simp

theorem evalConf_params (c : Fin M) (b : Bool) (order : List (Fin (nG c))) :
    (evalConf P s c b order).1.clusters = s.clusters ∧
    (evalConf P s c b order).1.weights = s.weights ∧ (evalConf P s c b order).1.source = s.source ∧
    (evalConf P s c b order).1.clusterEffect = s.clusterEffect ∧
    (evalConf P s c b order).1.confEffect = s.confEffect ∧
    (evalConf P s c b order).1.cache.comp = s.cache.comp ∧
    (evalConf P s c b order).1.cache.wnorm = s.cache.wnorm ∧
    (evalConf P s c b order).1.cache.size = s.cache.size ∧
    (evalConf P s c b order).1.cache.has = s.cache.has ∧
    (evalConf P s c b order).1.cache.src = s.cache.src := by
  unfold evalConf; dsimp only; split <;> simp

theorem nodeInv_of_eq {s' : Sample 𝕜 K N F S M nG} (h : NodeInv d P s)
    (e1 : s'.clusters = s.clusters) (e2 : s'.weights = s.weights) (e3 : s'.source = s.source)
    (e4 : s'.cache.wnorm = s.cache.wnorm) (e5 : s'.cache.size = s.cache.size)
    (e6 : s'.cache.has = s.cache.has) (e7 : s'.cache.src = s.cache.src) : NodeInv d P s' := by
  constructor
  · rw [e6]; exact h.hasConst
  · rw [e1, e6]; exact h.hasCl
  · rw [e1, e2, e4]; exact h.wn
  · rw [e1, e5]; exact h.sz
  · rw [e1, e2, e3, e7]; exact h.sr

theorem nodeInv_bumpClusters (h : NodeInv d P s) {cl : GP K (Fin N → Bool)}
    (hv : cl.version = s.clusters.version + 1) : NodeInv d P { s with clusters := cl } := by
  constructor
  · exact h.hasConst
  · intro v hc
    obtain ⟨a, -⟩ := h.hasCl v hc
    exact ⟨by simp only [hv]; omega, fun e => by simp only [hv] at e; omega⟩
  · intro v hc
    obtain ⟨a, b, -⟩ := h.wn v hc
    exact ⟨by simp only [hv]; omega, b, fun e => by
      have : v.1 = cl.version := by rw [e]
      omega⟩
  · intro v hc
    obtain ⟨a, -⟩ := h.sz v hc
    exact ⟨by simp only [hv]; omega, fun e => by simp only [hv] at e; omega⟩
  · intro v hc
    obtain ⟨a, b, b', -⟩ := h.sr v hc
    exact ⟨by simp only [hv]; omega, b, b', fun e => by
      have : v.1 = cl.version := by rw [e]
      omega⟩

theorem nodeInv_weights (h : NodeInv d P s) (f) :
    NodeInv d P { s with weights := s.weights.edit f } := by
  refine ⟨h.hasConst, h.hasCl, ?_, h.sz, ?_⟩
  · intro v hc
    obtain ⟨a, b, -⟩ := h.wn v hc
    exact ⟨a, Nat.le_succ_of_le b, fun e => by
      have : v.2 = s.weights.version + 1 := by rw [e]; rfl
      omega⟩
  · intro v hc
    obtain ⟨a, b, b', -⟩ := h.sr v hc
    exact ⟨a, Nat.le_succ_of_le b, b', fun e => by
      have : v.2.1 = s.weights.version + 1 := by rw [e]; rfl
      omega⟩

theorem nodeInv_source (h : NodeInv d P s) (f) :
    NodeInv d P { s with source := s.source.edit f } := by
  refine ⟨h.hasConst, h.hasCl, h.wn, h.sz, ?_⟩
  intro v hc
  obtain ⟨a, b, b', -⟩ := h.sr v hc
  exact ⟨a, b, Nat.le_succ_of_le b', fun e => by
    have : v.2.2 = s.source.version + 1 := by rw [e]; rfl
    omega⟩

theorem stepS_nodeInv (h : NodeInv d P s) (op : SOp 𝕜 K N F S M nG) :
    NodeInv d P (stepS d P s op) := by
  cases op with
  | clusterEdit k f => exact nodeInv_bumpClusters h rfl
  | clustersEditAll f => exact nodeInv_bumpClusters h rfl
  | effectEdit k f => exact nodeInv_of_eq h rfl rfl rfl rfl rfl rfl rfl
  | effectEditAll f => exact nodeInv_of_eq h rfl rfl rfl rfl rfl rfl rfl
  | confEdit c g f => exact nodeInv_of_eq h rfl rfl rfl rfl rfl rfl rfl
  | confEditAll c f => exact nodeInv_of_eq h rfl rfl rfl rfl rfl rfl rfl
  | weightsEdit f => exact nodeInv_weights h f
  | sourceEdit f => exact nodeInv_source h f
  | evalLh b o o' => exact evalLh_nodeInv h b o o'
  | updateComp b o o' => exact updateComp_nodeInv h b o o'
  | updateWeights b => exact updateWeights_inv h b
  | readHas => exact readHas_inv h
  | evalSize b => exact evalSize_inv h b
  | evalGeo b =>
    obtain ⟨e1, e2, e3, -, -, -, -, e4, e5, e6, e7⟩ := evalGeo_params (P := P) (s := s) b
    exact nodeInv_of_eq h e1 e2 e3 e4 e5 e6 e7
  | evalConf c b o =>
    obtain ⟨e1, e2, e3, -, -, -, e4, e5, e6, e7⟩ := evalConf_params (P := P) (s := s) c b o
    exact nodeInv_of_eq h e1 e2 e3 e4 e5 e6 e7
  | evalSrc b => exact evalSrc_inv h b
  | clear => exact clear_inv h

theorem nodeInv_new (p : Params 𝕜 K N F S M nG) (g) : NodeInv d P (Sample.new d p g) := by
  refine ⟨fun n c => rfl, ?_, ?_, ?_, ?_⟩ <;> intro v hv <;> cases hv

theorem nodeInv_copy (h : NodeInv d P s) : NodeInv d P (s.copy d) := by
  refine ⟨fun n c => rfl, ?_, h.wn, h.sz, ?_⟩ <;> intro v hv <;> cases hv

/-! ### The confounding-effect prior nodes -/

/-- State of the confounding-effect prior nodes. -/
def ConfInv (P : PriorFns 𝕜 K N F S M nG) (s : Sample 𝕜 K N F S M nG) : Prop :=
  (∀ c, (s.confEffect c).WF) ∧
  ∀ c, (∀ g m, (s.cache.conf c).g g = some m → m ≤ (s.confEffect c).version ∧
      (m = (s.confEffect c).gver g → (s.cache.conf c).value g = P.confP c g ((s.confEffect c).value g))) ∧
    ∀ v, (s.cache.conf c).cached = some v → VSync (s.confEffect c) (s.cache.conf c).g v

theorem foldl_conf {c : Fin M} (val : Fin (nG c) → Fin F → Fin S → 𝕜) (o : List (Fin (nG c)))
    (v0 : Fin (nG c) → 𝕜) (g : Fin (nG c)) :
    o.foldl (fun v g => Function.update v g (P.confP c g (val g))) v0 g =
      if g ∈ o then P.confP c g (val g) else v0 g := by
  induction o generalizing v0 with
  | nil => simp
  | cons a o ih =>
    rw [List.foldl_cons, ih]
    by_cases h1 : g ∈ o
    · simp [h1]
    · by_cases h2 : g = a
      · subst h2; simp [h1]
      · simp [h1, h2]

theorem conf_value (h : ConfInv P s) (c : Fin M) (b : Bool) {order : List (Fin (nG c))}
    (ho : VisitsAll order) (g : Fin (nG c)) :
    ((order.filter fun g => !b || decide ((s.cache.conf c).g g ≠ some ((s.confEffect c).gver g))).foldl
      (fun v g => Function.update v g (P.confP c g ((s.confEffect c).value g)))
        (s.cache.conf c).value) g = P.confP c g ((s.confEffect c).value g) := by
  rw [foldl_conf]
  split
  · rfl
  · rename_i hg
    have : (!b || decide ((s.cache.conf c).g g ≠ some ((s.confEffect c).gver g))) = false := by
      rw [Bool.eq_false_iff]; intro hh; exact hg (List.mem_filter.mpr ⟨ho g, hh⟩)
    simp only [Bool.or_eq_false_iff, decide_eq_false_iff_not, not_not] at this
    exact ((h.2 c).1 g _ this.2).2 rfl

theorem evalConf_val (h : ConfInv P s) (c : Fin M) (b : Bool) {order : List (Fin (nG c))}
    (ho : VisitsAll order) :
    (evalConf P s c b order).2 = ∑ g, P.confP c g ((s.confEffect c).value g) := by
  unfold evalConf; dsimp only; split
  · rename_i hc
    dsimp only
    refine Finset.sum_congr rfl fun g _ => ?_
    obtain ⟨h1, h2⟩ := h.2 c
    exact (h1 g _ ((h2 _ hc.2).2 rfl g)).2 rfl
  · dsimp only
    refine Finset.sum_congr rfl fun g _ => ?_
    exact conf_value h c b ho g

theorem evalConf_inv (h : ConfInv P s) (c : Fin M) (b : Bool) {order : List (Fin (nG c))}
    (ho : VisitsAll order) : ConfInv P (evalConf P s c b order).1 := by
  unfold evalConf; dsimp only; split
  · exact h
  · refine ⟨h.1, fun c' => ?_⟩
    by_cases hcc : c' = c
    · subst hcc
      simp only [Function.update_self]
      refine ⟨fun g m hm => ?_, fun v hv => ?_⟩
      · have := (Option.some.inj hm).symm; subst this
        exact ⟨h.1 _ g, fun _ => conf_value h _ b ho g⟩
      · have := (Option.some.inj hv).symm; subst this
        exact VSync.refl _
    · simp only [Function.update_of_ne hcc]; exact h.2 c'

theorem confInv_of_eq {s' : Sample 𝕜 K N F S M nG} (h : ConfInv P s)
    (e1 : s'.confEffect = s.confEffect) (e2 : s'.cache.conf = s.cache.conf) : ConfInv P s' := by
  unfold ConfInv; rw [e1, e2]; exact h

theorem confInv_edit (h : ConfInv P s) (c : Fin M) (g : Fin (nG c)) (f) :
    ConfInv P { s with confEffect := Function.update s.confEffect c ((s.confEffect c).editGroup g f) } := by
  constructor
  · intro c'
    by_cases hcc : c' = c
    · subst hcc; simp only [Function.update_self]; exact (h.1 _).edit g f
    · simp only [Function.update_of_ne hcc]; exact h.1 c'
  · intro c'
    by_cases hcc : c' = c
    · subst hcc
      simp only [Function.update_self]
      refine ⟨fun g' m hm => ?_, fun v hv => ((h.2 _).2 v hv).edit g f⟩
      obtain ⟨a, b⟩ := (h.2 _).1 g' m hm
      refine ⟨Nat.le_succ_of_le a, fun e => ?_⟩
      by_cases hg : g' = g
      · subst hg; simp only [GP.editGroup, Function.update_self] at e; omega
      · simp only [GP.editGroup, Function.update_of_ne hg] at e ⊢; exact b e
    · simp only [Function.update_of_ne hcc]; exact h.2 c'

theorem confInv_clear (h : ConfInv P s) : ConfInv P { s with cache := s.cache.clear } := by
  refine ⟨h.1, fun c => ⟨fun g m hm => ?_, fun v hv => ?_⟩⟩
  · simp [ModelCache.clear] at hm
  · simp [ModelCache.clear] at hv

theorem updateWeights_confInv (h : ConfInv P s) (b : Bool) : ConfInv P (updateWeights s b) :=
  confInv_of_eq h (updateWeights_params b).2.2.2.1 (updateWeights_params b).2.2.2.2.2.2.2.2.2.1

theorem updateComp_confInv (h : ConfInv P s) (b : Bool) (o) (o') :
    ConfInv P (updateComp d s b o o') := by
  obtain ⟨e1, e2, e3, e4, e5, e6, e7, e8, e9, e10, e11, e12⟩ :=
    updateComp_params (d := d) (s := s) b o o'
  exact confInv_of_eq h e4 e10

theorem stepS_confInv (h : ConfInv P s) {op : SOp 𝕜 K N F S M nG} (hop : OpOk s op) :
    ConfInv P (stepS d P s op) := by
  cases op with
  | clusterEdit k f => exact confInv_of_eq h rfl rfl
  | clustersEditAll f => exact hop.elim
  | effectEdit k f => exact confInv_of_eq h rfl rfl
  | effectEditAll f => exact hop.elim
  | confEdit c g f => exact confInv_edit h c g f
  | confEditAll c f => exact hop.elim
  | weightsEdit f => exact confInv_of_eq h rfl rfl
  | sourceEdit f => exact confInv_of_eq h rfl rfl
  | evalLh b o o' =>
    cases b
    · exact updateWeights_confInv (updateComp_confInv (d := d) (confInv_clear h) false o o') false
    · exact updateWeights_confInv (updateComp_confInv (d := d) h true o o') true
  | updateComp b o o' => exact updateComp_confInv (d := d) h b o o'
  | updateWeights b => exact updateWeights_confInv h b
  | readHas =>
    obtain ⟨e1, e2, e3, e4, e5, e6, e7, e8, e9, e10, e11, e12⟩ := readHas_params (s := s)
    exact confInv_of_eq h e4 e11
  | evalSize b =>
    show ConfInv P (evalSize P s b).1
    unfold evalSize; split
    · exact h
    · exact confInv_of_eq h rfl rfl
  | evalGeo b =>
    obtain ⟨e1, e2, e3, e0, e4, e5, e6, e7⟩ := evalGeo_params (P := P) (s := s) b
    exact confInv_of_eq h e4 e6
  | evalConf c b o => exact evalConf_inv h c b hop
  | evalSrc b =>
    show ConfInv P (evalSrc P s b).1
    unfold evalSrc; split
    · exact h
    · exact confInv_of_eq (updateWeights_confInv h true) rfl rfl
  | clear => exact confInv_clear h

theorem confInv_new (p : Params 𝕜 K N F S M nG) (g) : ConfInv P (Sample.new d p g) := by
  refine ⟨fun c g => le_refl _, fun c => ⟨fun g m hm => ?_, fun v hv => ?_⟩⟩
  · cases hm
  · cases hv

theorem confInv_copy (h : ConfInv P s) : ConfInv P (s.copy d) := h

/-! ### `CompInv` along operations -/

theorem compInv_of_eq {s' : Sample 𝕜 K N F S M nG} (h : CompInv d s)
    (e1 : s'.clusters = s.clusters) (e2 : s'.clusterEffect = s.clusterEffect)
    (e3 : s'.confEffect = s.confEffect) (e4 : s'.cache.comp = s.cache.comp) : CompInv d s' := by
  unfold CompInv; rw [e1, e2, e3, e4]; exact h

theorem compInv_clear (h : CompInv d s) : CompInv d { s with cache := s.cache.clear } :=
  ⟨h.1, h.2.1, h.2.2.1, .inl ⟨rfl, fun _ => rfl, fun _ => rfl, fun _ _ => rfl⟩⟩

theorem updateWeights_compInv (h : CompInv d s) (b : Bool) : CompInv d (updateWeights s b) := by
  obtain ⟨e1, e2, e3, e4, e5, e6, e7, e8, e9, e10, e11⟩ := updateWeights_params (s := s) b
  exact compInv_of_eq h e1 e3 e4 e7

theorem stepS_compInv (hc : ∀ c, DisjointGroups (d.confGroups c)) (h : CompInv d s)
    {op : SOp 𝕜 K N F S M nG} (hop : OpOk s op) : CompInv d (stepS d P s op) := by
  cases op with
  | clusterEdit k f =>
    obtain ⟨w1, w2, w3, hn | ⟨v, cl, ce, cf, hv, hds, hval, hg1, hv1, hg2, hv2, h3⟩⟩ := h
    · exact ⟨w1.edit k f, w2, w3, .inl hn⟩
    · exact ⟨w1.edit k f, w2, w3, .inr ⟨v, cl, ce, cf, hv, hds, hval, hg1.edit k f, hv1.edit k f,
        hg2, hv2, h3⟩⟩
  | clustersEditAll f => exact hop.elim
  | effectEdit k f =>
    obtain ⟨w1, w2, w3, hn | ⟨v, cl, ce, cf, hv, hds, hval, hg1, hv1, hg2, hv2, h3⟩⟩ := h
    · exact ⟨w1, w2.edit k f, w3, .inl hn⟩
    · exact ⟨w1, w2.edit k f, w3, .inr ⟨v, cl, ce, cf, hv, hds, hval, hg1, hv1,
        hg2.edit k f, hv2.edit k f, h3⟩⟩
  | effectEditAll f => exact hop.elim
  | confEdit c g f =>
    have hwf : ∀ c', (s.confEffect c').WF →
        (Function.update s.confEffect c ((s.confEffect c).editGroup g f) c').WF := by
      intro c' w
      by_cases hcc : c' = c
      · subst hcc; simp only [Function.update_self]; exact w.edit g f
      · simp only [Function.update_of_ne hcc]; exact w
    obtain ⟨w1, w2, w3, hn | ⟨v, cl, ce, cf, hv, hds, hval, hg1, hv1, hg2, hv2, h3⟩⟩ := h
    · exact ⟨w1, w2, fun c' => hwf c' (w3 c'), .inl hn⟩
    · refine ⟨w1, w2, fun c' => hwf c' (w3 c'), .inr ⟨v, cl, ce, cf, hv, hds, hval, hg1, hv1,
        hg2, hv2, fun c' => ?_⟩⟩
      obtain ⟨a, b⟩ := h3 c'
      simp only [stepS]
      by_cases hcc : c' = c
      · subst hcc; simp only [Function.update_self]; exact ⟨a.edit g f, b.edit g f⟩
      · simp only [Function.update_of_ne hcc]; exact ⟨a, b⟩
  | confEditAll c f => exact hop.elim
  | weightsEdit f => exact compInv_of_eq h rfl rfl rfl rfl
  | sourceEdit f => exact compInv_of_eq h rfl rfl rfl rfl
  | evalLh b o o' =>
    obtain ⟨hd, h1, h2⟩ := hop
    cases b
    · exact updateWeights_compInv (updateComp_inv hc (compInv_clear h) hd _ h1 h2) _
    · exact updateWeights_compInv (updateComp_inv hc h hd _ h1 h2) _
  | updateComp b o o' =>
    obtain ⟨hd, h1, h2⟩ := hop
    exact updateComp_inv hc h hd _ h1 h2
  | updateWeights b => exact updateWeights_compInv h b
  | readHas =>
    obtain ⟨e1, e2, e3, e4, e5, e6, e7, e8, e9, e10, e11, e12⟩ := readHas_params (s := s)
    exact compInv_of_eq h e1 e3 e4 e7
  | evalSize b =>
    show CompInv d (evalSize P s b).1
    unfold evalSize; split
    · exact h
    · exact compInv_of_eq h rfl rfl rfl rfl
  | evalGeo b =>
    obtain ⟨e1, e2, e3, e0, e4, e5, e6, e7⟩ := evalGeo_params (P := P) (s := s) b
    exact compInv_of_eq h e1 e0 e4 e5
  | evalConf c b o =>
    obtain ⟨e1, e2, e3, e0, e4, e5, e6, e7⟩ := evalConf_params (P := P) (s := s) c b o
    exact compInv_of_eq h e1 e0 e4 e5
  | evalSrc b =>
    show CompInv d (evalSrc P s b).1
    unfold evalSrc; split
    · exact h
    · exact compInv_of_eq (updateWeights_compInv h true) rfl rfl rfl rfl
  | clear => exact compInv_clear h

theorem compInv_new (p : Params 𝕜 K N F S M nG) (g) : CompInv d (Sample.new d p g) :=
  ⟨fun _ => le_refl _, fun _ => le_refl _, fun _ _ => le_refl _,
    .inl ⟨rfl, fun _ => rfl, fun _ => rfl, fun _ _ => rfl⟩⟩

theorem compInv_copy (h : CompInv d s) : CompInv d (s.copy d) := h

/-! ### Histories -/

theorem runW_forall {I : Sample 𝕜 K N F S M nG → Prop}
    (hnew : ∀ p g, I (Sample.new d p g)) (hcopy : ∀ s, I s → I (s.copy d))
    (hstep : ∀ s op, OpOk s op → I s → I (stepS d P s op))
    (ops : List (WOp 𝕜 K N F S M nG)) (w : List (Sample 𝕜 K N F S M nG))
    (hw : ∀ s ∈ w, I s) (ho : HistoryOk d P w ops) : ∀ s ∈ runW d P w ops, I s := by
  induction ops generalizing w with
  | nil => exact hw
  | cons op ops ih =>
    cases op with
    | new p g =>
      refine ih _ ?_ ho
      intro s hs
      rcases List.mem_append.mp hs with h | h
      · exact hw s h
      · rw [List.mem_singleton.mp h]; exact hnew p g
    | copy i =>
      refine ih _ ?_ ho
      intro s hs
      simp only [stepW] at hs
      split at hs
      · rename_i t ht
        rcases List.mem_append.mp hs with h | h
        · exact hw s h
        · rw [List.mem_singleton.mp h]; exact hcopy _ (hw t (List.mem_of_getElem? ht))
      · exact hw s hs
    | on i op =>
      refine ih _ ?_ ho.2
      intro s hs
      obtain ⟨j, hj⟩ := List.getElem?_of_mem hs
      simp only [stepW, List.getElem?_modify] at hj
      cases hwj : w[j]? with
      | none => rw [hwj] at hj; simp at hj
      | some t =>
        rw [hwj] at hj
        simp only [Option.map_eq_map, Option.map_some, Option.some.injEq] at hj
        have ht := hw t (List.mem_of_getElem? hwj)
        split at hj
        · rename_i hij
          rw [← hj]
          exact hstep t op (ho.1 t (hij ▸ hwj)) ht
        · rw [← hj]; exact ht

theorem runW_forall_any {I : Sample 𝕜 K N F S M nG → Prop}
    (hnew : ∀ p g, I (Sample.new d p g)) (hcopy : ∀ s, I s → I (s.copy d))
    (hstep : ∀ s op, I s → I (stepS d P s op))
    (ops : List (WOp 𝕜 K N F S M nG)) (w : List (Sample 𝕜 K N F S M nG))
    (hw : ∀ s ∈ w, I s) : ∀ s ∈ runW d P w ops, I s := by
  induction ops generalizing w with
  | nil => exact hw
  | cons op ops ih =>
    refine ih _ ?_
    intro s hs
    cases op with
    | new p g =>
      rcases List.mem_append.mp hs with h | h
      · exact hw s h
      · rw [List.mem_singleton.mp h]; exact hnew p g
    | copy i =>
      simp only [stepW] at hs
      split at hs
      · rename_i t ht
        rcases List.mem_append.mp hs with h | h
        · exact hw s h
        · rw [List.mem_singleton.mp h]; exact hcopy _ (hw t (List.mem_of_getElem? ht))
      · exact hw s hs
    | on i op =>
      obtain ⟨j, hj⟩ := List.getElem?_of_mem hs
      simp only [stepW, List.getElem?_modify] at hj
      cases hwj : w[j]? with
      | none => rw [hwj] at hj; simp at hj
      | some t =>
        rw [hwj] at hj
        simp only [Option.map_eq_map, Option.map_some, Option.some.injEq] at hj
        have ht := hw t (List.mem_of_getElem? hwj)
        split at hj
        · rw [← hj]; exact hstep t op ht
        · rw [← hj]; exact ht

/-- The likelihood of a sample in a good state. -/
theorem evalLh_value (hc : ∀ c, DisjointGroups (d.confGroups c)) (hI : CompInv d s)
    (hN : NodeInv d P s) (hd : DisjointGroups s.clusters.value) (b : Bool) {clO : List (Fin K)}
    {cfO : (c : Fin M) → List (Fin (nG c))} (h1 : VisitsAll clO) (h2 : ∀ c, VisitsAll (cfO c)) :
    (evalLh d s b clO cfO).2 = observationLhs
      (compOf d s.params.clusters s.params.clusterEffect s.params.confEffect)
      (normalizeWeights s.params.weights (hasComponents d s.params.clusters)) s.params.source := by
  have key : ∀ t : Sample 𝕜 K N F S M nG, CompInv d t → NodeInv d P t → t.clusters = s.clusters →
      t.weights = s.weights → t.clusterEffect = s.clusterEffect → t.confEffect = s.confEffect →
      t.useSource = s.useSource → t.source = s.source →
      observationLhs (updateWeights (updateComp d t b clO cfO) b).cache.comp.value
        (updateWeights (updateComp d t b clO cfO) b).cache.wnorm.value
        (updateWeights (updateComp d t b clO cfO) b).params.source = observationLhs
      (compOf d s.params.clusters s.params.clusterEffect s.params.confEffect)
      (normalizeWeights s.params.weights (hasComponents d s.params.clusters)) s.params.source := by
    intro t hIt hNt q1 q2 q3 q4 q5 q6
    obtain ⟨e1, e2, e3, e4, e5, e6, e7, e8, e9, e10, e11⟩ :=
      updateWeights_params (s := updateComp d t b clO cfO) b
    obtain ⟨r1, r2, r3, r4, r5, r6, r7, r8, r9, r10, r11, r12⟩ :=
      updateComp_params (d := d) (s := t) b clO cfO
    rw [e7, updateComp_spec hc hIt (by rw [q1]; exact hd) b h1 h2,
      updateWeights_value (updateComp_nodeInv hNt _ _ _)]
    simp only [Sample.params, e5, e6, r1, r2, r5, r6, q1, q2, q3, q4, q5, q6]
  cases b
  · exact key _ (compInv_clear hI) (clear_inv hN) rfl rfl rfl rfl rfl rfl
  · exact key s hI hN rfl rfl rfl rfl rfl rfl

end SBayes.Cache
