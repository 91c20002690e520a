import Verif.Props.Chain
import Verif.Spec.Logged
/-
C69: the log of a run is the log of the ideal run.
-/
namespace SBayes.Sampler
open SBayes.Lik SBayes.Cache SBayes.Posterior
open scoped BigOperators
set_option linter.unusedSectionVars false

variable {𝕜 : Type} [Field 𝕜] [DecidableEq 𝕜] {K N F S M : ℕ} {nG : Fin M → ℕ}
variable {d : ModelData N F S M nG} {P : PriorFns 𝕜 K N F S M nG}

theorem evalLh_obs (hc : ∀ c, DisjointGroups (d.confGroups c)) {s : Sample 𝕜 K N F S M nG} (h : Good d P s)
    (hd : DisjointGroups s.params.clusters) (b : Bool) {clO : List (Fin K)} {cfO : (c : Fin M) → List (Fin (nG c))}
    (h1 : VisitsAll clO) (h2 : ∀ c, VisitsAll (cfO c)) : (evalLh d s b clO cfO).2 = idealObs d s.params := by
  rw [evalLh_value hc h.comp h.node hd b h1 h2]
  unfold idealObs freshObservationLhs
  rw [updateComponents_all (p := s.params) hd hc (fun g => List.mem_finRange g) (fun c g => List.mem_finRange g)]

theorem obsAfter_full (hc : ∀ c, DisjointGroups (d.confGroups c)) {s : Sample 𝕜 K N F S M nG} (h : Good d P s)
    (hd : DisjointGroups s.params.clusters) (fromPrior check : Bool) {o : Orders K M nG} (h1 : VisitsAll o.cl)
    (h2 : ∀ c, VisitsAll (o.cf c)) (before : Option (List 𝕜)) :
    obsAfter d fromPrior check o s before = if fromPrior then before else some (idealObs d s.params) := by
  unfold obsAfter
  cases fromPrior with
  | true => rfl
  | false =>
    obtain ⟨a1, a2, -⟩ := evalLh_full hc h hd true h1 h2
    simp only [Bool.false_eq_true, if_false]
    cases check with
    | true =>
      simp only [if_true]
      rw [evalLh_obs hc a1 (by rw [a2]; exact hd) false h1 h2, a2]
    | false =>
      simp only [Bool.false_eq_true, if_false]
      rw [evalLh_obs hc h hd true h1 h2]

/-- The attributes belong to the parameters. -/
def AttrsOk (d : ModelData N F S M nG) (P : PriorFns 𝕜 K N F S M nG) (fromPrior : Bool) (c : LState 𝕜 K N F S M nG) : Prop :=
  c.2 = ⟨some (idealLh d P fromPrior c.1.sample.params), some (idealPrior d P c.1.sample.params),
    if fromPrior then none else some (idealObs d c.1.sample.params)⟩

/-- Everything that is known between the steps of the loop, for a geo-prior that is constantly `x`. -/
structure LInv (d : ModelData N F S M nG) (P : PriorFns 𝕜 K N F S M nG) (fromPrior : Bool) (x : 𝕜) (c : LState 𝕜 K N F S M nG) :
    Prop where
  between : Between d P c.1 x
  ll : c.1.ll = idealLh d P fromPrior c.1.sample.params
  prior : c.1.prior = idealPrior d P c.1.sample.params
  attrs : AttrsOk d P fromPrior c

theorem fixGeo_const {x : 𝕜} (hx : ∀ cl, P.geoP cl = x) : fixGeo P x = P := by
  unfold fixGeo
  have : (fun _ : Fin K → Fin N → Bool => x) = P.geoP := funext fun cl => (hx cl).symm
  rw [this]

theorem stepL_full (hc : ∀ c, DisjointGroups (d.confGroups c)) {x : 𝕜} (hx : ∀ cl, P.geoP cl = x) {fromPrior : Bool}
    {c : LState 𝕜 K N F S M nG} (h : LInv d P fromPrior x c) (debug : Bool) (i : ℕ) {m : Move 𝕜 K N F S M nG}
    (hm : MoveOk c.1.sample.params m) :
    ∃ c', stepL d P debug fromPrior c i m = some c' ∧ LInv d P fromPrior x c' ∧ c'.1.iStep = i ∧
      c'.1.sample.params = idealStep d P fromPrior c.1.sample.params m := by
  have hb := h.between
  have hpre := good_harmless (d := d) (P := P) hc m.pre (fun op ho => harmless_of_readOnly (hm.pre op ho).1 (hm.pre op ho).2)
    hb.good hb.disjoint
  have gpre := geo_ops (d := d) (P := P) m.pre (fun op ho => operatorOp_of_readOnly (hm.pre op ho).1) hb.geo
  generalize hold : m.pre.foldl (stepS d P) c.1.sample = old at hpre gpre
  have h0 : ∃ s0, (if m.onCopy then old.copy d else old) = s0 ∧ Good d P s0 ∧ s0.params = c.1.sample.params ∧
      s0.cache.geo = ⟨x, some ()⟩ := by
    refine ⟨_, rfl, ?_⟩
    by_cases hb : m.onCopy = true
    · simp only [hb, if_true]; exact ⟨good_copy hpre.1, hpre.2, gpre⟩
    · simp only [hb]; exact ⟨hpre.1, hpre.2, gpre⟩
  obtain ⟨s0, e0, g0, p0, x0⟩ := h0
  obtain ⟨gc, pc, dc⟩ := good_ops (d := d) (P := P) hc m.ops hm.ops g0 (by rw [p0]; exact hb.disjoint)
    (by rw [p0]; exact hm.disjoint)
  have xc := geo_ops (d := d) (P := P) m.ops (fun op ho => (hm.ops op ho).1) x0
  rw [p0] at pc dc
  generalize hcand : m.ops.foldl (stepS d P) s0 = cand at gc pc xc
  obtain ⟨s', q1, q2, q3, q4⟩ := mcmcEval_full hc gc (by rw [pc]; exact dc) fromPrior (checks debug c.1.iStep) hm.cl hm.cf hm.pr
  have hy : geoUsed P fromPrior (checks debug c.1.iStep) cand = x := by
    unfold geoUsed
    split
    · exact hx _
    · exact evalGeo_cached xc
  rw [hy, pc, fixGeo_const hx, if_neg (fun hh => hh.2 (hx _).symm)] at q3
  rw [hy] at q4
  have q4 := q4 (fun hh => hh.2 (hx _).symm)
  have hobs := obsAfter_full hc gc (by rw [pc]; exact dc) fromPrior (checks debug c.1.iStep) hm.cl hm.cf
    (if m.onCopy then none else c.2.obs)
  have hbefore : fromPrior = true → (if m.onCopy then none else c.2.obs) = none := by
    intro hf
    split
    · rfl
    · rw [h.attrs]; simp [hf]
  have hobs' : obsAfter d fromPrior (checks debug c.1.iStep) m.orders cand (if m.onCopy then none else c.2.obs) =
      if fromPrior then none else some (idealObs d (m.ops.foldl paramOp c.1.sample.params)) := by
    rw [hobs, pc]
    by_cases hf : fromPrior = true
    · rw [if_pos hf, if_pos hf, hbefore hf]
    · rw [if_neg hf, if_neg hf]
  unfold stepL idealStep
  dsimp only
  rw [hold, e0, hcand, q3, hobs', ← h.ll, ← h.prior]
  dsimp only
  by_cases ha : m.accept (idealLh d P fromPrior (m.ops.foldl paramOp c.1.sample.params)) c.1.ll
      (idealPrior d P (m.ops.foldl paramOp c.1.sample.params)) c.1.prior = true
  · rw [if_pos ha, if_pos ha]
    refine ⟨_, rfl, ⟨⟨q1, ?_, q4⟩, ?_, ?_, ?_⟩, rfl, q2.trans pc⟩
    · show DisjointGroups s'.params.clusters; rw [q2, pc]; exact dc
    · show _ = idealLh d P fromPrior s'.params; rw [q2, pc]
    · show _ = idealPrior d P s'.params; rw [q2, pc]
    · show _ = Attrs.mk (some (idealLh d P fromPrior s'.params)) (some (idealPrior d P s'.params))
        (if fromPrior then none else some (idealObs d s'.params))
      rw [q2, pc]
  · rw [if_neg ha, if_neg ha]
    by_cases hcp : m.onCopy = true
    · rw [if_pos hcp]
      have hl := good_harmless (d := d) (P := P) hc m.late
        (fun op ho => harmless_of_readOnly (hm.late op ho).1 (hm.late op ho).2) hpre.1 (by rw [hpre.2]; exact hb.disjoint)
      have hl2 : (m.late.foldl (stepS d P) old).params = c.1.sample.params := hl.2.trans hpre.2
      have hl3 := geo_ops (d := d) (P := P) m.late (fun op ho => operatorOp_of_readOnly (hm.late op ho).1) gpre
      generalize m.late.foldl (stepS d P) old = t at hl hl2 hl3
      refine ⟨_, rfl, ⟨⟨hl.1, ?_, hl3⟩, ?_, ?_, ?_⟩, rfl, hl2⟩
      · show DisjointGroups t.params.clusters; rw [hl2]; exact hb.disjoint
      · show _ = idealLh d P fromPrior t.params; rw [hl2]; exact h.ll
      · show _ = idealPrior d P t.params; rw [hl2]; exact h.prior
      · show c.2 = Attrs.mk (some (idealLh d P fromPrior t.params)) (some (idealPrior d P t.params))
          (if fromPrior then none else some (idealObs d t.params))
        rw [hl2]; exact h.attrs
    · rw [if_neg hcp]
      have hro : ∀ op ∈ m.ops, ReadOnly op := by
        rcases hm.inPlace (by simpa using hcp) with hall | hro
        · exact absurd (hall _ _ _ _) ha
        · exact hro
      have hsame : m.ops.foldl paramOp c.1.sample.params = c.1.sample.params := paramOp_readOnly hro _
      rw [hsame] at pc ⊢
      have hq : s'.params = c.1.sample.params := q2.trans pc
      refine ⟨_, rfl, ⟨⟨q1, ?_, q4⟩, ?_, ?_, ?_⟩, rfl, hq⟩
      · show DisjointGroups s'.params.clusters; rw [hq]; exact hb.disjoint
      · show _ = idealLh d P fromPrior s'.params; rw [hq]; exact h.ll
      · show _ = idealPrior d P s'.params; rw [hq]; exact h.prior
      · show _ = Attrs.mk (some (idealLh d P fromPrior s'.params)) (some (idealPrior d P s'.params))
          (if fromPrior then none else some (idealObs d s'.params))
        rw [hq]

theorem screen_full (hc : ∀ c, DisjointGroups (d.confGroups c)) {x : 𝕜} {fromPrior : Bool}
    {c : LState 𝕜 K N F S M nG} (h : LInv d P fromPrior x c) (debug : Bool) {i : ℕ} (hi : c.1.iStep = i) {o : Orders K M nG}
    (h1 : VisitsAll o.cl) (h2 : ∀ c, VisitsAll (o.cf c)) :
    ∃ c', screen d P debug fromPrior o c i = some c' ∧ LInv d P fromPrior x c' ∧ c'.1.sample.params = c.1.sample.params := by
  unfold screen
  by_cases hk : (i + 1) % 1000 = 0
  · rw [if_pos hk]
    have hch : checks debug c.1.iStep = false := by
      unfold checks
      rw [hi, decide_eq_false (show ¬ i % 10 = 0 by omega)]
      simp
    have hb := h.between
    rw [hch]
    obtain ⟨a1, a2, a3⟩ := evalLh_full hc hb.good hb.disjoint true h1 h2
    have hobs := obsAfter_full hc hb.good hb.disjoint fromPrior false h1 h2 c.2.obs
    cases fromPrior with
    | true =>
      refine ⟨_, rfl, ⟨hb, h.ll, h.prior, ?_⟩, rfl⟩
      show Attrs.mk (some 0) _ _ = _
      rw [hobs, h.attrs]
      rfl
    | false =>
      have hm : mcmcLh d P false false o c.1.sample = some ((evalLh d c.1.sample true o.cl o.cf).1, idealLh d P false c.1.sample.params) := by
        unfold mcmcLh
        simp only [Bool.false_eq_true, if_false]
        rw [a3]
      rw [hm]
      generalize ht : (evalLh d c.1.sample true o.cl o.cf).1 = t at a1 a2
      refine ⟨_, rfl, ⟨⟨a1, ?_, ?_⟩, ?_, ?_, ?_⟩, a2⟩
      · show DisjointGroups t.params.clusters; rw [a2]; exact hb.disjoint
      · show t.cache.geo = _
        rw [← ht, (evalLh_rest c.1.sample true o.cl o.cf).2.2.1]; exact hb.geo
      · show _ = idealLh d P false t.params; rw [a2]; exact h.ll
      · show _ = idealPrior d P t.params; rw [a2]; exact h.prior
      · show _ = Attrs.mk (some (idealLh d P false t.params)) (some (idealPrior d P t.params))
          (if false = true then none else some (idealObs d t.params))
        rw [a2, hobs, h.attrs]
        simp
  · rw [if_neg hk]
    exact ⟨c, rfl, h, rfl⟩

/-- **C69.** If the geo-prior does not depend on the clusters, a run writes exactly the log of the ideal run: as many
entries, each with the number of the step, the parameters after it and the log-likelihood, log-prior and likelihoods of the
observations of these very parameters, everything recomputed from scratch; and it does so from any initial parameters, for
any moves, traversal orders and logging interval. -/
theorem C69_log_is_the_log_of_the_ideal_run_partial (d : ModelData N F S M nG) (P : PriorFns 𝕜 K N F S M nG)
    (hc : ∀ c, DisjointGroups (d.confGroups c)) (hconst : ∀ cl cl', P.geoP cl = P.geoP cl') (debug fromPrior : Bool)
    (o : Orders K M nG) (h1 : VisitsAll o.cl) (h2 : ∀ c, VisitsAll (o.cf c)) (h3 : ∀ c, VisitsAll (o.pr c))
    (p : Params 𝕜 K N F S M nG) (hd : DisjointGroups p.clusters) (garbage : Fin N → Fin F → Fin (M + 1) → 𝕜)
    (ms : List (Move 𝕜 K N F S M nG × Orders K M nG)) (hm : MovesOk d P fromPrior p (ms.map Prod.fst))
    (ho : ∀ x ∈ ms, VisitsAll x.2.cl ∧ ∀ c, VisitsAll (x.2.cf c)) (every i : ℕ) :
    ∃ c c', startL d P debug fromPrior o p garbage = some c ∧
      loopL d P debug fromPrior every c i ms = some (c', idealLog d P fromPrior every p i (ms.map Prod.fst)) := by
  obtain ⟨c0, e, b, r1, -, r2, r3⟩ := start_full (P := P) hc debug fromPrior h1 h2 h3 p hd garbage
  have hnew : (Sample.new d p garbage).params = p := by
    obtain ⟨a, b, c, e, f⟩ := p
    cases f <;> rfl
  have hst : ∃ c, startL d P debug fromPrior o p garbage = some c ∧ c.1 = c0 ∧ AttrsOk d P fromPrior c := by
    unfold start at e
    unfold startL
    rcases hv : mcmcEval d P fromPrior (checks debug 0) o (Sample.new d p garbage) with _ | ⟨s, l, q⟩
    · rw [hv] at e; cases e
    · rw [hv] at e
      cases e
      refine ⟨_, rfl, rfl, ?_⟩
      unfold AttrsOk
      rw [obsAfter_full hc (good_new (P := P) p garbage) (by rw [hnew]; exact hd) fromPrior _ h1 h2, hnew]
      dsimp only at r1 r2 r3 ⊢
      rw [r1, r2, r3]
  obtain ⟨c, es, rfl, ha⟩ := hst
  have hL : LInv d P fromPrior (P.geoP p.clusters) c := ⟨b, by rw [r1]; exact r2, by rw [r1]; exact r3, ha⟩
  suffices hloop : ∀ (ms : List (Move 𝕜 K N F S M nG × Orders K M nG)) (c : LState 𝕜 K N F S M nG) (i : ℕ),
      LInv d P fromPrior (P.geoP p.clusters) c → MovesOk d P fromPrior c.1.sample.params (ms.map Prod.fst) →
      (∀ x ∈ ms, VisitsAll x.2.cl ∧ ∀ c, VisitsAll (x.2.cf c)) →
      ∃ c', loopL d P debug fromPrior every c i ms =
        some (c', idealLog d P fromPrior every c.1.sample.params i (ms.map Prod.fst)) by
    obtain ⟨c', hc'⟩ := hloop ms c i hL (by rw [r1]; exact hm) ho
    rw [r1] at hc'
    exact ⟨c, c', es, hc'⟩
  intro ms
  induction ms with
  | nil => intro c i _ _ _; exact ⟨c, rfl⟩
  | cons mo ms ih =>
    obtain ⟨m, o'⟩ := mo
    intro c i hL hm ho
    obtain ⟨c₁, e₁, L₁, s₁, p₁⟩ := stepL_full hc (fun cl => hconst _ _) hL debug i hm.1
    obtain ⟨hv1, hv2⟩ := ho (m, o') List.mem_cons_self
    obtain ⟨c₂, e₂, L₂, p₂⟩ := screen_full hc L₁ debug s₁ hv1 hv2
    obtain ⟨c', e₃⟩ := ih c₂ (i + 1) L₂ (by rw [p₂, p₁]; exact hm.2) (fun x hx => ho x (List.mem_cons_of_mem _ hx))
    refine ⟨c', ?_⟩
    have hent : (⟨c₁.1.iStep, c₁.1.sample.params, c₁.2⟩ : Entry 𝕜 K N F S M nG) =
        idealEntry d P fromPrior i (idealStep d P fromPrior c.1.sample.params m) := by
      unfold idealEntry
      rw [L₁.attrs, s₁, p₁]
    unfold loopL
    simp only [e₁, e₂, e₃, hent]
    rw [p₂, p₁]
    rfl

/-- The steps of the loop have the effect of the steps of C68: the loop with logs leaves the chain component alone. -/
theorem C69_logging_does_not_change_the_step (d : ModelData N F S M nG) (P : PriorFns 𝕜 K N F S M nG) (debug fromPrior : Bool)
    (c : LState 𝕜 K N F S M nG) (i : ℕ) (m : Move 𝕜 K N F S M nG) :
    (stepL d P debug fromPrior c i m).map Prod.fst = step d P debug fromPrior c.1 i m := by
  unfold stepL step
  dsimp only
  rcases mcmcEval d P fromPrior (checks debug c.1.iStep) m.orders _ with _ | ⟨s, l, q⟩
  · rfl
  · dsimp only
    split
    · rfl
    · split <;> rfl

/-- The hypotheses of C69 are met: five steps, three of them logged. -/
example : ∃ c c' : LState ℚ 1 1 1 1 0 (fun _ => 0), ∃ log,
    startL cexD { cexF with geoP := fun _ => 1 } true false ⟨[0], fun c => c.elim0, fun c => c.elim0⟩ cexP (fun _ _ _ => 0) = some c ∧
    loopL cexD { cexF with geoP := fun _ => 1 } true false 2 c 0
      (List.replicate 5 (shrinkMove, ⟨[0], fun c => c.elim0, fun c => c.elim0⟩)) = some (c', log) ∧ log.length = 3 := by
  obtain ⟨c, c', e1, e2⟩ := C69_log_is_the_log_of_the_ideal_run_partial cexD { cexF with geoP := fun _ => 1 } (fun c => c.elim0)
    (fun _ _ => rfl) true false ⟨[0], fun c => c.elim0, fun c => c.elim0⟩ visits_one (fun c => c.elim0) (fun c => c.elim0) cexP
    (disjoint_one _) (fun _ _ _ => 0) (List.replicate 5 (shrinkMove, ⟨[0], fun c => c.elim0, fun c => c.elim0⟩))
    (by rw [List.map_replicate]; exact shrinkMoves_ok _ _ _ _)
    (by intro x hx; rw [(List.mem_replicate.mp hx).2]; exact ⟨visits_one, fun c => c.elim0⟩) 2 0
  exact ⟨c, c', _, e1, e2, rfl⟩

/-- The same move, always accepted. -/
def gibbsMove : Move ℚ 1 1 1 1 0 (fun _ => 0) := { shrinkMove with accept := fun _ _ _ _ => true }

theorem gibbsMove_ok (p : Params ℚ 1 1 1 1 0 (fun _ => 0)) : MoveOk p gibbsMove :=
  { shrinkMove_ok p with inPlace := fun h => by cases h }

theorem lastPrior_of_accept {c c' : LState 𝕜 K N F S M nG} {debug fromPrior : Bool} {i : ℕ} {m : Move 𝕜 K N F S M nG}
    (ha : ∀ a b c e, m.accept a b c e = true) (h : stepL d P debug fromPrior c i m = some c') :
    c'.2.lastPrior = some c'.1.prior := by
  unfold stepL at h
  dsimp only at h
  split at h
  · cases h
  · rw [if_pos (ha _ _ _ _)] at h
    cases h
    rfl

/-- **C69 is false of the code** for geo-priors that depend on the clusters: after one accepted change of a cluster the log
holds a prior that is not the prior of the logged parameters. -/
theorem C69_logged_prior_false : ∃ c c', startL cexD cexF false false ⟨[0], fun c => c.elim0, fun c => c.elim0⟩ cexP
      (fun _ _ _ => 0) = some c ∧ MoveOk c.1.sample.params gibbsMove ∧ stepL cexD cexF false false c 0 gibbsMove = some c' ∧
      c'.2.lastPrior ≠ some (idealPrior cexD cexF c'.1.sample.params) := by
  obtain ⟨c0, e, b, r1, -⟩ := start_full (d := cexD) (P := cexF) (fun c => c.elim0) false false visits_one
    (o := ⟨[0], fun c => c.elim0, fun c => c.elim0⟩) (fun c => c.elim0) (fun c => c.elim0) cexP (disjoint_one _) (fun _ _ _ => 0)
  have hs : ∃ c, startL cexD cexF false false ⟨[0], fun c => c.elim0, fun c => c.elim0⟩ cexP (fun _ _ _ => 0) = some c ∧
      c.1 = c0 := by
    unfold start at e
    unfold startL
    rcases hv : mcmcEval cexD cexF false (checks false 0) ⟨[0], fun c => c.elim0, fun c => c.elim0⟩
      (Sample.new cexD cexP (fun _ _ _ => 0)) with _ | ⟨s, l, q⟩
    · rw [hv] at e; cases e
    · rw [hv] at e
      cases e
      exact ⟨_, rfl, rfl⟩
  obtain ⟨c, es, rfl⟩ := hs
  obtain ⟨-, hf⟩ := step_full (fun c => c.elim0) b false false 0 (gibbsMove_ok c.1.sample.params)
  obtain ⟨c₁, e₁, -, hif⟩ := hf (fun hh => by simp [checks] at hh)
  rw [if_pos (show gibbsMove.accept _ _ _ _ = true from rfl)] at hif
  obtain ⟨-, k2, -, k4⟩ := hif
  have hmap := C69_logging_does_not_change_the_step cexD cexF false false c 0 gibbsMove
  rw [e₁] at hmap
  rcases hL : stepL cexD cexF false false c 0 gibbsMove with _ | c'
  · rw [hL] at hmap; cases hmap
  · rw [hL] at hmap
    have hc' : c'.1 = c₁ := by simpa using hmap
    refine ⟨c, c', es, gibbsMove_ok _, hL, ?_⟩
    rw [lastPrior_of_accept (fun _ _ _ _ => rfl) hL, hc', k4, k2, r1, idealPrior_fix]
    intro hcon
    have h2 := Option.some.inj hcon
    have h3 : counted cexF false (checks false c.1.iStep) (cexF.geoP cexP.clusters) (gibbsMove.ops.foldl paramOp cexP) -
        cexF.geoP (gibbsMove.ops.foldl paramOp cexP).clusters = 0 := by linarith
    simp [counted, checks, gibbsMove, shrinkMove, paramOp, cexF, cexP] at h3

end SBayes.Sampler
