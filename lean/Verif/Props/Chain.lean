import Verif.Lemmas.Chain
/-
C68: what the caches change in a whole run of a chain.
-/
namespace SBayes.Sampler
open SBayes.Lik SBayes.Cache SBayes.Posterior
open scoped BigOperators
set_option linter.unusedSectionVars false

variable {𝕜 : Type} [Field 𝕜] [DecidableEq 𝕜] {K N F S M : ℕ} {nG : Fin M → ℕ}
variable {d : ModelData N F S M nG} {P : PriorFns 𝕜 K N F S M nG}

/-- Samples as they are between the steps of a chain. -/
structure Between (d : ModelData N F S M nG) (P : PriorFns 𝕜 K N F S M nG) (c : ChainState 𝕜 K N F S M nG) (x : 𝕜) :
    Prop where
  good : Good d P c.sample
  disjoint : DisjointGroups c.sample.params.clusters
  geo : c.sample.cache.geo = ⟨x, some ()⟩

theorem geo_copy {s : Sample 𝕜 K N F S M nG} : (s.copy d).cache.geo = s.cache.geo := rfl

theorem params_copy {s : Sample 𝕜 K N F S M nG} : (s.copy d).params = s.params := rfl

theorem evalGeo_cached {s : Sample 𝕜 K N F S M nG} {x : 𝕜} (h : s.cache.geo = ⟨x, some ()⟩) : (evalGeo P s true).2 = x := by
  simp [evalGeo, h]

theorem paramOp_readOnly {ops : List (SOp 𝕜 K N F S M nG)} (h : ∀ op ∈ ops, ReadOnly op) (p : Params 𝕜 K N F S M nG) :
    ops.foldl paramOp p = p := by
  induction ops generalizing p with
  | nil => rfl
  | cons op ops ih =>
    rw [List.foldl_cons]
    have : paramOp p op = p := by
      have := h op List.mem_cons_self
      cases op <;> first | rfl | exact this.elim
    rw [this]
    exact ih (fun o ho => h o (List.mem_cons_of_mem _ ho)) p

/-- The value of the geo-prior that counts for the candidate. -/
def counted (P : PriorFns 𝕜 K N F S M nG) (fromPrior check : Bool) (x : 𝕜) (p : Params 𝕜 K N F S M nG) : 𝕜 :=
  if check && !fromPrior then P.geoP p.clusters else x

/-- One step, for every kind of prior and every setting. -/
theorem step_full (hc : ∀ c, DisjointGroups (d.confGroups c)) {c : ChainState 𝕜 K N F S M nG} {x : 𝕜} (h : Between d P c x)
    (debug fromPrior : Bool) (i : ℕ) {m : Move 𝕜 K N F S M nG} (hm : MoveOk c.sample.params m) :
    let p' := m.ops.foldl paramOp c.sample.params
    let y := counted P fromPrior (checks debug c.iStep) x p'
    (checks debug c.iStep = true ∧ y ≠ P.geoP p'.clusters → step d P debug fromPrior c i m = none) ∧
    (¬ (checks debug c.iStep = true ∧ y ≠ P.geoP p'.clusters) → ∃ c', step d P debug fromPrior c i m = some c' ∧ c'.iStep = i ∧
      if m.accept (idealLh d P fromPrior p') c.ll (idealPrior d (fixGeo P y) p') c.prior then
        Between d P c' y ∧ c'.sample.params = p' ∧ c'.ll = idealLh d P fromPrior p' ∧ c'.prior = idealPrior d (fixGeo P y) p'
      else (Between d P c' x ∨ Between d P c' y) ∧ c'.sample.params = c.sample.params ∧ c'.ll = c.ll ∧ c'.prior = c.prior) := by
  have hpre := good_harmless (d := d) (P := P) hc m.pre (fun op ho => harmless_of_readOnly (hm.pre op ho).1 (hm.pre op ho).2)
    h.good h.disjoint
  have gpre := geo_ops (d := d) (P := P) m.pre (fun op ho => operatorOp_of_readOnly (hm.pre op ho).1) h.geo
  generalize hold : m.pre.foldl (stepS d P) c.sample = old at hpre gpre
  have h0 : ∃ s0, (if m.onCopy then old.copy d else old) = s0 ∧ Good d P s0 ∧ s0.params = c.sample.params ∧
      s0.cache.geo = ⟨x, some ()⟩ := by
    refine ⟨_, rfl, ?_⟩
    by_cases hb : m.onCopy = true
    · simp only [hb, if_true]; exact ⟨good_copy hpre.1, hpre.2, gpre⟩
    · simp only [hb]; exact ⟨hpre.1, hpre.2, gpre⟩
  obtain ⟨s0, e0, g0, p0, x0⟩ := h0
  obtain ⟨gc, pc, dc⟩ := good_ops (d := d) (P := P) hc m.ops hm.ops g0 (by rw [p0]; exact h.disjoint)
    (by rw [p0]; exact hm.disjoint)
  have xc := geo_ops (d := d) (P := P) m.ops (fun op ho => (hm.ops op ho).1) x0
  rw [p0] at pc dc
  have glate : m.onCopy = true → Good d P (m.late.foldl (stepS d P) old) ∧
      (m.late.foldl (stepS d P) old).params = c.sample.params ∧ (m.late.foldl (stepS d P) old).cache.geo = ⟨x, some ()⟩ := by
    intro _
    have := good_harmless (d := d) (P := P) hc m.late
      (fun op ho => harmless_of_readOnly (hm.late op ho).1 (hm.late op ho).2) hpre.1 (by rw [hpre.2]; exact h.disjoint)
    exact ⟨this.1, this.2.trans hpre.2, geo_ops (d := d) (P := P) m.late
      (fun op ho => operatorOp_of_readOnly (hm.late op ho).1) gpre⟩
  generalize hcand : m.ops.foldl (stepS d P) s0 = cand at gc pc xc
  obtain ⟨s', q1, q2, q3, q4⟩ := mcmcEval_full hc gc (by rw [pc]; exact dc) fromPrior (checks debug c.iStep) hm.cl hm.cf hm.pr
  have hy : geoUsed P fromPrior (checks debug c.iStep) cand =
      counted P fromPrior (checks debug c.iStep) x (m.ops.foldl paramOp c.sample.params) := by
    unfold geoUsed counted
    rw [pc, evalGeo_cached xc]
  rw [hy, pc] at q3 q4
  intro p' y
  have hstep : ∀ r, mcmcEval d P fromPrior (checks debug c.iStep) m.orders cand = r →
      step d P debug fromPrior c i m = match r with
        | none => none
        | some (cand', ll, prior) =>
          if m.accept ll c.ll prior c.prior then some ⟨cand', i, ll, prior⟩
          else some ⟨if m.onCopy then m.late.foldl (stepS d P) old else cand', i, c.ll, c.prior⟩ := by
    intro r hr
    unfold step
    dsimp only
    rw [hold, e0, hcand, hr]
    rcases r with _ | ⟨_, _, _⟩ <;> rfl
  refine ⟨fun hn => ?_, fun hn => ?_⟩
  · rw [if_pos hn] at q3
    rw [hstep _ q3]
  · rw [if_neg hn] at q3
    rw [hstep _ q3]
    dsimp only
    by_cases ha : m.accept (idealLh d P fromPrior p') c.ll (idealPrior d (fixGeo P y) p') c.prior = true
    · rw [if_pos ha]
      refine ⟨_, rfl, rfl, ?_⟩
      rw [if_pos ha]
      exact ⟨⟨q1, by rw [q2, pc]; exact dc, q4 hn⟩, q2.trans pc, rfl, rfl⟩
    · rw [if_neg ha]
      refine ⟨_, rfl, rfl, ?_⟩
      rw [if_neg ha]
      by_cases hb : m.onCopy = true
      · obtain ⟨l1, l2, l3⟩ := glate hb
        simp only [hb, if_true]
        exact ⟨.inl ⟨l1, by rw [l2]; exact h.disjoint, l3⟩, l2, trivial, trivial⟩
      · simp only [hb]
        have hro : ∀ op ∈ m.ops, ReadOnly op := by
          rcases hm.inPlace (by simpa using hb) with hall | hro
          · exact absurd (hall _ _ _ _) ha
          · exact hro
        have hsame : m.ops.foldl paramOp c.sample.params = c.sample.params := paramOp_readOnly hro _
        have hq : s'.params = c.sample.params := q2.trans (pc.trans hsame)
        exact ⟨.inr ⟨q1, by show DisjointGroups s'.params.clusters; rw [hq]; exact h.disjoint, q4 hn⟩, hq, trivial, trivial⟩

/-- The first evaluation succeeds, is exact and caches the geo-prior of the first clusters. -/
theorem start_full (hc : ∀ c, DisjointGroups (d.confGroups c)) (debug fromPrior : Bool) {o : Orders K M nG}
    (h1 : VisitsAll o.cl) (h2 : ∀ c, VisitsAll (o.cf c)) (h3 : ∀ c, VisitsAll (o.pr c)) (p : Params 𝕜 K N F S M nG)
    (hd : DisjointGroups p.clusters) (g : Fin N → Fin F → Fin (M + 1) → 𝕜) :
    ∃ c, start d P debug fromPrior o p g = some c ∧ Between d P c (P.geoP p.clusters) ∧ c.sample.params = p ∧ c.iStep = 0 ∧
      c.ll = idealLh d P fromPrior p ∧ c.prior = idealPrior d P p := by
  have hp : (Sample.new d p g).params = p := by
    obtain ⟨a, b, c, e, f⟩ := p
    cases f <;> rfl
  obtain ⟨s', q1, q2, q3, q4⟩ := mcmcEval_full (P := P) (s := Sample.new d p g) hc (good_new p g) (by rw [hp]; exact hd) fromPrior
    (checks debug 0) h1 h2 h3
  have hy : geoUsed P fromPrior (checks debug 0) (Sample.new d p g) = P.geoP p.clusters := by
    unfold geoUsed
    rw [hp]
    split
    · rfl
    · rfl
  rw [hy, hp] at q3 q4
  have hn : ¬ (checks debug 0 = true ∧ P.geoP p.clusters ≠ P.geoP p.clusters) := fun h => h.2 rfl
  rw [if_neg hn] at q3
  unfold start
  rw [q3]
  refine ⟨_, rfl, ⟨q1, by rw [q2, hp]; exact hd, q4 hn⟩, q2.trans hp, rfl, rfl, ?_⟩
  show idealPrior d (fixGeo P _) p = _
  rw [idealPrior_fix, sub_self, add_zero]

/-- Simulation: as long as the counted geo-prior is `x`, the chain follows the ideal chain with the constant geo-prior `x`. -/
theorem run_sim (hc : ∀ c, DisjointGroups (d.confGroups c)) (debug fromPrior : Bool) (x : 𝕜)
    (hx : (∀ cl, P.geoP cl = x) ∨ debug = false) (ms : List (Move 𝕜 K N F S M nG)) :
    ∀ (c : ChainState 𝕜 K N F S M nG) (i : ℕ), Between d P c x →
      c.ll = idealLh d P fromPrior c.sample.params → c.prior = idealPrior d (fixGeo P x) c.sample.params →
      MovesOk d (fixGeo P x) fromPrior c.sample.params ms →
      ∃ c', run d P debug fromPrior c i ms = some c' ∧ Between d P c' x ∧
        c'.sample.params = idealRun d (fixGeo P x) fromPrior c.sample.params ms ∧
        c'.ll = idealLh d P fromPrior c'.sample.params ∧ c'.prior = idealPrior d (fixGeo P x) c'.sample.params := by
  induction ms with
  | nil => intro c i hb h1 h2 _; exact ⟨c, rfl, hb, rfl, h1, h2⟩
  | cons m ms ih =>
    intro c i hb h1 h2 hm
    obtain ⟨-, hs⟩ := step_full hc hb debug fromPrior i hm.1
    have hy : counted P fromPrior (checks debug c.iStep) x (m.ops.foldl paramOp c.sample.params) = x := by
      unfold counted
      split
      · rename_i hh
        rcases hx with hx | hx
        · exact hx _
        · subst hx; simp [checks] at hh
      · rfl
    rw [hy] at hs
    obtain ⟨c', e, -, hif⟩ := hs (by
      rintro ⟨hh, hne⟩
      rcases hx with hx | hx
      · exact hne (hx _).symm
      · subst hx; simp [checks] at hh)
    have hc' : Between d P c' x ∧ c'.sample.params = idealStep d (fixGeo P x) fromPrior c.sample.params m ∧
        c'.ll = idealLh d P fromPrior c'.sample.params ∧ c'.prior = idealPrior d (fixGeo P x) c'.sample.params := by
      unfold idealStep
      dsimp only
      rw [idealLh_fix, idealLh_fix, ← h1, ← h2]
      split at hif <;> rename_i hacc
      · obtain ⟨r1, r2, r3, r4⟩ := hif
        rw [if_pos hacc, r2]
        exact ⟨r1, rfl, r3, r4⟩
      · obtain ⟨r1, r2, r3, r4⟩ := hif
        rw [if_neg hacc, r2]
        exact ⟨r1.elim id id, rfl, r3.trans h1, r4.trans h2⟩
    obtain ⟨r1, r2, r3, r4⟩ := hc'
    obtain ⟨c'', e', k1, k2, k3, k4⟩ := ih c' (i + 1) r1 r3 r4 (by rw [r2]; exact hm.2)
    refine ⟨c'', ?_, k1, ?_, k3, k4⟩
    · show (match step d P debug fromPrior c i m with
        | none => none
        | some c' => run d P debug fromPrior c' (i + 1) ms) = some c''
      rw [e]; exact e'
    · rw [k2, r2]; rfl

/-! ### C68 -/

/-- **C68** (the caches are unobservable). If the geo-prior does not depend on the clusters, a chain with cached
calculations, started from any parameters and making any moves, passes all its self-checks and goes through the same
parameter values as the ideal chain that recomputes everything from the parameters; its recorded log-likelihood and
log-prior are those of its parameters. -/
theorem C68_caches_are_unobservable_partial (d : ModelData N F S M nG) (P : PriorFns 𝕜 K N F S M nG)
    (hc : ∀ c, DisjointGroups (d.confGroups c)) (hconst : ∀ cl cl', P.geoP cl = P.geoP cl') (debug fromPrior : Bool)
    (o : Orders K M nG) (h1 : VisitsAll o.cl) (h2 : ∀ c, VisitsAll (o.cf c)) (h3 : ∀ c, VisitsAll (o.pr c))
    (p : Params 𝕜 K N F S M nG) (hd : DisjointGroups p.clusters) (garbage : Fin N → Fin F → Fin (M + 1) → 𝕜)
    (ms : List (Move 𝕜 K N F S M nG)) (hm : MovesOk d P fromPrior p ms) (i : ℕ) :
    ∃ c c', start d P debug fromPrior o p garbage = some c ∧ run d P debug fromPrior c i ms = some c' ∧
      c'.sample.params = idealRun d P fromPrior p ms ∧
      c'.ll = idealLh d P fromPrior (idealRun d P fromPrior p ms) ∧
      c'.prior = idealPrior d P (idealRun d P fromPrior p ms) := by
  have hP : fixGeo P (P.geoP p.clusters) = P := by
    unfold fixGeo
    have : (fun _ : Fin K → Fin N → Bool => P.geoP p.clusters) = P.geoP := funext fun cl => hconst _ _
    rw [this]
  obtain ⟨c, e, b, r1, -, r2, r3⟩ := start_full (P := P) hc debug fromPrior h1 h2 h3 p hd garbage
  obtain ⟨c', e', -, k1, k2, k3⟩ := run_sim hc debug fromPrior (P.geoP p.clusters) (.inl fun cl => hconst _ _) ms c i b
    (by rw [r1]; exact r2) (by rw [hP, r1]; exact r3) (by rw [hP, r1]; exact hm)
  rw [hP, r1] at k1
  rw [k1] at k2 k3
  rw [hP] at k3
  exact ⟨c, c', e, e', k1, k2, k3⟩

/-- **C68** (cost-based geo-priors are ignored). Without self-checks (`python -O`), a chain follows the ideal chain in
which the geo-prior is the constant it was at the first sample, however it depends on the clusters. -/
theorem C68_geo_prior_is_frozen_at_the_first_sample (d : ModelData N F S M nG) (P : PriorFns 𝕜 K N F S M nG)
    (hc : ∀ c, DisjointGroups (d.confGroups c)) (fromPrior : Bool)
    (o : Orders K M nG) (h1 : VisitsAll o.cl) (h2 : ∀ c, VisitsAll (o.cf c)) (h3 : ∀ c, VisitsAll (o.pr c))
    (p : Params 𝕜 K N F S M nG) (hd : DisjointGroups p.clusters) (garbage : Fin N → Fin F → Fin (M + 1) → 𝕜)
    (ms : List (Move 𝕜 K N F S M nG)) (hm : MovesOk d { P with geoP := fun _ => P.geoP p.clusters } fromPrior p ms) (i : ℕ) :
    ∃ c c', start d P false fromPrior o p garbage = some c ∧ run d P false fromPrior c i ms = some c' ∧
      c'.sample.params = idealRun d { P with geoP := fun _ => P.geoP p.clusters } fromPrior p ms := by
  obtain ⟨c, e, b, r1, -, r2, r3⟩ := start_full (P := P) hc false fromPrior h1 h2 h3 p hd garbage
  obtain ⟨c', e', -, k1, -, -⟩ := run_sim hc false fromPrior (P.geoP p.clusters) (.inr rfl) ms c i b
    (by rw [r1]; exact r2) (by rw [r1, r3, idealPrior_fix]; simp) (by rw [r1]; exact hm)
  rw [r1] at k1
  exact ⟨c, c', e, e', k1⟩

/-- Chains that the program reaches, by moves that are fine at the parameters they meet. -/
inductive Reachable (d : ModelData N F S M nG) (P : PriorFns 𝕜 K N F S M nG) (debug fromPrior : Bool) :
    ChainState 𝕜 K N F S M nG → Prop
  | start (o : Orders K M nG) (p : Params 𝕜 K N F S M nG) (garbage : Fin N → Fin F → Fin (M + 1) → 𝕜)
      (c : ChainState 𝕜 K N F S M nG) : VisitsAll o.cl → (∀ c, VisitsAll (o.cf c)) → (∀ c, VisitsAll (o.pr c)) →
      DisjointGroups p.clusters → Sampler.start d P debug fromPrior o p garbage = some c → Reachable d P debug fromPrior c
  | step (c c' : ChainState 𝕜 K N F S M nG) (i : ℕ) (m : Move 𝕜 K N F S M nG) : Reachable d P debug fromPrior c →
      MoveOk c.sample.params m → Sampler.step d P debug fromPrior c i m = some c' → Reachable d P debug fromPrior c'

theorem reachable_between (hc : ∀ c, DisjointGroups (d.confGroups c)) {debug fromPrior : Bool}
    {c : ChainState 𝕜 K N F S M nG} (h : Reachable d P debug fromPrior c) :
    (∃ x, Between d P c x) ∧ c.ll = idealLh d P fromPrior c.sample.params := by
  induction h with
  | start o p g c h1 h2 h3 hd e =>
    obtain ⟨c', e', b, r1, -, r2, -⟩ := start_full (P := P) hc debug fromPrior h1 h2 h3 p hd g
    rw [e] at e'
    cases e'
    exact ⟨⟨_, b⟩, by rw [r1]; exact r2⟩
  | step c c' i m _ hm e ih =>
    obtain ⟨⟨x, b⟩, hl⟩ := ih
    obtain ⟨hs1, hs2⟩ := step_full hc b debug fromPrior i hm
    by_cases hn : checks debug c.iStep = true ∧ counted P fromPrior (checks debug c.iStep) x
        (m.ops.foldl paramOp c.sample.params) ≠ P.geoP (m.ops.foldl paramOp c.sample.params).clusters
    · rw [hs1 hn] at e; cases e
    · obtain ⟨c'', e', -, hif⟩ := hs2 hn
      rw [e] at e'
      cases e'
      split at hif
      · obtain ⟨r1, r2, r3, -⟩ := hif
        exact ⟨⟨_, r1⟩, by rw [r2]; exact r3⟩
      · obtain ⟨r1, r2, r3, -⟩ := hif
        refine ⟨r1.elim (fun h => ⟨_, h⟩) (fun h => ⟨_, h⟩), by rw [r2, r3]; exact hl⟩

/-- **C68** (self-checks). When the data are used, the self-checks of the sampler never fail, for every kind of geo-prior:
every reachable chain can make every move. The recorded log-likelihood is always that of the current parameters. -/
theorem C68_self_checks_pass (d : ModelData N F S M nG) (P : PriorFns 𝕜 K N F S M nG)
    (hc : ∀ c, DisjointGroups (d.confGroups c)) (debug : Bool) (c : ChainState 𝕜 K N F S M nG)
    (h : Reachable d P debug false c) :
    c.ll = idealLh d P false c.sample.params ∧
    ∀ (i : ℕ) (m : Move 𝕜 K N F S M nG), MoveOk c.sample.params m → ∃ c', step d P debug false c i m = some c' := by
  obtain ⟨⟨x, b⟩, hl⟩ := reachable_between hc h
  refine ⟨hl, fun i m hm => ?_⟩
  obtain ⟨-, hs⟩ := step_full hc b debug false i hm
  obtain ⟨c', e, -⟩ := hs (by
    rintro ⟨h1, h2⟩
    apply h2
    unfold counted
    simp [h1])
  exact ⟨c', e⟩

/-- **C68** (when self-checks fail). When sampling from the prior, a move fails exactly if the sample is due for a check
and the cached geo-prior is not that of the candidate's clusters. -/
theorem C68_self_check_of_the_prior (d : ModelData N F S M nG) (P : PriorFns 𝕜 K N F S M nG)
    (hc : ∀ c, DisjointGroups (d.confGroups c)) (debug : Bool) (c : ChainState 𝕜 K N F S M nG)
    (h : Reachable d P debug true c) (i : ℕ) (m : Move 𝕜 K N F S M nG) (hm : MoveOk c.sample.params m) :
    step d P debug true c i m = none ↔
      debug = true ∧ c.iStep < 1000 ∧ c.iStep % 10 = 0 ∧
        (evalGeo P c.sample true).2 ≠ P.geoP (m.ops.foldl paramOp c.sample.params).clusters := by
  obtain ⟨⟨x, b⟩, -⟩ := reachable_between hc h
  obtain ⟨hs1, hs2⟩ := step_full hc b debug true i hm
  rw [evalGeo_cached b.geo]
  have hck : checks debug c.iStep = true ↔ debug = true ∧ c.iStep < 1000 ∧ c.iStep % 10 = 0 := by
    simp [checks, and_assoc]
  have hy : counted P true (checks debug c.iStep) x (m.ops.foldl paramOp c.sample.params) = x := by simp [counted]
  rw [hy, hck] at hs1 hs2
  constructor
  · intro hn
    by_contra hcon
    obtain ⟨c', e, -⟩ := hs2 (fun hh => hcon ⟨hh.1.1, hh.1.2.1, hh.1.2.2, hh.2⟩)
    rw [hn] at e; cases e
  · rintro ⟨a1, a2, a3, a4⟩
    exact hs1 ⟨⟨a1, a2, a3⟩, a4⟩

/-! #### After the last check -/

theorem stepS_withGeo (h : (Fin K → Fin N → Bool) → 𝕜) {s : Sample 𝕜 K N F S M nG} {x : 𝕜} (_hg : s.cache.geo = ⟨x, some ()⟩)
    {op : SOp 𝕜 K N F S M nG} (ho : OperatorOp op) : stepS d { P with geoP := h } s op = stepS d P s op := by
  cases op with
  | evalGeo b => exact ho.elim
  | _ => rfl

theorem ops_withGeo (h : (Fin K → Fin N → Bool) → 𝕜) (ops : List (SOp 𝕜 K N F S M nG)) (ho : ∀ op ∈ ops, OperatorOp op)
    {s : Sample 𝕜 K N F S M nG} {x : 𝕜} (hg : s.cache.geo = ⟨x, some ()⟩) :
    ops.foldl (stepS d { P with geoP := h }) s = ops.foldl (stepS d P) s := by
  induction ops generalizing s with
  | nil => rfl
  | cons op ops ih =>
    have h1 := ho op List.mem_cons_self
    rw [List.foldl_cons, List.foldl_cons, stepS_withGeo h hg h1]
    exact ih (fun o hm => ho o (List.mem_cons_of_mem _ hm)) (stepS_geo d P s x hg op (keepsGeo_of_operatorOp h1))

theorem evalPrior_withGeo (h : (Fin K → Fin N → Bool) → 𝕜) {s : Sample 𝕜 K N F S M nG} {x : 𝕜} (hg : s.cache.geo = ⟨x, some ()⟩)
    (order : (c : Fin M) → List (Fin (nG c))) : evalPrior { P with geoP := h } true order s = evalPrior P true order s := by
  have hz : (evalSize P s true).1.cache.geo = ⟨x, some ()⟩ := by unfold evalSize; split <;> exact hg
  have e : evalGeo { P with geoP := h } (evalSize P s true).1 true = evalGeo P (evalSize P s true).1 true := by
    unfold evalGeo; rw [hz]; simp
  have ec : ∀ (cs : List (Fin M)) (t : Sample 𝕜 K N F S M nG),
      evalConfs { P with geoP := h } true order cs t = evalConfs P true order cs t := by
    intro cs
    induction cs with
    | nil => intro t; rfl
    | cons c cs ih =>
      intro t
      show (_, _) = (_, _)
      rw [ih]
      rfl
  have : evalPrior { P with geoP := h } true order s =
      (let a := evalSize P s true
       let b := evalGeo { P with geoP := h } a.1 true
       let c := evalConfs { P with geoP := h } true order (List.finRange M) b.1
       let e := if c.1.useSource then evalSrc P c.1 true else (c.1, 0)
       (e.1, a.2 + b.2 + c.2 + e.2)) := rfl
  rw [this]
  dsimp only
  rw [e, ec]
  rfl

theorem eval_withGeo (h : (Fin K → Fin N → Bool) → 𝕜) {s : Sample 𝕜 K N F S M nG} {x : 𝕜} (hg : s.cache.geo = ⟨x, some ()⟩)
    (fromPrior : Bool) (o : Orders K M nG) :
    mcmcEval d { P with geoP := h } fromPrior false o s = mcmcEval d P fromPrior false o s ∧
      ∀ r, mcmcEval d P fromPrior false o s = some r → r.1.cache.geo = ⟨x, some ()⟩ := by
  have hl : ∃ a, mcmcLh d P fromPrior false o s = some a ∧ mcmcLh d { P with geoP := h } fromPrior false o s = some a ∧
      a.1.cache.geo = ⟨x, some ()⟩ := by
    cases fromPrior with
    | true => exact ⟨_, rfl, rfl, hg⟩
    | false => exact ⟨_, rfl, rfl, by rw [(evalLh_rest s true o.cl o.cf).2.2.1]; exact hg⟩
  obtain ⟨a, e1, e2, ha⟩ := hl
  have e3 : mcmcPrior { P with geoP := h } false o a.1 = mcmcPrior P false o a.1 := by
    show some (evalPrior { P with geoP := h } true o.pr a.1) = some (evalPrior P true o.pr a.1)
    rw [evalPrior_withGeo h ha]
  refine ⟨by unfold mcmcEval; simp only [e1, e2, e3], fun r hr => ?_⟩
  unfold mcmcEval at hr
  simp only [e1] at hr
  have e4 : mcmcPrior P false o a.1 = some (evalPrior P true o.pr a.1) := rfl
  simp only [e4] at hr
  cases hr
  show (evalPrior P true o.pr a.1).1.cache.geo = _
  rw [evalPrior_geo, evalGeo_cached ha]

/-- Moves made of operations of operators. -/
def OperatorMove (m : Move 𝕜 K N F S M nG) : Prop :=
  (∀ op ∈ m.pre, OperatorOp op) ∧ (∀ op ∈ m.ops, OperatorOp op) ∧ ∀ op ∈ m.late, OperatorOp op

theorem step_withGeo (h : (Fin K → Fin N → Bool) → 𝕜) {c : ChainState 𝕜 K N F S M nG} {x : 𝕜}
    (hg : c.sample.cache.geo = ⟨x, some ()⟩) {debug : Bool} (fromPrior : Bool) (hk : checks debug c.iStep = false) (i : ℕ)
    {m : Move 𝕜 K N F S M nG} (hm : OperatorMove m) :
    step d { P with geoP := h } debug fromPrior c i m = step d P debug fromPrior c i m ∧
      ∀ c', step d P debug fromPrior c i m = some c' → c'.sample.cache.geo = ⟨x, some ()⟩ ∧ c'.iStep = i := by
  have g1 := geo_ops (d := d) (P := P) m.pre hm.1 hg
  have g2 : (m.ops.foldl (stepS d P) (if m.onCopy then (m.pre.foldl (stepS d P) c.sample).copy d
      else m.pre.foldl (stepS d P) c.sample)).cache.geo = ⟨x, some ()⟩ := by
    apply geo_ops m.ops hm.2.1
    split
    · exact g1
    · exact g1
  have o1 := ops_withGeo (d := d) (P := P) h m.pre hm.1 hg
  have o2 : m.ops.foldl (stepS d { P with geoP := h }) (if m.onCopy then (m.pre.foldl (stepS d P) c.sample).copy d
      else m.pre.foldl (stepS d P) c.sample) = m.ops.foldl (stepS d P) (if m.onCopy then
        (m.pre.foldl (stepS d P) c.sample).copy d else m.pre.foldl (stepS d P) c.sample) := by
    refine ops_withGeo (d := d) (P := P) h m.ops hm.2.1 (x := x) ?_
    split
    · exact g1
    · exact g1
  have o3 := ops_withGeo (d := d) (P := P) h m.late hm.2.2 g1
  obtain ⟨v1, v2⟩ := eval_withGeo (d := d) (P := P) h g2 fromPrior m.orders
  refine ⟨?_, fun c' e => ?_⟩
  · unfold step
    dsimp only
    rw [hk, o1, o2, o3, v1]
  · unfold step at e
    dsimp only at e
    rw [hk] at e
    rcases hv : mcmcEval d P fromPrior false m.orders (m.ops.foldl (stepS d P) (if m.onCopy then
        (m.pre.foldl (stepS d P) c.sample).copy d else m.pre.foldl (stepS d P) c.sample)) with _ | ⟨t, l, q⟩
    · rw [hv] at e; cases e
    · rw [hv] at e
      dsimp only at e
      split at e
      · cases e; exact ⟨v2 _ hv, rfl⟩
      · cases e
        refine ⟨?_, rfl⟩
        show (if m.onCopy = true then _ else t).cache.geo = _
        split
        · exact geo_ops (d := d) (P := P) m.late hm.2.2 g1
        · exact v2 _ hv

/-- **C68** (after the last self-check). From any chain on, once the steps are numbered 1000 or more (or without
self-checks), the geo-prior has no influence at all: replaced by any other function of the clusters, it leads to the very
same run. -/
theorem C68_geo_prior_has_no_influence (d : ModelData N F S M nG) (P : PriorFns 𝕜 K N F S M nG)
    (hc : ∀ c, DisjointGroups (d.confGroups c)) (debug fromPrior : Bool) (c : ChainState 𝕜 K N F S M nG)
    (hr : Reachable d P debug fromPrior c) (i : ℕ) (hi : debug = false ∨ (1000 ≤ c.iStep ∧ 1000 ≤ i))
    (ms : List (Move 𝕜 K N F S M nG)) (hm : ∀ m ∈ ms, OperatorMove m) (other : (Fin K → Fin N → Bool) → 𝕜) :
    run d { P with geoP := other } debug fromPrior c i ms = run d P debug fromPrior c i ms := by
  obtain ⟨⟨x, b⟩, -⟩ := reachable_between hc hr
  have hg := b.geo
  clear hr b
  induction ms generalizing c i with
  | nil => rfl
  | cons m ms ih =>
    have hk : checks debug c.iStep = false := by
      rcases hi with rfl | hi
      · rfl
      · unfold checks
        rw [decide_eq_false (show ¬ c.iStep < 1000 by omega)]
        simp
    obtain ⟨e1, e2⟩ := step_withGeo (d := d) (P := P) other hg fromPrior hk i (hm m List.mem_cons_self)
    show (match step d { P with geoP := other } debug fromPrior c i m with
        | none => none
        | some c' => run d { P with geoP := other } debug fromPrior c' (i + 1) ms) =
      (match step d P debug fromPrior c i m with
        | none => none
        | some c' => run d P debug fromPrior c' (i + 1) ms)
    rw [e1]
    rcases hs : step d P debug fromPrior c i m with _ | c'
    · rfl
    · obtain ⟨k1, k2⟩ := e2 c' hs
      exact ih c' (i + 1) (hi.imp id fun hi => ⟨by rw [k2]; exact hi.2, by omega⟩)
        (fun m hm' => hm m (List.mem_cons_of_mem _ hm')) k1

/-! #### Examples -/

/-- An operator that copies the sample, empties the cluster and lets the decision depend on the numbers. -/
def shrinkMove : Move ℚ 1 1 1 1 0 (fun _ => 0) where
  onCopy := true
  pre := [.updateComp true [0] (fun c => c.elim0)]
  ops := [.clusterEdit 0 (fun _ _ => false)]
  late := [.updateWeights true]
  orders := ⟨[0], fun c => c.elim0, fun c => c.elim0⟩
  accept := fun a b c e => decide (a + c ≤ b + e)

theorem disjoint_one {N : ℕ} (cl : Fin 1 → Fin N → Bool) : DisjointGroups cl := by
  intro i j n hi hj; exact Subsingleton.elim i j

theorem visits_one : VisitsAll ([0] : List (Fin 1)) := by
  intro i; rw [Subsingleton.elim i 0]; exact List.mem_singleton.mpr rfl

theorem shrinkMove_ok (p : Params ℚ 1 1 1 1 0 (fun _ => 0)) : MoveOk p shrinkMove where
  pre := by
    intro op h; rw [List.mem_singleton.mp h]
    exact ⟨rfl, visits_one, fun c => c.elim0⟩
  ops := by
    intro op h; rw [List.mem_singleton.mp h]
    exact ⟨trivial, trivial⟩
  late := by
    intro op h; rw [List.mem_singleton.mp h]
    exact ⟨trivial, trivial⟩
  disjoint := ⟨disjoint_one _, trivial⟩
  cl := visits_one
  cf := fun c => c.elim0
  pr := fun c => c.elim0
  inPlace := fun h => by cases h

/-- Runs of that move are fine for every prior, from every parameters. -/
theorem shrinkMoves_ok (P : PriorFns ℚ 1 1 1 1 0 (fun _ => 0)) (b : Bool) (p : Params ℚ 1 1 1 1 0 (fun _ => 0)) (n : ℕ) :
    MovesOk cexD P b p (List.replicate n shrinkMove) := by
  induction n generalizing p with
  | zero => trivial
  | succ n ih => exact ⟨shrinkMove_ok p, ih _⟩

/-- The hypotheses of C68 are met: three steps of a chain with constant geo-prior. -/
example : ∃ c c', start cexD { cexF with geoP := fun _ => 1 } true false ⟨[0], fun c => c.elim0, fun c => c.elim0⟩ cexP
      (fun _ _ _ => 0) = some c ∧
    run cexD { cexF with geoP := fun _ => 1 } true false c 0 (List.replicate 3 shrinkMove) = some c' ∧
    c'.sample.params = idealRun cexD { cexF with geoP := fun _ => 1 } false cexP (List.replicate 3 shrinkMove) := by
  obtain ⟨c, c', e1, e2, e3, -⟩ := C68_caches_are_unobservable_partial cexD { cexF with geoP := fun _ => 1 } (fun c => c.elim0)
    (fun _ _ => rfl) true false ⟨[0], fun c => c.elim0, fun c => c.elim0⟩ visits_one (fun c => c.elim0) (fun c => c.elim0) cexP
    (disjoint_one _) (fun _ _ _ => 0) (List.replicate 3 shrinkMove) (shrinkMoves_ok _ _ _ _) 0
  exact ⟨c, c', e1, e2, e3⟩

/-- **C68 is false of the code** for geo-priors that depend on the clusters: when sampling from the prior, the very first
step of this chain fails its self-check, although the move is fine. -/
theorem C68_self_check_fails : ∃ c, start cexD cexF true true ⟨[0], fun c => c.elim0, fun c => c.elim0⟩ cexP (fun _ _ _ => 0) =
      some c ∧ MoveOk c.sample.params shrinkMove ∧ step cexD cexF true true c 0 shrinkMove = none := by
  obtain ⟨c, e, b, r1, r2, -⟩ := start_full (d := cexD) (P := cexF) (fun c => c.elim0) true true visits_one
    (o := ⟨[0], fun c => c.elim0, fun c => c.elim0⟩) (fun c => c.elim0) (fun c => c.elim0) cexP (disjoint_one _) (fun _ _ _ => 0)
  refine ⟨c, e, shrinkMove_ok _, ?_⟩
  rw [C68_self_check_of_the_prior cexD cexF (fun c => c.elim0) true c
    (.start _ cexP _ c visits_one (fun c => c.elim0) (fun c => c.elim0) (disjoint_one _) e) 0 shrinkMove (shrinkMove_ok _)]
  refine ⟨rfl, by omega, by omega, ?_⟩
  rw [evalGeo_cached b.geo, r1]
  simp [shrinkMove, paramOp, cexF, cexP]

/-- Reachable chains exist, and the moves of the example are operator moves. -/
example : (∃ c, Reachable cexD cexF true false c) ∧ OperatorMove shrinkMove := by
  obtain ⟨c, e, -⟩ := start_full (d := cexD) (P := cexF) (fun c => c.elim0) true false visits_one
    (o := ⟨[0], fun c => c.elim0, fun c => c.elim0⟩) (fun c => c.elim0) (fun c => c.elim0) cexP (disjoint_one _) (fun _ _ _ => 0)
  refine ⟨⟨c, .start _ cexP _ c visits_one (fun c => c.elim0) (fun c => c.elim0) (disjoint_one _) e⟩, ?_, ?_, ?_⟩
  · intro op h; rw [List.mem_singleton.mp h]; exact rfl
  · intro op h; rw [List.mem_singleton.mp h]; exact trivial
  · intro op h; rw [List.mem_singleton.mp h]; exact trivial

end SBayes.Sampler
