import Verif.Props.Logged
import Verif.Spec.LikelihoodFile
import Verif.Lemmas.Rounding
/-
C111: the likelihood file of a run.
-/
namespace SBayes.Sampler
open SBayes.Lik SBayes.Cache SBayes.Posterior
open scoped BigOperators
set_option linter.unusedSectionVars false

variable {𝕜 : Type} [Field 𝕜] [DecidableEq 𝕜] {K N F S M : ℕ} {nG : Fin M → ℕ}
variable {d : ModelData N F S M nG} {P : PriorFns 𝕜 K N F S M nG}

/-- The attributes the likelihood file depends on belong to the parameters. -/
def LhOk (d : ModelData N F S M nG) (P : PriorFns 𝕜 K N F S M nG) (p : Params 𝕜 K N F S M nG) (a : Attrs 𝕜) : Prop :=
  a.lastLh = some (idealLh d P false p) ∧ a.obs = some (idealObs d p)

theorem stepL_lhOk (hc : ∀ c, DisjointGroups (d.confGroups c)) {c c' : LState 𝕜 K N F S M nG} {x : 𝕜} (h : Between d P c.1 x)
    (ha : LhOk d P c.1.sample.params c.2) (debug : Bool) (i : ℕ) {m : Move 𝕜 K N F S M nG}
    (hm : MoveOk c.1.sample.params m) (e : stepL d P debug false c i m = some c') : LhOk d P c'.1.sample.params c'.2 := by
  have hpre := good_harmless (d := d) (P := P) hc m.pre (fun op ho => harmless_of_readOnly (hm.pre op ho).1 (hm.pre op ho).2)
    h.good h.disjoint
  unfold stepL at e
  dsimp only at e
  generalize hold : m.pre.foldl (stepS d P) c.1.sample = old at hpre e
  have h0 : ∃ s0, (if m.onCopy then old.copy d else old) = s0 ∧ Good d P s0 ∧ s0.params = c.1.sample.params := by
    refine ⟨_, rfl, ?_⟩
    by_cases hb : m.onCopy = true
    · simp only [hb, if_true]; exact ⟨good_copy hpre.1, hpre.2⟩
    · simp only [hb]; exact ⟨hpre.1, hpre.2⟩
  obtain ⟨s0, e0, g0, p0⟩ := h0
  obtain ⟨gc, pc, dc⟩ := good_ops (d := d) (P := P) hc m.ops hm.ops g0 (by rw [p0]; exact h.disjoint)
    (by rw [p0]; exact hm.disjoint)
  rw [p0] at pc dc
  rw [e0] at e
  generalize hcand : m.ops.foldl (stepS d P) s0 = cand at gc pc e
  obtain ⟨s', q1, q2, q3, q4⟩ := mcmcEval_full hc gc (by rw [pc]; exact dc) false (checks debug c.1.iStep) hm.cl hm.cf hm.pr
  have hobs := obsAfter_full hc gc (by rw [pc]; exact dc) false (checks debug c.1.iStep) hm.cl hm.cf
    (if m.onCopy then none else c.2.obs)
  rw [if_neg Bool.false_ne_true] at hobs
  rw [hobs, q3, pc] at e
  rw [pc] at q2
  split at e
  · rename_i heq; cases e
  · rename_i cand' ll prior heq
    split_ifs at heq
    cases heq
    split_ifs at e with hacc hcp
    · cases e
      exact ⟨by show some _ = some _; rw [q2], by show some _ = some _; rw [q2]⟩
    · cases e
      have hl := good_harmless (d := d) (P := P) hc m.late
        (fun op ho => harmless_of_readOnly (hm.late op ho).1 (hm.late op ho).2) hpre.1 (by rw [hpre.2]; exact h.disjoint)
      show LhOk d P (m.late.foldl (stepS d P) old).params c.2
      rw [hl.2.trans hpre.2]
      exact ha
    · cases e
      exact ⟨by show some _ = some _; rw [q2], by show some _ = some _; rw [q2]⟩

theorem screen_lhOk (hc : ∀ c, DisjointGroups (d.confGroups c)) {c c' : LState 𝕜 K N F S M nG} {x : 𝕜} (h : Between d P c.1 x)
    (ha : LhOk d P c.1.sample.params c.2) (debug : Bool) {i : ℕ} (hi : c.1.iStep = i) {o : Orders K M nG} (h1 : VisitsAll o.cl)
    (h2 : ∀ c, VisitsAll (o.cf c)) (e : screen d P debug false o c i = some c') :
    Between d P c'.1 x ∧ c'.1.sample.params = c.1.sample.params ∧ LhOk d P c'.1.sample.params c'.2 := by
  unfold screen at e
  split_ifs at e with hk
  · have hch : checks debug c.1.iStep = false := by
      unfold checks
      rw [hi, decide_eq_false (show ¬ i % 10 = 0 by omega)]
      simp
    rw [hch] at e
    obtain ⟨a1, a2, a3⟩ := evalLh_full hc h.good h.disjoint true h1 h2
    have hobs := obsAfter_full hc h.good h.disjoint false false h1 h2 c.2.obs
    rw [if_neg Bool.false_ne_true] at hobs
    have hm : mcmcLh d P false false o c.1.sample = some ((evalLh d c.1.sample true o.cl o.cf).1, idealLh d P false c.1.sample.params) := by
      unfold mcmcLh
      simp only [Bool.false_eq_true, if_false]
      rw [a3]
    rw [hm, hobs] at e
    dsimp only at e
    have e := Option.some.inj e
    subst e
    dsimp only
    refine ⟨⟨a1, ?_, ?_⟩, a2, ?_⟩
    · dsimp only; rw [a2]; exact h.disjoint
    · dsimp only
      rw [(evalLh_rest c.1.sample true o.cl o.cf).2.2.1]; exact h.geo
    · rw [a2]; exact ⟨rfl, rfl⟩
  · cases e
    exact ⟨h, rfl, ha⟩

theorem logging_inv (hc : ∀ c, DisjointGroups (d.confGroups c)) {debug : Bool} {every : ℕ} {c : LState 𝕜 K N F S M nG} {i : ℕ}
    {log : List (Entry 𝕜 K N F S M nG)} (h : Logging d P debug every c i log) :
    (∃ x, Between d P c.1 x) ∧ LhOk d P c.1.sample.params c.2 ∧
      ∀ e ∈ log, DisjointGroups e.params.clusters ∧ LhOk d P e.params e.attrs := by
  induction h with
  | start o p g c h1 h2 h3 hd e =>
    obtain ⟨c0, e', b, r1, -, r2, r3⟩ := start_full (P := P) hc debug false h1 h2 h3 p hd g
    have hnew : (Sample.new d p g).params = p := by
      obtain ⟨a, b, c, e, f⟩ := p
      cases f <;> rfl
    unfold start at e'
    unfold startL at e
    rcases hv : mcmcEval d P false (checks debug 0) o (Sample.new d p g) with _ | ⟨s, l, q⟩
    · rw [hv] at e; cases e
    · rw [hv] at e e'
      cases e
      cases e'
      refine ⟨⟨_, b⟩, ⟨?_, ?_⟩, by simp⟩
      · dsimp only at r1 r2 ⊢
        rw [r1, r2]
      · dsimp only at r1 ⊢
        rw [obsAfter_full hc (good_new (P := P) p g) (by rw [hnew]; exact hd) false _ h1 h2, hnew, r1]
        rfl
  | step c c₁ c₂ i log m o _ hm h1 h2 e₁ e₂ ih =>
    obtain ⟨⟨x, b⟩, ok, hlog⟩ := ih
    have ok₁ := stepL_lhOk hc b ok debug i hm e₁
    have hst := C69_logging_does_not_change_the_step d P debug false c i m
    rw [e₁] at hst
    obtain ⟨s1, s2⟩ := step_full hc b debug false i hm
    have hraise : ¬ (checks debug c.1.iStep = true ∧
        counted P false (checks debug c.1.iStep) x (m.ops.foldl paramOp c.1.sample.params) ≠
          P.geoP (m.ops.foldl paramOp c.1.sample.params).clusters) := by
      intro hh
      rw [s1 hh] at hst
      cases hst
    obtain ⟨c'', e'', hi, hif⟩ := s2 hraise
    rw [e''] at hst
    have hcc : c₁.1 = c'' := Option.some.inj hst
    have b₁ : ∃ y, Between d P c₁.1 y := by
      rw [hcc]
      split_ifs at hif
      · exact ⟨_, hif.1⟩
      · rcases hif.1 with hb | hb <;> exact ⟨_, hb⟩
    obtain ⟨y, b₁⟩ := b₁
    obtain ⟨b₂, p₂, ok₂⟩ := screen_lhOk hc b₁ ok₁ debug (by rw [hcc]; exact hi) h1 h2 e₂
    refine ⟨⟨_, b₂⟩, ok₂, ?_⟩
    intro e he
    rcases List.mem_append.mp he with he | he
    · exact hlog e he
    · split_ifs at he
      · rw [List.mem_singleton.mp he]
        exact ⟨b₁.disjoint, ok₁⟩
      · cases he

theorem getElem?_flatMap_const {α β : Type} {m : ℕ} (l : List α) (g : α → List β) (hg : ∀ a, (g a).length = m) (i j : ℕ)
    (hj : j < m) (a : α) (ha : l[i]? = some a) : (l.flatMap g)[i * m + j]? = (g a)[j]? := by
  induction l generalizing i with
  | nil => simp at ha
  | cons b l ih =>
    rw [List.flatMap_cons]
    cases i with
    | zero =>
      simp only [List.getElem?_cons_zero, Option.some.injEq] at ha
      subst ha
      rw [Nat.zero_mul, Nat.zero_add, List.getElem?_append_left (by rw [hg]; exact hj)]
    | succ i =>
      rw [List.getElem?_cons_succ] at ha
      rw [List.getElem?_append_right (by rw [hg]; nlinarith), hg,
        show (i + 1) * m + j - m = i * m + j by rw [Nat.succ_mul]; omega]
      exact ih i ha

theorem filter_one {C : ℕ} (q : Fin C → Bool) (c : Fin C) (hc : q c = true) (hu : ∀ c', q c' = true → c' = c) :
    (List.finRange C).filter q = [c] := by
  have h1 : (List.finRange C).filter q = (List.finRange C).filter fun c' => c' == c := by
    refine List.filter_congr fun a _ => ?_
    by_cases ha : a = c
    · subst ha; simp [hc]
    · have : q a ≠ true := fun hh => ha (hu a hh)
      simp [ha, this]
  rw [h1, List.filter_beq, List.count_eq_one_of_mem (List.nodup_finRange C) (List.mem_finRange c)]
  rfl

/-- With exactly one component per observation, the selected entries of the raveled array are the entries of the
observations in row-major order. -/
theorem observationLhs_source {C : ℕ} (lh w : Fin N → Fin F → Fin C → 𝕜) (a : Fin N → Fin F → Fin C)
    (src : Fin N → Fin F → Fin C → Bool) (h : ∀ n f, src n f (a n f) = true ∧ ∀ c, src n f c = true → c = a n f) :
    observationLhs lh w (some src) = (List.finRange N).flatMap fun n => (List.finRange F).map fun f => lh n f (a n f) := by
  unfold observationLhs ravelIdx
  dsimp only
  rw [List.filter_flatMap, List.map_flatMap]
  congr 1
  funext n
  rw [List.filter_flatMap, List.map_flatMap]
  rw [← List.flatMap_pure_eq_map]
  congr 1
  funext f
  rw [List.filter_map]
  have : ((fun t : Fin N × Fin F × Fin C => src t.1 t.2.1 t.2.2) ∘ fun c => (n, f, c)) = fun c => src n f c := rfl
  rw [this, filter_one _ _ (h n f).1 (h n f).2]
  rfl

theorem observation_entry (g : Fin N → Fin F → 𝕜) (n : Fin N) (f : Fin F) :
    ((List.finRange N).flatMap fun n => (List.finRange F).map fun f => g n f)[n.val * F + f.val]? = some (g n f) := by
  rw [getElem?_flatMap_const (m := F) _ _ (by simp) n.val f.val f.isLt n (by simp)]
  simp

theorem observationLhs_shape {d : ModelData N F S M nG} {p : Params 𝕜 K N F S M nG} (hs : SourcesOk p) :
    ∃ g : Fin N → Fin F → 𝕜, idealObs d p = ((List.finRange N).flatMap fun n => (List.finRange F).map fun f => g n f) ∧
      ∀ n f, match p.source with
        | some src => ∀ c, src n f c = true → g n f =
            updateComponents d p (List.finRange K) (fun c => List.finRange (nG c)) (fun _ _ _ => 0) n f c
        | none => g n f = ∑ c, normalizeWeights p.weights (hasComponents d p.clusters) n f c *
            updateComponents d p (List.finRange K) (fun c => List.finRange (nG c)) (fun _ _ _ => 0) n f c := by
  unfold idealObs freshObservationLhs
  rcases hp : p.source with _ | src
  · exact ⟨_, rfl, fun _ _ => rfl⟩
  · have h := hs src hp
    choose a ha hu using h
    refine ⟨fun n f => updateComponents d p (List.finRange K) (fun c => List.finRange (nG c)) (fun _ _ _ => 0) n f (a n f), ?_, ?_⟩
    · exact observationLhs_source _ _ a src fun n f => ⟨ha n f, fun c hc => hu n f c hc⟩
    · intro n f c hcs
      dsimp only
      rw [hu n f c hcs]

theorem componentLhs_update {d : ModelData N F S M nG} {p : Params 𝕜 K N F S M nG} (hd : DisjointGroups p.clusters)
    (hc : ∀ c, DisjointGroups (d.confGroups c)) (n : Fin N) (f : Fin F) :
    ComponentLhs d p n f (updateComponents d p (List.finRange K) (fun c => List.finRange (nG c)) (fun _ _ _ => 0) n f) := by
  have h0 := C09_component_likelihood_is_specified d.features p.clusterEffect p.clusters hd (List.finRange K)
    (fun k => List.mem_finRange k) (fun _ _ => (0 : 𝕜))
  have h1 := fun c => C09_component_likelihood_is_specified d.features (p.confEffect c) (d.confGroups c) (hc c)
    (List.finRange (nG c)) (fun k => List.mem_finRange k) (fun _ _ => (0 : 𝕜))
  refine ⟨?_, ?_, ?_, ?_, ?_⟩
  · intro hm c
    refine Fin.cases ?_ (fun c => ?_) c
    · exact h0.missing n f hm
    · exact (h1 c).missing n f hm
  · intro s k ho hk; exact h0.member n f s k ho hk
  · intro s ho hk; exact h0.outside n f s ho hk
  · intro s c g ho hg; exact (h1 c).member n f s g ho hg
  · intro s c ho hg; exact (h1 c).outside n f s ho hg

theorem idealObs_entries {d : ModelData N F S M nG} {p : Params 𝕜 K N F S M nG} (hd : DisjointGroups p.clusters)
    (hc : ∀ c, DisjointGroups (d.confGroups c)) (hs : SourcesOk p) :
    (idealObs d p).length = N * F ∧
      ∀ (n : Fin N) (f : Fin F), ∃ v, (idealObs d p)[n.val * F + f.val]? = some v ∧ ObservationLh d p n f v := by
  obtain ⟨g, hg, hv⟩ := observationLhs_shape (d := d) hs
  refine ⟨by rw [hg]; simp [List.length_flatMap], fun n f => ⟨g n f, ?_, ?_⟩⟩
  · rw [hg]; exact observation_entry g n f
  · refine ⟨_, componentLhs_update hd hc n f, ?_⟩
    have := hv n f
    rcases hp : p.source with _ | src
    · rw [hp] at this
      dsimp only at this ⊢
      rw [this, Finset.sum_div]
      refine Finset.sum_congr rfl fun c _ => ?_
      unfold normalizeWeights
      rw [div_mul_eq_mul_div]
    · rw [hp] at this
      exact this

theorem writeLikelihoods_ok (r : 𝕜 → 𝕜) (log : List (Entry 𝕜 K N F S M nG)) (obs : Entry 𝕜 K N F S M nG → List 𝕜)
    (h : ∀ e ∈ log, e.attrs.obs = some (obs e) ∧ (obs e).length = N * F) (t : Table 𝕜) (ht : t.width = N * F) :
    writeLikelihoods r (some t) log = some (some ⟨N * F, t.rows ++ log.map fun e => (obs e).map r⟩) := by
  induction log generalizing t with
  | nil => unfold writeLikelihoods; rw [← ht]; simp
  | cons e log ih =>
    obtain ⟨h1, h2⟩ := h e List.mem_cons_self
    unfold writeLikelihoods writeLikelihood Table.append
    simp only [h1]
    rw [if_pos (by rw [h2, ht])]
    dsimp only
    rw [ih (fun e he => h e (List.mem_cons_of_mem _ he)) ⟨t.width, t.rows ++ [(obs e).map r]⟩ ht]
    simp

/-- **C111.** Whatever the run (any initial parameters with disjoint clusters, any moves, priors and logging interval), as
long as each observation of the logged samples is attributed to exactly one component or there are no sources: writing the
likelihood file never fails, and it has one row for every logged sample, in the order of logging, with one number for every
object and feature, object by object: the likelihood of that observation under the logged parameters (1 if it is missing), as
the file stores it. The logarithms of the likelihoods of the row add up to the log-likelihood in the same sample. -/
theorem C111_likelihood_file (d : ModelData N F S M nG) (P : PriorFns 𝕜 K N F S M nG)
    (hc : ∀ c, DisjointGroups (d.confGroups c)) (hNF : 0 < N * F) (r : 𝕜 → 𝕜) (debug : Bool) (every i : ℕ)
    (c : LState 𝕜 K N F S M nG) (log : List (Entry 𝕜 K N F S M nG)) (h : Logging d P debug every c i log)
    (hs : ∀ e ∈ log, SourcesOk e.params) (hne : log ≠ []) :
    ∃ rows, likelihoodFile r false log = some (some ⟨N * F, rows.map fun row => row.map r⟩) ∧
      List.Forall₂ (fun (e : Entry 𝕜 K N F S M nG) (row : List 𝕜) =>
        row.length = N * F ∧
        (∀ (n : Fin N) (f : Fin F), ∃ v, row[n.val * F + f.val]? = some v ∧ ObservationLh d e.params n f v) ∧
        e.attrs.lastLh = some (row.map P.logf).sum) log rows := by
  obtain ⟨-, -, hlog⟩ := logging_inv hc h
  refine ⟨log.map fun e => idealObs d e.params, ?_, ?_⟩
  · unfold likelihoodFile
    rw [if_neg (by simp)]
    cases log with
    | nil => exact absurd rfl hne
    | cons e log =>
      have hcreate : writeLikelihoods r none (e :: log) = writeLikelihoods r (some ⟨N * F, []⟩) (e :: log) := by
        unfold writeLikelihoods writeLikelihood createTable
        simp only [if_neg (show ¬ N * F = 0 by omega)]
      rw [hcreate, writeLikelihoods_ok r _ (fun e => idealObs d e.params)
        (fun e he => ⟨(hlog e he).2.2, (idealObs_entries (hlog e he).1 hc (hs e he)).1⟩) _ rfl]
      simp [Function.comp_def]
  · rw [List.forall₂_map_right_iff, List.forall₂_same]
    intro e he
    obtain ⟨h1, h2⟩ := idealObs_entries (hlog e he).1 hc (hs e he)
    exact ⟨h1, h2, (hlog e he).2.1⟩

/-- A run that samples from the prior has no likelihood file. -/
theorem C111_no_file_when_sampling_from_the_prior (r : 𝕜 → 𝕜) (log : List (Entry 𝕜 K N F S M nG)) :
    likelihoodFile r true log = some none := rfl

/-- The likelihood of a missing observation is 1: with sources always, without them if the weights of the components of the
object do not add up to 0. -/
theorem C111_missing_observations (d : ModelData N F S M nG) (p : Params 𝕜 K N F S M nG) (hs : SourcesOk p) (n : Fin N) (f : Fin F)
    (hm : Missing d.features n f)
    (hw : p.source = none → ∑ c, p.weights f c * b2n 𝕜 (hasComponents d p.clusters n c) ≠ 0) (v : 𝕜)
    (hv : ObservationLh d p n f v) : v = 1 := by
  obtain ⟨l, hl, h⟩ := hv
  have h1 := hl.missing hm
  rcases hp : p.source with _ | src
  · rw [hp] at h
    dsimp only at h
    rw [h]
    simp only [h1, mul_one]
    exact div_self (hw hp)
  · rw [hp] at h
    obtain ⟨c, hcs, -⟩ := hs src hp n f
    rw [h c hcs, h1]

/-- A sample with more or fewer selected likelihoods than observations cannot be written: the assumption about the sources is
needed. -/
theorem C111_assumption_is_needed (r : 𝕜 → 𝕜) (e : Entry 𝕜 K N F S M nG) (row : List 𝕜) (h : e.attrs.obs = some row)
    (hlen : row.length ≠ N * F) : likelihoodFile r false [e] = none := by
  unfold likelihoodFile writeLikelihoods writeLikelihood createTable Table.append
  by_cases h0 : N * F = 0
  · simp [h0]
  · simp [h0, h, hlen]

/-- The hypotheses of C111 are met: a run whose sample is logged once. -/
example : ∃ (c : LState ℚ 1 1 1 1 0 (fun _ => 0)) (log : List (Entry ℚ 1 1 1 1 0 (fun _ => 0))),
    Logging cexD cexF false 1 c 1 log ∧ log ≠ [] ∧ ∀ e ∈ log, SourcesOk e.params := by
  obtain ⟨c, c', e1, hm, e2, -⟩ := C69_logged_prior_false
  have hsc : screen cexD cexF false false ⟨[0], fun c => c.elim0, fun c => c.elim0⟩ c' 0 = some c' := by
    unfold screen
    rw [if_neg (by omega)]
  have hl : Logging cexD cexF false 1 c 0 [] :=
    .start _ cexP _ c visits_one (fun c => c.elim0) (fun c => c.elim0) (disjoint_one _) e1
  refine ⟨c', _, .step c c' c' 0 [] gibbsMove ⟨[0], fun c => c.elim0, fun c => c.elim0⟩ hl hm visits_one
    (fun c => c.elim0) e2 hsc, by simp, ?_⟩
  have hc0 : c.1.sample.params = cexP := by
    obtain ⟨c0, e, -, r1, -⟩ := start_full (d := cexD) (P := cexF) (fun c => c.elim0) false false visits_one
      (o := ⟨[0], fun c => c.elim0, fun c => c.elim0⟩) (fun c => c.elim0) (fun c => c.elim0) cexP (disjoint_one _) (fun _ _ _ => 0)
    unfold start at e
    unfold startL at e1
    rcases hv : mcmcEval cexD cexF false (checks false 0) ⟨[0], fun c => c.elim0, fun c => c.elim0⟩
      (Sample.new cexD cexP (fun _ _ _ => 0)) with _ | ⟨s, l, q⟩
    · rw [hv] at e; cases e
    · rw [hv] at e e1
      cases e
      cases e1
      exact r1
  obtain ⟨⟨x, b⟩, -⟩ := logging_inv (fun c => c.elim0) hl
  obtain ⟨-, hf⟩ := step_full (fun c => c.elim0) b false false 0 (gibbsMove_ok c.1.sample.params)
  obtain ⟨c₁, e₁, -, hif⟩ := hf (fun hh => by simp [checks] at hh)
  rw [if_pos (show gibbsMove.accept _ _ _ _ = true from rfl)] at hif
  have hmap := C69_logging_does_not_change_the_step cexD cexF false false c 0 gibbsMove
  rw [e₁, e2] at hmap
  have hc' : c'.1 = c₁ := Option.some.inj hmap
  intro e he src hsrc
  rw [if_pos (Nat.zero_mod 1), List.nil_append, List.mem_singleton] at he
  rw [he, hc', hif.2.1, hc0] at hsrc
  cases hsrc

end SBayes.Sampler
