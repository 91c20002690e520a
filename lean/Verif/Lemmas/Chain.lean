import Verif.Spec.Chain
import Verif.Props.Posterior
/- Lemmas about the chain with caches. -/
namespace SBayes.Sampler
open SBayes.Lik SBayes.Cache SBayes.Posterior
open scoped BigOperators
set_option linter.unusedSectionVars false

variable {𝕜 : Type} [Field 𝕜] [DecidableEq 𝕜] {K N F S M : ℕ} {nG : Fin M → ℕ}
variable {d : ModelData N F S M nG} {P : PriorFns 𝕜 K N F S M nG} {s : Sample 𝕜 K N F S M nG}

theorem params_stepS (s : Sample 𝕜 K N F S M nG) (op : SOp 𝕜 K N F S M nG) :
    (stepS d P s op).params = paramOp s.params op := by
  cases op with
  | clusterEdit k f => rfl
  | clustersEditAll f => rfl
  | effectEdit k f => rfl
  | effectEditAll f => rfl
  | confEdit c g f =>
    simp only [stepS, Sample.params, paramOp]
    congr 1
    funext c'
    by_cases h : c' = c
    · subst h; simp [GP.editGroup]
    · simp [Function.update_of_ne h]
  | confEditAll c f =>
    simp only [stepS, Sample.params, paramOp]
    congr 1
    funext c'
    by_cases h : c' = c
    · subst h; simp [GP.editAll]
    · simp [Function.update_of_ne h]
  | weightsEdit f => rfl
  | sourceEdit f =>
    simp only [stepS, Sample.params, paramOp]
    congr 1
    by_cases hu : s.useSource = true <;> simp [hu, AP.edit]
  | evalLh b o o' => exact evalLh_params s b o o'
  | updateComp b o o' =>
    obtain ⟨r1, r2, r3, r4, r5, r6, _⟩ := updateComp_params (d := d) (s := s) b o o'
    show Sample.params (updateComp d s b o o') = _
    unfold Sample.params; rw [r1, r2, r3, r4, r5, r6]; rfl
  | updateWeights b =>
    obtain ⟨r1, r2, r3, r4, r5, r6, _⟩ := updateWeights_params (s := s) b
    show Sample.params (updateWeights s b) = _
    unfold Sample.params; rw [r1, r2, r3, r4, r5, r6]; rfl
  | readHas =>
    obtain ⟨r1, r2, r3, r4, r5, r6, _⟩ := readHas_params (s := s)
    show Sample.params (readHas s) = _
    unfold Sample.params; rw [r1, r2, r3, r4, r5, r6]; rfl
  | evalSize b =>
    show Sample.params (evalSize P s b).1 = _
    unfold evalSize; split <;> rfl
  | evalGeo b =>
    show Sample.params (evalGeo P s b).1 = _
    unfold evalGeo; split <;> rfl
  | evalConf c b o =>
    show Sample.params (evalConf P s c b o).1 = _
    unfold evalConf; dsimp only; split <;> rfl
  | evalSrc b =>
    show Sample.params (evalSrc P s b).1 = _
    unfold evalSrc; dsimp only; split
    · rfl
    · obtain ⟨r1, r2, r3, r4, r5, r6, _⟩ := updateWeights_params (s := s) true
      show Sample.params (updateWeights s true) = _
      unfold Sample.params; rw [r1, r2, r3, r4, r5, r6]; rfl
  | clear => rfl

/-- The invariants of the caches. -/
structure Good (d : ModelData N F S M nG) (P : PriorFns 𝕜 K N F S M nG) (s : Sample 𝕜 K N F S M nG) : Prop where
  comp : CompInv d s
  node : NodeInv d P s
  conf : ConfInv P s

theorem good_new (p : Params 𝕜 K N F S M nG) (g) : Good d P (Sample.new d p g) :=
  ⟨compInv_new p g, nodeInv_new p g, confInv_new p g⟩

theorem good_copy (h : Good d P s) : Good d P (s.copy d) := ⟨compInv_copy h.comp, nodeInv_copy h.node, confInv_copy h.conf⟩

theorem good_step (hc : ∀ c, DisjointGroups (d.confGroups c)) (h : Good d P s) {op : SOp 𝕜 K N F S M nG} (ho : OpOk s op) :
    Good d P (stepS d P s op) := ⟨stepS_compInv hc h.comp ho, stepS_nodeInv h.node op, stepS_confInv h.conf ho⟩

/-- Operations that leave the parameters alone and are fine for disjoint clusters. -/
def Harmless (op : SOp 𝕜 K N F S M nG) : Prop :=
  (∀ p : Params 𝕜 K N F S M nG, paramOp p op = p) ∧
    ∀ s : Sample 𝕜 K N F S M nG, DisjointGroups s.params.clusters → OpOk s op

theorem harmless_of_readOnly {op : SOp 𝕜 K N F S M nG} (h : ReadOnly op) (ht : Traverses op) : Harmless op := by
  cases op <;> first | exact h.elim | skip
  · exact ⟨fun _ => rfl, fun s hs => ⟨hs, ht⟩⟩
  · exact ⟨fun _ => rfl, fun s hs => ⟨hs, ht⟩⟩
  · exact ⟨fun _ => rfl, fun s hs => trivial⟩
  · exact ⟨fun _ => rfl, fun s hs => trivial⟩
  · exact ⟨fun _ => rfl, fun s hs => trivial⟩
  · exact ⟨fun _ => rfl, fun s hs => ht⟩
  · exact ⟨fun _ => rfl, fun s hs => trivial⟩

theorem good_harmless (hc : ∀ c, DisjointGroups (d.confGroups c)) (ops : List (SOp 𝕜 K N F S M nG))
    (ho : ∀ op ∈ ops, Harmless op) (h : Good d P s) (hd : DisjointGroups s.params.clusters) :
    Good d P (ops.foldl (stepS d P) s) ∧ (ops.foldl (stepS d P) s).params = s.params := by
  induction ops generalizing s with
  | nil => exact ⟨h, rfl⟩
  | cons op ops ih =>
    have h1 := ho op List.mem_cons_self
    have hp : (stepS d P s op).params = s.params := by rw [params_stepS, h1.1]
    obtain ⟨a, b⟩ := ih (s := stepS d P s op) (fun o h => ho o (List.mem_cons_of_mem _ h)) (good_step hc h (h1.2 s hd))
      (by rw [hp]; exact hd)
    exact ⟨a, b.trans hp⟩

theorem opOk_of_operatorOp {op : SOp 𝕜 K N F S M nG} (h : OperatorOp op) (ht : Traverses op)
    (hd : DisjointGroups s.params.clusters) : OpOk s op := by
  by_cases hr : ReadOnly op
  · exact (harmless_of_readOnly hr ht).2 s hd
  · cases op <;> first | exact trivial | exact absurd h hr

theorem good_ops (hc : ∀ c, DisjointGroups (d.confGroups c)) (ops : List (SOp 𝕜 K N F S M nG))
    (ho : ∀ op ∈ ops, OperatorOp op ∧ Traverses op) (h : Good d P s) (hd : DisjointGroups s.params.clusters)
    (ha : DisjointAlong s.params ops) :
    Good d P (ops.foldl (stepS d P) s) ∧ (ops.foldl (stepS d P) s).params = ops.foldl paramOp s.params ∧
      DisjointGroups (ops.foldl paramOp s.params).clusters := by
  induction ops generalizing s with
  | nil => exact ⟨h, rfl, hd⟩
  | cons op ops ih =>
    obtain ⟨h1, h2⟩ := ho op List.mem_cons_self
    have hp : (stepS d P s op).params = paramOp s.params op := params_stepS s op
    obtain ⟨a, b, e⟩ := ih (s := stepS d P s op) (fun o h => ho o (List.mem_cons_of_mem _ h))
      (good_step hc h (opOk_of_operatorOp h1 h2 hd)) (by rw [hp]; exact ha.1) (by rw [hp]; exact ha.2)
    rw [hp] at b e
    exact ⟨a, b, e⟩

theorem keepsGeo_of_operatorOp {op : SOp 𝕜 K N F S M nG} (h : OperatorOp op) : KeepsGeo op := by
  cases op <;> first | exact trivial | exact h | exact h.elim

theorem operatorOp_of_readOnly {op : SOp 𝕜 K N F S M nG} (h : ReadOnly op) : OperatorOp op := by
  cases op <;> first | exact trivial | exact h

theorem geo_ops (ops : List (SOp 𝕜 K N F S M nG)) (ho : ∀ op ∈ ops, OperatorOp op) {x : 𝕜}
    (h : s.cache.geo = ⟨x, some ()⟩) : (ops.foldl (stepS d P) s).cache.geo = ⟨x, some ()⟩ := by
  induction ops generalizing s with
  | nil => exact h
  | cons op ops ih =>
    exact ih (fun o h => ho o (List.mem_cons_of_mem _ h))
      (stepS_geo d P s x h op (keepsGeo_of_operatorOp (ho op List.mem_cons_self)))

/-! ### Evaluation -/

/-- The operations of `Prior.__call__`. -/
def priorOps (useSource b : Bool) (order : (c : Fin M) → List (Fin (nG c))) : List (SOp 𝕜 K N F S M nG) :=
  [.evalSize b, .evalGeo b] ++ (List.finRange M).map (fun c => .evalConf c b (order c)) ++
    (if useSource then [.evalSrc b] else [])

theorem evalConfs_steps' (b : Bool) (order : (c : Fin M) → List (Fin (nG c))) (cs : List (Fin M)) (s : Sample 𝕜 K N F S M nG) :
    (evalConfs P b order cs s).1 = (cs.map fun c => SOp.evalConf c b (order c)).foldl (stepS d P) s := by
  induction cs generalizing s with
  | nil => rfl
  | cons c cs ih => exact ih _

theorem evalPrior_steps (b : Bool) (order : (c : Fin M) → List (Fin (nG c))) (s : Sample 𝕜 K N F S M nG) :
    (evalPrior P b order s).1 = (priorOps s.useSource b order).foldl (stepS d P) s := by
  have hu : (evalConfs P b order (List.finRange M) (evalGeo P (evalSize P s b).1 b).1).1.useSource = s.useSource := by
    rw [(evalConfs_params b order _ _).2]
    have h1 : ∀ t : Sample 𝕜 K N F S M nG, (evalGeo P t b).1.useSource = t.useSource := by
      intro t; unfold evalGeo; split <;> rfl
    have h2 : ∀ t : Sample 𝕜 K N F S M nG, (evalSize P t b).1.useSource = t.useSource := by
      intro t; unfold evalSize; split <;> rfl
    rw [h1, h2]
  unfold evalPrior priorOps
  dsimp only
  rw [hu, List.foldl_append, List.foldl_append, ← evalConfs_steps']
  cases s.useSource <;> rfl

theorem evalConfs_geo (b : Bool) (order : (c : Fin M) → List (Fin (nG c))) (cs : List (Fin M)) (s : Sample 𝕜 K N F S M nG) :
    (evalConfs P b order cs s).1.cache.geo = s.cache.geo := by
  induction cs generalizing s with
  | nil => rfl
  | cons c cs ih =>
    refine (ih _).trans ?_
    unfold evalConf; dsimp only; split <;> rfl

/-- After an evaluation of the prior, the geo-prior node holds the value that was used. -/
theorem evalPrior_geo (b : Bool) (order : (c : Fin M) → List (Fin (nG c))) (s : Sample 𝕜 K N F S M nG) :
    (evalPrior P b order s).1.cache.geo = ⟨(evalGeo P s b).2, some ()⟩ := by
  have hz : (evalSize P s b).1.cache.geo = s.cache.geo ∧ (evalSize P s b).1.clusters = s.clusters := by
    unfold evalSize; split <;> exact ⟨rfl, rfl⟩
  have hg : (evalGeo P (evalSize P s b).1 b).1.cache.geo = ⟨(evalGeo P s b).2, some ()⟩ := by
    rw [← evalGeo_congr hz.1 hz.2 b]
    generalize (evalSize P s b).1 = t
    unfold evalGeo; split
    · rename_i h
      show t.cache.geo = ⟨t.cache.geo.value, some ()⟩
      rw [← h.2]
    · rfl
  have hsrc : ∀ t : Sample 𝕜 K N F S M nG, (evalSrc P t b).1.cache.geo = t.cache.geo := by
    intro t; unfold evalSrc; dsimp only; split
    · rfl
    · exact (updateWeights_params (s := t) true).2.2.2.2.2.2.2.1
  unfold evalPrior
  dsimp only
  split
  · rw [hsrc, evalConfs_geo, hg]
  · rw [evalConfs_geo, hg]

/-- The priors with the geo-prior replaced by a constant. -/
def fixGeo (P : PriorFns 𝕜 K N F S M nG) (x : 𝕜) : PriorFns 𝕜 K N F S M nG := { P with geoP := fun _ => x }

theorem harmless_priorOps (u b : Bool) {order : (c : Fin M) → List (Fin (nG c))} (h : ∀ c, VisitsAll (order c)) :
    ∀ op ∈ (priorOps u b order : List (SOp 𝕜 K N F S M nG)), Harmless op := by
  intro op hop
  unfold priorOps at hop
  rcases List.mem_append.mp hop with hop | hop
  · rcases List.mem_append.mp hop with hop | hop
    · rcases List.mem_cons.mp hop with rfl | hop
      · exact ⟨fun _ => rfl, fun _ _ => trivial⟩
      · rw [List.mem_singleton.mp hop]; exact ⟨fun _ => rfl, fun _ _ => trivial⟩
    · obtain ⟨c, -, rfl⟩ := List.mem_map.mp hop
      exact ⟨fun _ => rfl, fun _ _ => h c⟩
  · split at hop
    · rw [List.mem_singleton.mp hop]; exact ⟨fun _ => rfl, fun _ _ => trivial⟩
    · cases hop

theorem evalPrior_full (hc : ∀ c, DisjointGroups (d.confGroups c)) (h : Good d P s) (hd : DisjointGroups s.params.clusters)
    (b : Bool) {order : (c : Fin M) → List (Fin (nG c))} (ho : ∀ c, VisitsAll (order c)) :
    Good d P (evalPrior P b order s).1 ∧ (evalPrior P b order s).1.params = s.params ∧
      (evalPrior P b order s).2 = idealPrior d (fixGeo P (evalGeo P s b).2) s.params := by
  rw [evalPrior_steps (d := d)]
  obtain ⟨a, e⟩ := good_harmless hc _ (harmless_priorOps s.useSource b ho) h hd
  exact ⟨a, e, evalPrior_val b ho h.node h.conf⟩

theorem evalLh_full (hc : ∀ c, DisjointGroups (d.confGroups c)) (h : Good d P s) (hd : DisjointGroups s.params.clusters)
    (b : Bool) {clO : List (Fin K)} {cfO : (c : Fin M) → List (Fin (nG c))} (h1 : VisitsAll clO) (h2 : ∀ c, VisitsAll (cfO c)) :
    Good d P (evalLh d s b clO cfO).1 ∧ (evalLh d s b clO cfO).1.params = s.params ∧
      ((evalLh d s b clO cfO).2.map P.logf).sum = idealLh d P false s.params := by
  refine ⟨good_step hc h (op := .evalLh b clO cfO) ⟨hd, h1, h2⟩, evalLh_params s b clO cfO, ?_⟩
  rw [evalLh_value hc h.comp h.node hd b h1 h2]
  unfold idealLh freshObservationLhs
  rw [updateComponents_all (p := s.params) hd hc (fun g => List.mem_finRange g) (fun c g => List.mem_finRange g)]
  simp

/-- The geo-prior value that enters the evaluation of a candidate. -/
def geoUsed (P : PriorFns 𝕜 K N F S M nG) (fromPrior check : Bool) (s : Sample 𝕜 K N F S M nG) : 𝕜 :=
  if check && !fromPrior then P.geoP s.params.clusters else (evalGeo P s true).2

theorem idealPrior_fix (p : Params 𝕜 K N F S M nG) (x : 𝕜) :
    idealPrior d (fixGeo P x) p = idealPrior d P p + (x - P.geoP p.clusters) := by
  unfold idealPrior fixGeo; ring

theorem idealLh_fix (b : Bool) (p : Params 𝕜 K N F S M nG) (x : 𝕜) : idealLh d (fixGeo P x) b p = idealLh d P b p := rfl

theorem evalGeo_false (s : Sample 𝕜 K N F S M nG) : (evalGeo P s false).2 = P.geoP s.params.clusters := by
  simp [evalGeo, Sample.params]

theorem mcmcPrior_full (hc : ∀ c, DisjointGroups (d.confGroups c)) (h : Good d P s) (hd : DisjointGroups s.params.clusters)
    (check : Bool) {o : Orders K M nG} (h3 : ∀ c, VisitsAll (o.pr c)) :
    ∃ s', Good d P s' ∧ s'.params = s.params ∧
      mcmcPrior P check o s =
        (if check = true ∧ (evalGeo P s true).2 ≠ P.geoP s.params.clusters then none
        else some (s', idealPrior d (fixGeo P (evalGeo P s true).2) s.params)) ∧
      (¬ (check = true ∧ (evalGeo P s true).2 ≠ P.geoP s.params.clusters) → s'.cache.geo = ⟨(evalGeo P s true).2, some ()⟩) := by
  obtain ⟨a1, a2, a3⟩ := evalPrior_full hc h hd true h3
  have a4 := evalPrior_geo (P := P) true o.pr s
  cases check with
  | false =>
    refine ⟨_, a1, a2, ?_, fun _ => a4⟩
    unfold mcmcPrior
    simp only [Bool.false_eq_true, if_false, false_and]
    rw [← a3]
  | true =>
    obtain ⟨b1, b2, b3⟩ := evalPrior_full hc a1 (by rw [a2]; exact hd) false h3
    have b4 := evalPrior_geo (P := P) false o.pr (evalPrior P true o.pr s).1
    rw [evalGeo_false, a2] at b3 b4
    refine ⟨_, b1, b2.trans a2, ?_, fun hn => ?_⟩
    · unfold mcmcPrior
      simp only [if_true, true_and]
      rw [a3, b3, idealPrior_fix, idealPrior_fix]
      by_cases hx : (evalGeo P s true).2 = P.geoP s.params.clusters
      · simp [hx]
      · have : (evalGeo P s true).2 - P.geoP s.params.clusters ≠ 0 := sub_ne_zero.mpr hx
        simp [hx, this]
    · rw [b4]
      have : (evalGeo P s true).2 = P.geoP s.params.clusters := by
        by_contra hx; exact hn ⟨rfl, hx⟩
      rw [this]

theorem mcmcEval_full (hc : ∀ c, DisjointGroups (d.confGroups c)) (h : Good d P s) (hd : DisjointGroups s.params.clusters)
    (fromPrior check : Bool) {o : Orders K M nG} (h1 : VisitsAll o.cl) (h2 : ∀ c, VisitsAll (o.cf c))
    (h3 : ∀ c, VisitsAll (o.pr c)) :
    ∃ s', Good d P s' ∧ s'.params = s.params ∧
      mcmcEval d P fromPrior check o s =
        (if check = true ∧ geoUsed P fromPrior check s ≠ P.geoP s.params.clusters then none
        else some (s', idealLh d P fromPrior s.params, idealPrior d (fixGeo P (geoUsed P fromPrior check s)) s.params)) ∧
      (¬ (check = true ∧ geoUsed P fromPrior check s ≠ P.geoP s.params.clusters) →
        s'.cache.geo = ⟨geoUsed P fromPrior check s, some ()⟩) := by
  have key : ∃ t, mcmcLh d P fromPrior check o s = some (t, idealLh d P fromPrior s.params) ∧ Good d P t ∧
      t.params = s.params ∧ (evalGeo P t true).2 = geoUsed P fromPrior check s := by
    cases fromPrior with
    | true => exact ⟨s, rfl, h, rfl, by simp [geoUsed]⟩
    | false =>
      obtain ⟨a1, a2, a3⟩ := evalLh_full hc h hd true h1 h2
      cases check with
      | false =>
        refine ⟨_, ?_, a1, a2, ?_⟩
        · unfold mcmcLh
          simp only [Bool.false_eq_true, if_false]
          rw [a3]
        · simp only [geoUsed, Bool.false_and, Bool.false_eq_true, if_false]
          exact evalGeo_congr (evalLh_rest s true o.cl o.cf).2.2.1 (evalLh_rest s true o.cl o.cf).1 true
      | true =>
        obtain ⟨b1, b2, b3⟩ := evalLh_full hc a1 (by rw [a2]; exact hd) false h1 h2
        rw [a2] at b2 b3
        refine ⟨_, ?_, b1, b2, ?_⟩
        · unfold mcmcLh
          simp only [Bool.false_eq_true, if_false, if_true]
          rw [a3, b3, if_pos rfl]
        · have hn : ((evalLh d (evalLh d s true o.cl o.cf).1 false o.cl o.cf).1.cache.geo).cached = none := by
            rw [(evalLh_rest (evalLh d s true o.cl o.cf).1 false o.cl o.cf).2.2.1]; rfl
          simp only [geoUsed, Bool.not_false, Bool.and_self, if_true]
          rw [← b2]
          unfold evalGeo
          rw [if_neg (by rw [hn]; simp)]
          rfl
  obtain ⟨t, e, ht, hp, hg⟩ := key
  obtain ⟨s', q1, q2, q3, q4⟩ := mcmcPrior_full hc ht (by rw [hp]; exact hd) check h3
  rw [hg, hp] at q3 q4
  refine ⟨s', q1, q2.trans hp, ?_, q4⟩
  unfold mcmcEval
  by_cases hh : check = true ∧ geoUsed P fromPrior check s ≠ P.geoP s.params.clusters
  · rw [if_pos hh] at q3 ⊢
    simp only [e, q3]
  · rw [if_neg hh] at q3 ⊢
    simp only [e, q3]

end SBayes.Sampler
