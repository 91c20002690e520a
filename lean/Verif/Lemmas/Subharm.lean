import Verif.Lemmas.Contract
/- Functions that never decrease on average and vanish almost everywhere. -/
namespace SBayes.Meas
set_option linter.unusedSectionVars false
open SBayes.Lik SBayes.Clusters SBayes.MH SBayes.Source SBayes.Effects SBayes.Posterior SBayes.Draws SBayes.Kernel SBayes.MCMC MeasureTheory
open scoped BigOperators ENNReal

variable {K N F S M C : ℕ} {nG : Fin M → ℕ} {m : Setup K N F S M nG}

/-! ### The discrete operators -/

theorem step_good {σ : Type} {S : σ → Prop} {post : σ → ℝ} {op : σ → Rand (Result σ)} {b : ℝ} (h : ReportsRealMasses S op b) {x : σ} (hx : S x)
    {p : σ × ℝ} (hp : p ∈ MH.step post op x) (hne : p.2 ≠ 0) : S p.1 := by
  unfold MH.step at hp
  obtain ⟨r, hr, q, hq, h1, h2⟩ := mem_bind hp
  obtain ⟨y, hy, t, ht, h3, h4⟩ := mem_bind hq
  have hr0 : r.2 ≠ 0 := fun e => hne (by rw [h2, e, zero_mul])
  have e := mem_ret ht
  rw [h1, h3, e]
  show S (if y.1 then r.1.new else x)
  split
  · by_cases hn : r.1.new = x
    · rw [hn]; exact hx
    · exact (h x hx r.1 r.2 hr hr0 hn).1
  · exact hx

section Ops
variable {G : Set (Cont K F S M nG)} {l : List (Move (Cont K F S M nG))} {s : Disc K N F M × Cont K F S M nG → ℝ≥0∞} {a : ℝ≥0∞}

theorem contr_cluster (hm : WellPosed m) (hss : m.cfg.sampleSource = true) (hs : Measurable s) (hn : ∀ d, Good m d → Null G l fun c => s (d, c) - a)
    (hG : ∀ c ∈ G, Interior m.cfg.app c) (v : Bool) : Contr (Good m) G l s a (mhStep (Kernel.post m) (propose m (.cluster v))) fun _ _ => 1 := by
  refine contr_disc hs hn fun d hd c hc => ?_
  cases v
  · obtain ⟨hrep, hst⟩ := cluster_step hm hss (clusterOp_false hm) (hG c hc)
    exact ⟨_, (hst d hd).1, fun p hp hne => step_good hrep hd hp hne, (hst d hd).2 s⟩
  · obtain ⟨hrep, hst⟩ := cluster_step hm hss (clusterOp_true hm) (hG c hc)
    exact ⟨_, (hst d hd).1, fun p hp hne => step_good hrep hd hp hne, (hst d hd).2 s⟩

theorem contr_source (hm : WellPosed m) (hss : m.cfg.sampleSource = true) (hs : Measurable s) (hn : ∀ d, Good m d → Null G l fun c => s (d, c) - a)
    (hG : ∀ c ∈ G, Interior m.cfg.app c) : Contr (Good m) G l s a (mhStep (Kernel.post m) (propose m .source)) fun _ _ => 1 := by
  refine contr_disc hs hn fun d hd c hc => ?_
  obtain ⟨r, hr, ⟨-, hg⟩, hT⟩ := source_step hm hss (hG c hc) hd.1 d.2
  refine ⟨r.map fun p => ((d.1, p.1), p.2), ?_, ?_, ?_⟩
  · refine ⟨fun p hp => ?_, ?_⟩
    · obtain ⟨q, hq, rfl⟩ := List.mem_map.mp hp
      exact hr.1 q hq
    · rw [List.map_map]
      exact hr.2
  · intro p hp hne
    obtain ⟨q, hq, rfl⟩ := List.mem_map.mp hp
    exact hg q hq hne
  · rw [show ((d, c) : Disc K N F M × Cont K F S M nG) = ((d.1, d.2), c) from rfl, hT s]
    unfold Law.ofRand
    rw [List.map_map]
    rfl

end Ops

/-! ### Moves of the effects -/

/-- The effects of a cluster or of a group. -/
abbrev EBlk (K M : ℕ) (nG : Fin M → ℕ) : Type := Fin K ⊕ (Σ i : Fin M, Fin (nG i))

def effLens : EBlk K M nG → Lens (Cont K F S M nG) (Fin F → Fin S → ℝ)
  | .inl k => eLens k
  | .inr p => ceLens p.1 p.2

/-- The parameters of their conditional distribution. -/
noncomputable def effAlpha (m : Setup K N F S M nG) (q : EBlk K M nG) (d : Disc K N F M) : Fin F → Fin S → ℝ :=
  match q with
  | .inl k => gibbsAlpha (fun _ _ => 1) (attributedCounts m.d.features (sourceArray d.2) 0 (d.1 k))
  | .inr p => gibbsAlpha (concentration (m.cfg.conf p.1 p.2)) (attributedCounts m.d.features (sourceArray d.2) p.1.succ (m.d.confGroups p.1 p.2))

theorem effAlpha_pos (hm : WellPosed m) (q : EBlk K M nG) (d : Disc K N F M) (f : Fin F) (s : Fin S) (h : m.cfg.app f s = true) :
    0 < effAlpha m q d f s := by
  rcases q with k | p
  · exact alphaE_pos d k f s
  · exact alphaCE_pos hm d p.1 p.2 f s h

/-- The move of `GibbsSampleClusterEffect` and `GibbsSampleConfoundingEffects`. -/
noncomputable def effResample (m : Setup K N F S M nG) (q : EBlk K M nG) (d : Disc K N F M) : Move (Cont K F S M nG) :=
  resample m.cfg.app (effLens q) (effAlpha m q d)

theorem renew_eff (app : Fin F → Fin S → Bool) (q : EBlk K M nG) :
    (renew app (.inr q : Blk K F M nG) : Move (Cont K F S M nG)) = redraw app (effLens q) := by
  rcases q with k | p <;> rfl

theorem on_eff (q : EBlk K M nG) {P : Move (Cont K F S M nG)} (h : MovesOnly (effLens q) P) : On (.inr q : Blk K F M nG) P := by
  rcases q with k | p <;> exact h

theorem eff_get (q : EBlk K M nG) {app : Fin F → Fin S → Bool} {x : Cont K F S M nG} (h : Interior app x) (f : Fin F) :
    Row (states app f) ((effLens q).get x f) := by
  rcases q with k | p
  · exact h.e k f
  · exact h.ce p.1 p.2 f

theorem eff_set (q : EBlk K M nG) {app : Fin F → Fin S → Bool} {x : Cont K F S M nG} (h : Interior app x) {v : Fin F → Fin S → ℝ}
    (hv : ∀ f, Row (states app f) (v f)) : Interior app ((effLens q).set x v) := by
  rcases q with k | p
  · exact h.set_e k hv
  · exact h.set_ce p.1 p.2 hv

theorem on_effResample (q : EBlk K M nG) (d : Disc K N F M) : On (.inr q : Blk K F M nG) (effResample m q d) :=
  on_eff q (move_only (effLens q) _ _ (meas_merge m.cfg.app))

theorem effResample_stays (hm : WellPosed m) (q : EBlk K M nG) (d : Disc K N F M) : (effResample m q d).Stays {c | Interior m.cfg.app c} :=
  resample_stays hm.hasState (fun f s h => effAlpha_pos hm q d f s h) (fun _ hx f => eff_get q hx f) fun _ hx _ hv => eff_set q hx hv

theorem effResample_prob (hm : WellPosed m) (q : EBlk K M nG) (d : Disc K N F M) : IsProbabilityMeasure (effResample m q d).ν := by
  have hp : ∀ f, IsProbabilityMeasure (dirichletLaw (states m.cfg.app f) (effAlpha m q d f)) := fun f => by
    obtain ⟨s, hs⟩ := hm.hasState f
    exact dirichletLaw_prob ⟨s, mem_states.mpr hs⟩ fun s hs => effAlpha_pos hm q d f s (mem_states.mp hs)
  show IsProbabilityMeasure (Measure.pi fun f => dirichletLaw (states m.cfg.app f) (effAlpha m q d f))
  infer_instance

theorem effectMove_op (q : EBlk K M nG) (d : Disc K N F M) (c : Cont K F S M nG) (g : Disc K N F M × Cont K F S M nG → ℝ≥0∞) :
    effectMove m (effLens q) (effAlpha m q) (d, c) g = (effResample m q d).op (fun c => g (d, c)) c := effectMove_eq _ _ d c g

/-! ### Moves that keep functions that vanish after moves -/

/-- A set of interior points that moves of some blocks do not leave. -/
structure Fits (app : Fin F → Fin S → Bool) (G : Set (Cont K F S M nG)) (X : Blk K F M nG → Prop) : Prop where
  sub : ∀ c ∈ G, Interior app c
  stays : ∀ b, X b → ∀ P : Move (Cont K F S M nG), On b P → P.Stays {c | Interior app c} → P.Stays G

theorem fits_interior (app : Fin F → Fin S → Bool) (X : Blk K F M nG → Prop) : Fits app {c : Cont K F S M nG | Interior app c} X :=
  ⟨fun _ h => h, fun _ _ _ _ h => h⟩

theorem fits_slab (app : Fin F → Fin S → Bool) (f : Fin F) (B : Finset (Fin (M + 1))) (s0 : ℝ) :
    Fits app (Slab app f B s0 : Set (Cont K F S M nG)) fun b => b ≠ .inl f :=
  ⟨fun _ h => h.1, fun _ hb _ hP h => stays_slab hP hb h⟩

section Pres
variable {G : Set (Cont K F S M nG)} {X : Blk K F M nG → Prop} {R : Blk K F M nG → Move (Cont K F S M nG)}

theorem pres_effect (hm : WellPosed m) (hG : Fits m.cfg.app G X) (hR : ∀ b, On b (R b)) {js : List (Blk K F M nG)} (hjs : js.Nodup)
    (q : EBlk K M nG) (hq : X (.inr q)) (hRq : R (.inr q) = renew m.cfg.app (.inr q)) (d : Disc K N F M) : Pres G (js.map R) (effResample m q d) := by
  refine pres_blocks hR hjs (on_effResample q d) (hG.stays _ hq _ (on_effResample q d) (effResample_stays hm q d)) fun _ => ?_
  rw [hRq, renew_eff]
  refine resample_absorb hm.hasState (fun f s h => effAlpha_pos hm q d f s h) (fun x hx f => eff_get q hx f) hG.sub ?_
  rw [← renew_eff]
  exact hG.stays _ hq _ (on_renew _ _) (renew_stays hm.hasState _)

theorem pres_reshare (hG : Fits m.cfg.app G X) (hR : ∀ b, On b (R b)) {js : List (Blk K F M nG)} (hjs : js.Nodup) (f : Fin F)
    (hf : X (.inl f)) (hRf : R (.inl f) = renew m.cfg.app (.inl f)) {ij : Fin (M + 1) × Fin (M + 1)} (hij : ij.1 ≠ ij.2) (d : Disc K N F M) :
    Pres G (js.map R) (reshare f ij.2 ij.1 (shareLaw m d ij f)) := by
  refine pres_blocks hR hjs (on_reshare f _ _ _) (hG.stays _ hf _ (on_reshare f _ _ _) (reshare_stays hij.symm (shareLaw_ac d ij f) f)) fun _ => ?_
  rw [hRf]
  exact reshare_absorb (Finset.mem_univ _) (Finset.mem_univ _) hij.symm (shareLaw_ac d ij f) G

end Pres

/-! ### A block of effects -/

open Classical in
/-- By how much an operator reduces the bound, if the effects `q` are drawn anew. -/
noncomputable def effRho (q : EBlk K M nG) : OpKind M → ℝ≥0∞
  | .clusterEffect => Law.ofRand (uniform (List.finRange K)) fun k => if (.inl k : EBlk K M nG) = q then 0 else 1
  | .confounding i => Law.ofRand (uniform (List.finRange (nG i))) fun g => if (.inr ⟨i, g⟩ : EBlk K M nG) = q then 0 else 1
  | _ => 1

/-- The operator that draws the effects `q`. -/
def effOp : EBlk K M nG → OpKind M
  | .inl _ => .clusterEffect
  | .inr p => .confounding p.1

theorem uniform_mem {n : ℕ} (k : Fin n) : (k, 1 / ((List.finRange n).length : ℝ)) ∈ uniform (List.finRange n) :=
  List.mem_map.mpr ⟨k, List.mem_finRange k, rfl⟩

theorem ofRand_le_one {α : Type} {r : Rand α} (hr : IsDist r) {ρ : α → ℝ≥0∞} (h : ∀ x ∈ r, ρ x.1 ≤ 1) : Law.ofRand r ρ ≤ 1 := by
  rw [← ofRand_one hr]
  exact List.sum_le_sum fun p hp => mul_le_of_le_one_right bot_le (h p hp)

theorem effRho_le (hm : WellPosed m) (q : EBlk K M nG) (o : OpKind M) : effRho q o ≤ 1 := by
  classical
  cases o with
  | cluster => exact le_rfl
  | source => exact le_rfl
  | weights => exact le_rfl
  | clusterEffect =>
    unfold effRho
    refine ofRand_le_one (uniform_fin_dist hm.hasCluster) fun x _ => ?_
    split <;> simp
  | confounding i =>
    unfold effRho
    refine ofRand_le_one (uniform_fin_dist (hm.hasGroup i)) fun x _ => ?_
    split <;> simp

theorem effRho_less (hm : WellPosed m) (q : EBlk K M nG) : ∃ δ : ℝ≥0∞, δ ≠ 0 ∧ effRho q (effOp q) + δ ≤ 1 := by
  classical
  rcases q with k | ⟨i, g⟩
  · refine ⟨_, ?_, ofRand_less (uniform_fin_dist hm.hasCluster) (uniform_mem k)
      (ρ := fun k' => if (.inl k' : EBlk K M nG) = .inl k then 0 else 1) (δ := 1) (fun x _ => by split <;> simp) (by simp)⟩
    have : 0 < ((List.finRange K).length : ℝ) := by exact_mod_cast List.length_pos_of_mem (List.mem_finRange k)
    rw [mul_one]
    exact (ENNReal.ofReal_pos.mpr (by positivity)).ne'
  · refine ⟨_, ?_, ofRand_less (uniform_fin_dist (hm.hasGroup i)) (uniform_mem g)
      (ρ := fun g' => if (.inr ⟨i, g'⟩ : EBlk K M nG) = .inr ⟨i, g⟩ then 0 else 1) (δ := 1) (fun x _ => by split <;> simp) (by simp)⟩
    have : 0 < ((List.finRange (nG i)).length : ℝ) := by exact_mod_cast List.length_pos_of_mem (List.mem_finRange g)
    rw [mul_one]
    exact (ENNReal.ofReal_pos.mpr (by positivity)).ne'

/-- Operators with the same factor for all states. -/
theorem shrink_const {G : Set (Cont K F S M nG)} {l : List (Move (Cont K F S M nG))} {s : Disc K N F M × Cont K F S M nG → ℝ≥0∞}
    {ops : List (OpKind M × ℝ)} (hops : IsDist ops) (hs : Measurable s) (hs1 : ∀ x, s x ≤ 1) (hl : ∀ P ∈ l, P.Stays G)
    (hsub : ∀ d, Good m d → ∀ c ∈ G, s (d, c) ≤ chainStep (Kernel.post m) (propose m) ops (d, c) s)
    {ρ : OpKind M → Disc K N F M → Cont K F S M nG → ℝ≥0∞} (hρ1 : ∀ o d c, Good m d → c ∈ G → ρ o d c ≤ 1)
    {o : OpKind M} {p : ℝ} (hmem : (o, p) ∈ ops) (hp : 0 < p) {δ : ℝ≥0∞} (hδ : δ ≠ 0) (hρ : ∀ d c, Good m d → c ∈ G → ρ o d c + δ ≤ 1)
    (h : ∀ a ≤ 1, (∀ d, Good m d → Null G l fun c => s (d, c) - a) → ∀ o, Contr (Good m) G l s a (mhStep (Kernel.post m) (propose m o)) (ρ o)) :
    ∀ d, Good m d → Null G l fun c => s (d, c) := by
  have hr : 1 - ENNReal.ofReal p * δ < 1 := ENNReal.sub_lt_self ENNReal.one_ne_top one_ne_zero (mul_ne_zero (ENNReal.ofReal_pos.mpr hp).ne' hδ)
  refine null_of_shrink hs hs1 hr fun a ha hn => ?_
  have hc := contr_mix (good := Good m) (G := G) (l := l) (s := s) (a := a) ops (fun o => mhStep (Kernel.post m) (propose m o)) ρ fun o _ => h a ha hn o.1
  refine contr_shrink hl (T := chainStep (Kernel.post m) (propose m) ops) hc hsub fun d hd c hc => ?_
  have h2 := ofRand_less hops hmem (ρ := fun o => ρ o d c) (fun x _ => hρ1 x.1 d c hd hc) (hρ d c hd hc)
  refine ENNReal.le_sub_of_add_le_right ?_ h2
  exact ne_top_of_le_ne_top ENNReal.one_ne_top (le_add_self.trans h2)

section Stages
variable {s : Disc K N F M × Cont K F S M nG → ℝ≥0∞} {ops : List (OpKind M × ℝ)}

/-- The effects `q` need not be drawn anew. -/
theorem stage_effect (hm : WellPosed m) (hss : m.cfg.sampleSource = true) (hops : IsDist ops) (hs : Measurable s) (hs1 : ∀ x, s x ≤ 1)
    (hsub : ∀ d, Good m d → ∀ c, Interior m.cfg.app c → s (d, c) ≤ chainStep (Kernel.post m) (propose m) ops (d, c) s)
    (q : EBlk K M nG) {p : ℝ} (hmem : (effOp q, p) ∈ ops) (hp : 0 < p) {js : List (Blk K F M nG)} (hjs : (.inr q :: js : List (Blk K F M nG)).Nodup)
    (h : ∀ d, Good m d → Null {c | Interior m.cfg.app c} ((.inr q :: js : List (Blk K F M nG)).map (renew m.cfg.app)) fun c => s (d, c)) :
    ∀ d, Good m d → Null {c | Interior m.cfg.app c} (js.map (renew m.cfg.app)) fun c => s (d, c) := by
  classical
  obtain ⟨hq, hjs⟩ := List.nodup_cons.mp hjs
  have hsm : ∀ d, Measurable fun c => s (d, c) := fun d => hs.comp (measurable_const.prodMk measurable_id)
  obtain ⟨δ, hδ, hρ⟩ := effRho_less hm q (nG := nG)
  have hfits := fits_interior (K := K) (nG := nG) m.cfg.app fun _ => True
  refine shrink_const hops hs hs1 (fun P hP => ?_) hsub (ρ := fun o _ _ => effRho q o) (fun o _ _ _ _ => effRho_le hm q o) hmem hp hδ
    (fun _ _ _ _ => hρ) fun a ha hn o => ?_
  · obtain ⟨b, -, rfl⟩ := List.mem_map.mp hP
    exact renew_stays hm.hasState b
  have ha' : a ≠ ⊤ := ne_top_of_le_ne_top ENNReal.one_ne_top ha
  have heff : ∀ q' : EBlk K M nG, Contr (Good m) {c | Interior m.cfg.app c} (js.map (renew m.cfg.app)) s a
      (effectMove m (effLens q') (effAlpha m q')) fun _ _ => if q' = q then 0 else 1 := by
    intro q'
    by_cases hqq : q' = q
    · subst hqq
      simp only [if_true]
      refine contr_gone hs (effResample m q') (fun d c => effectMove_op q' d c s) fun d hd x hx => ?_
      have hcomm : ∀ P ∈ js.map (renew m.cfg.app), Comm (effResample m q' d) P := fun P hP => by
        obtain ⟨b, hb, rfl⟩ := List.mem_map.mp hP
        exact (on_effResample q' d).comm (on_renew _ b) fun e => hq (e ▸ hb)
      rw [Comm.opL hcomm (hsm d)]
      refine resample_zero hm.hasState (fun f s h => effAlpha_pos hm q' d f s h) (fun f => eff_get q' hx f) (opL_meas _ (hsm d)) ?_
      have := h d hd x hx
      rw [List.map_cons, renew_eff] at this
      exact this
    · simp only [hqq, if_false]
      have := effResample_prob hm q'
      exact contr_move hs hn (effResample m q') (fun d c => effectMove_op q' d c s) fun d _ =>
        pres_effect hm hfits (on_renew _) hjs q' trivial rfl d
  cases o with
  | cluster v => exact contr_cluster hm hss hs hn (fun _ h => h) v
  | source => exact contr_source hm hss hs hn fun _ h => h
  | weights =>
    refine (contr_mix (samplePair (List.finRange (M + 1))) (fun ij => weightsMove m ij) (fun _ _ _ => 1) fun ij hij => ?_).weaken fun d _ c _ =>
      ofRand_le_one (pair_weights hm.hasConfounder) fun _ _ => le_rfl
    exact contr_weights hs ha' hn (fun _ h => h) (samplePair_mem hij).2.2 fun d _ f =>
      pres_reshare hfits (on_renew _) hjs f trivial rfl (samplePair_mem hij).2.2 d
  | clusterEffect =>
    exact contr_mix (uniform (List.finRange K)) (fun k => effectMove m (eLens k) fun d =>
      gibbsAlpha (fun _ _ => 1) (attributedCounts m.d.features (sourceArray d.2) 0 (d.1 k)))
      (fun k _ _ => if (.inl k : EBlk K M nG) = q then 0 else 1) fun k _ => heff (.inl k.1)
  | confounding i =>
    exact contr_mix (uniform (List.finRange (nG i))) (fun g => effectMove m (ceLens i g) fun d =>
      gibbsAlpha (concentration (m.cfg.conf i g)) (attributedCounts m.d.features (sourceArray d.2) i.succ (m.d.confGroups i g)))
      (fun g _ _ => if (.inr ⟨i, g⟩ : EBlk K M nG) = q then 0 else 1) fun g _ => heff (.inr ⟨i, g.1⟩)

end Stages

end SBayes.Meas
