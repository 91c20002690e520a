import Verif.Lemmas.Subharm
/- Functions that never decrease on average and vanish almost everywhere: the weights. -/
namespace SBayes.Meas
set_option linter.unusedSectionVars false
open SBayes.Lik SBayes.Clusters SBayes.MH SBayes.Source SBayes.Effects SBayes.Posterior SBayes.Draws SBayes.Kernel SBayes.MCMC MeasureTheory
open scoped BigOperators ENNReal

variable {K N F S M C : ℕ} {nG : Fin M → ℕ} {m : Setup K N F S M nG}

/-- Drawing blocks anew, except that only the weights of the components `B` of feature `f` are shared out. -/
noncomputable def renewIn (app : Fin F → Fin S → Bool) (f : Fin F) (B : Finset (Fin (M + 1))) : Blk K F M nG → Move (Cont K F S M nG) :=
  Function.update (renew app) (.inl f) (shareOut f B)

theorem on_renewIn (app : Fin F → Fin S → Bool) (f : Fin F) (B : Finset (Fin (M + 1))) (b : Blk K F M nG) :
    On b (renewIn app f B b : Move (Cont K F S M nG)) := by
  unfold renewIn
  by_cases h : b = .inl f
  · subst h
    rw [Function.update_self]
    exact on_shareOut f B
  · rw [Function.update_of_ne h]
    exact on_renew app b

theorem map_renewIn {app : Fin F → Fin S → Bool} {f : Fin F} {B : Finset (Fin (M + 1))} {js : List (Blk K F M nG)} (hf : .inl f ∉ js) :
    ((.inl f :: js : List (Blk K F M nG)).map (renewIn app f B) : List (Move (Cont K F S M nG))) = shareOut f B :: js.map (renew app) := by
  rw [List.map_cons]
  unfold renewIn
  rw [Function.update_self]
  congr 1
  refine List.map_congr_left fun b hb => Function.update_of_ne ?_ _ _
  rintro rfl
  exact hf hb

section Stages
variable {s : Disc K N F M × Cont K F S M nG → ℝ≥0∞} {ops : List (OpKind M × ℝ)}

/-- A crossing pair. -/
def Cross (B : Finset (Fin (M + 1))) (ij : Fin (M + 1) × Fin (M + 1)) : Prop := ¬ (ij.1 ∈ B ↔ ij.2 ∈ B)

theorem Cross.cases {B : Finset (Fin (M + 1))} {ij : Fin (M + 1) × Fin (M + 1)} (h : Cross B ij) :
    (ij.2 ∈ B ∧ ij.1 ∉ B) ∨ (ij.2 ∉ B ∧ ij.1 ∈ B) := by
  unfold Cross at h
  tauto

set_option maxHeartbeats 1000000 in
/-- One component less whose weights need to be shared out. -/
theorem stage_weights (hm : WellPosed m) (hss : m.cfg.sampleSource = true) (hops : IsDist ops) (hs : Measurable s) (hs1 : ∀ x, s x ≤ 1)
    (hsub : ∀ d, Good m d → ∀ c, Interior m.cfg.app c → s (d, c) ≤ chainStep (Kernel.post m) (propose m) ops (d, c) s)
    {p : ℝ} (hmem : (OpKind.weights, p) ∈ ops) (hp : 0 < p) {f : Fin F} {js : List (Blk K F M nG)} (hf : .inl f ∉ js) (hjs : js.Nodup)
    {B : Finset (Fin (M + 1))} (hB : B.Nonempty) (hBu : B ≠ Finset.univ)
    (h : ∀ k ∉ B, ∀ d, Good m d → Null {c | Interior m.cfg.app c} (shareOut f (insert k B) :: js.map (renew m.cfg.app)) fun c => s (d, c)) :
    ∀ d, Good m d → Null {c | Interior m.cfg.app c} (shareOut f B :: js.map (renew m.cfg.app)) fun c => s (d, c) := by
  classical
  have hsm : ∀ d, Measurable fun c => s (d, c) := fun d => hs.comp (measurable_const.prodMk measurable_id)
  have hjs' : (.inl f :: js : List (Blk K F M nG)).Nodup := List.nodup_cons.mpr ⟨hf, hjs⟩
  intro d0 hd0 x0 hx0
  have hBc : Bᶜ.Nonempty := by
    rw [Finset.nonempty_iff_ne_empty, Ne, Finset.compl_eq_empty_iff]
    exact hBu
  set s0 := ∑ k ∈ B, x0.1 f k with hs0
  have hsc : ∀ c ∈ (Slab m.cfg.app f B s0 : Set (Cont K F S M nG)), ∑ k ∈ Bᶜ, c.1 f k = 1 - s0 := by
    intro c hc
    have h1 := (hc.1.w f).2
    rw [← Finset.sum_add_sum_compl B] at h1
    have := hc.2
    linarith
  have hx0s : x0 ∈ Slab m.cfg.app f B s0 := ⟨hx0, rfl⟩
  have hs0p : 0 < s0 := Row.sum_pos (hx0.w f) hB
  have hs0q : 0 < 1 - s0 := by
    rw [← hsc x0 hx0s]
    exact Row.sum_pos (hx0.w f) hBc
  set ε := min s0 (1 - s0) / ((M + 1 : ℕ) : ℝ) with hε
  have hMpos : (0 : ℝ) < ((M + 1 : ℕ) : ℝ) := by positivity
  have hεp : 0 < ε := div_pos (lt_min hs0p hs0q) hMpos
  obtain ⟨δ, hδ, hrej⟩ := rejects_uniform m f hεp
  -- a pair that crosses and has large weights
  have hpair : ∀ c ∈ (Slab m.cfg.app f B s0 : Set (Cont K F S M nG)), ∃ ij : Fin (M + 1) × Fin (M + 1), ij.1 ∈ B ∧ ij.2 ∉ B ∧ ε ≤ c.1 f ij.1 ∧ ε ≤ c.1 f ij.2 := by
    intro c hc
    obtain ⟨i, hi, hi'⟩ := exists_large hB (c.1 f) hc.2.ge
    obtain ⟨j, hj, hj'⟩ := exists_large hBc (c.1 f) (hsc c hc).ge
    refine ⟨(i, j), hi, Finset.mem_compl.mp hj, ?_, ?_⟩
    · rcases hi' with h' | h'
      · exact (div_le_div_of_nonneg_right (min_le_left _ _) hMpos.le).trans h'
      · exact absurd h' (not_lt.mpr hs0p.le)
    · rcases hj' with h' | h'
      · exact (div_le_div_of_nonneg_right (min_le_right _ _) hMpos.le).trans h'
      · exact absurd h' (not_lt.mpr hs0q.le)
  set ρij : Fin (M + 1) × Fin (M + 1) → Disc K N F M → Cont K F S M nG → ℝ≥0∞ := fun ij d c => if Cross B ij then rejects m d ij c f else 1 with hρij
  have hρij1 : ∀ ij d c, ρij ij d c ≤ 1 := fun ij d c => by
    simp only [hρij]
    split
    · exact rejects_le_one d ij c f
    · exact le_rfl
  set ρ : OpKind M → Disc K N F M → Cont K F S M nG → ℝ≥0∞ := fun o d c =>
    match o with
    | .weights => Law.ofRand (samplePair (List.finRange (M + 1))) fun ij => ρij ij d c
    | _ => 1 with hρ
  have hlenpos : ∀ ij : Fin (M + 1) × Fin (M + 1), ij.1 ≠ ij.2 →
      (ij, 1 / ((((List.finRange (M + 1)).product (List.finRange (M + 1))).filter fun p => decide (p.1 ≠ p.2)).length : ℝ)) ∈
        samplePair (List.finRange (M + 1)) := by
    intro ij hij
    refine List.mem_map.mpr ⟨ij, ?_, rfl⟩
    rw [List.mem_filter]
    exact ⟨List.pair_mem_product.mpr ⟨List.mem_finRange _, List.mem_finRange _⟩, by simpa using hij⟩
  set w : ℝ := 1 / ((((List.finRange (M + 1)).product (List.finRange (M + 1))).filter fun p => decide (p.1 ≠ p.2)).length : ℝ) with hw
  have hwpos : 0 < w := by
    obtain ⟨ij, h1, h2, -⟩ := hpair x0 hx0s
    have hne : ij.1 ≠ ij.2 := fun e => h2 (e ▸ h1)
    have hmem' : ij ∈ ((List.finRange (M + 1)).product (List.finRange (M + 1))).filter fun p => decide (p.1 ≠ p.2) := by
      rw [List.mem_filter]
      exact ⟨List.pair_mem_product.mpr ⟨List.mem_finRange _, List.mem_finRange _⟩, by simpa using hne⟩
    have := List.length_pos_of_mem hmem'
    rw [hw]
    positivity
  have hfits := fits_slab (K := K) (nG := nG) m.cfg.app f B s0
  have hfitsI := fits_interior (K := K) (nG := nG) m.cfg.app fun b => b ≠ .inl f
  suffices hall : ∀ d, Good m d → Null (Slab m.cfg.app f B s0) (shareOut f B :: js.map (renew m.cfg.app)) fun c => s (d, c) from
    hall d0 hd0 x0 hx0s
  refine shrink_const hops hs hs1 (fun P hP => ?_) (fun d hd c hc => hsub d hd c hc.1) (ρ := ρ) (fun o d c hd hc => ?_) hmem hp
    (δ := ENNReal.ofReal w * δ) (mul_ne_zero (ENNReal.ofReal_pos.mpr hwpos).ne' hδ) (fun d c hd hc => ?_) fun a ha hn o => ?_
  · rcases List.mem_cons.mp hP with rfl | hP
    · exact shareOut_slab hB
    · obtain ⟨b, hb, rfl⟩ := List.mem_map.mp hP
      exact hfits.stays b (fun e => hf (e ▸ hb)) _ (on_renew _ b) (renew_stays hm.hasState b)
  · cases o with
    | weights => exact ofRand_le_one (pair_weights hm.hasConfounder) fun ij _ => hρij1 ij.1 d c
    | _ => exact le_rfl
  · obtain ⟨ij, h1, h2, h3, h4⟩ := hpair c hc
    have hne : ij.1 ≠ ij.2 := fun e => h2 (e ▸ h1)
    refine ofRand_less (pair_weights hm.hasConfounder) (hlenpos ij hne) (ρ := fun ij => ρij ij d c) (fun ij _ => hρij1 ij.1 d c) ?_
    have hcr : Cross B ij := fun h => h2 (h.mp h1)
    simp only [hρij, hcr, if_true]
    exact hrej d hd ij hne c (hc.1.w f) h3 h4
  have ha' : a ≠ ⊤ := ne_top_of_le_ne_top ENNReal.one_ne_top ha
  have hRin : ∀ b : Blk K F M nG, b ≠ .inl f → ∀ B', (renewIn m.cfg.app f B' b : Move (Cont K F S M nG)) = renew m.cfg.app b := fun b hb B' =>
    Function.update_of_ne hb _ _
  have heff : ∀ (q : EBlk K M nG) d, Pres (Slab m.cfg.app f B s0) (shareOut f B :: js.map (renew m.cfg.app)) (effResample m q d) := by
    intro q d
    rw [← map_renewIn hf]
    exact pres_effect hm hfits (on_renewIn _ f B) hjs' q (by simp) (hRin _ (by simp) B) d
  have hoth : ∀ f' ≠ f, ∀ ij : Fin (M + 1) × Fin (M + 1), ij.1 ≠ ij.2 → ∀ d,
      Pres (Slab m.cfg.app f B s0) (shareOut f B :: js.map (renew m.cfg.app)) (reshare f' ij.2 ij.1 (shareLaw m d ij f')) := by
    intro f' hf' ij hij d
    have hne : (.inl f' : Blk K F M nG) ≠ .inl f := fun e => hf' (Sum.inl_injective e)
    rw [← map_renewIn hf]
    exact pres_reshare hfits (on_renewIn _ f B) hjs' f' hne (hRin _ hne B) hij d
  have hothI : ∀ k, ∀ f' ≠ f, ∀ ij : Fin (M + 1) × Fin (M + 1), ij.1 ≠ ij.2 → ∀ d,
      Pres {c | Interior m.cfg.app c} (shareOut f (insert k B) :: js.map (renew m.cfg.app)) (reshare f' ij.2 ij.1 (shareLaw m d ij f')) := by
    intro k f' hf' ij hij d
    have hne : (.inl f' : Blk K F M nG) ≠ .inl f := fun e => hf' (Sum.inl_injective e)
    rw [← map_renewIn hf]
    exact pres_reshare hfitsI (on_renewIn _ f (insert k B)) hjs' f' hne (hRin _ hne _) hij d
  have hsame : ∀ ij : Fin (M + 1) × Fin (M + 1), ij.1 ≠ ij.2 → ¬ Cross B ij → ∀ d,
      Pres (Slab m.cfg.app f B s0) (shareOut f B :: js.map (renew m.cfg.app)) (reshare f ij.2 ij.1 (shareLaw m d ij f)) := by
    intro ij hij hcr d
    have hiff : ij.1 ∈ B ↔ ij.2 ∈ B := not_not.mp hcr
    by_cases hi : ij.1 ∈ B
    · rw [← map_renewIn hf]
      refine pres_blocks (on_renewIn _ f B) hjs' (on_reshare f _ _ _) (reshare_slab hij.symm hiff.symm (shareLaw_ac d ij f)) fun _ => ?_
      unfold renewIn
      rw [Function.update_self]
      exact reshare_absorb (hiff.mp hi) hi hij.symm (shareLaw_ac d ij f) _
    · intro g hg hgn
      refine Null.comm hg hgn (fun P hP => ?_) (reshare_slab hij.symm hiff.symm (shareLaw_ac d ij f))
      rcases List.mem_cons.mp hP with rfl | hP
      · exact reshare_comm (fun h' => hi (hiff.mpr h')) hi _
      · obtain ⟨b, hb, rfl⟩ := List.mem_map.mp hP
        exact (on_reshare f _ _ _).comm (on_renew _ b) fun e => hf (e ▸ hb)
  have hcross : ∀ ij : Fin (M + 1) × Fin (M + 1), ij.1 ≠ ij.2 → Cross B ij → ∀ d, Good m d → ∀ Φ : Finset (Fin F), f ∈ Φ →
      Null (Slab m.cfg.app f B s0) (shareOut f B :: js.map (renew m.cfg.app))
        (opL (Φ.toList.map fun f => reshare f ij.2 ij.1 (shareLaw m d ij f)) fun c => s (d, c)) := by
    intro ij hij hcr d hd Φ hΦ x hx
    obtain ⟨l1, l2, hl⟩ := List.append_of_mem (Finset.mem_toList.mpr hΦ)
    have hnd := Φ.nodup_toList
    rw [hl, List.nodup_append] at hnd
    have h1 : ∀ f' ∈ l1, f' ≠ f := fun f' hf' e => hnd.2.2 f' hf' f List.mem_cons_self e
    have h2 : ∀ f' ∈ l2, f' ≠ f := fun f' hf' e => (List.nodup_cons.mp hnd.2.1).1 (e ▸ hf')
    set g := opL (l1.map fun f => reshare f ij.2 ij.1 (shareLaw m d ij f)) (opL (l2.map fun f => reshare f ij.2 ij.1 (shareLaw m d ij f))
      fun c => s (d, c)) with hg
    have hgm : Measurable g := opL_meas _ (opL_meas _ (hsm d))
    have e1 : opL (Φ.toList.map fun f => reshare f ij.2 ij.1 (shareLaw m d ij f)) (fun c => s (d, c)) =
        (reshare f ij.2 ij.1 (shareLaw m d ij f)).op g := by
      rw [hl, List.map_append, List.map_cons, opL_append]
      show opL _ ((reshare f ij.2 ij.1 (shareLaw m d ij f)).op (opL _ _)) = _
      rw [Comm.opL _ (opL_meas _ (hsm d))]
      intro P hP
      obtain ⟨f', hf', rfl⟩ := List.mem_map.mp hP
      exact (on_reshare (K := K) (nG := nG) f _ _ _).comm (on_reshare f' _ _ _) fun e => h1 f' hf' (Sum.inl_injective e).symm
    have hgn : ∀ k ∉ B, Null {c | Interior m.cfg.app c} (shareOut f (insert k B) :: js.map (renew m.cfg.app)) g := by
      intro k hk
      rw [hg]
      refine Pres.opL (fun P hP => ?_) (opL_meas _ (hsm d)) (Pres.opL (fun P hP => ?_) (hsm d) (h k hk d hd))
      · obtain ⟨f', hf', rfl⟩ := List.mem_map.mp hP
        exact hothI k f' (h1 f' hf') ij hij d
      · obtain ⟨f', hf', rfl⟩ := List.mem_map.mp hP
        exact hothI k f' (h2 f' hf') ij hij d
    rw [e1]
    show (shareOut f B).op (opL (js.map (renew m.cfg.app)) ((reshare f ij.2 ij.1 (shareLaw m d ij f)).op g)) x = 0
    rw [Comm.opL (fun P hP => ?_) hgm]
    · refine reshare_cross ?_ (shareLaw_ac d ij f) (opL_meas _ hgm) hx.1 fun k hk => hgn k hk x hx.1
      exact hcr.cases
    · obtain ⟨b, hb, rfl⟩ := List.mem_map.mp hP
      exact (on_reshare f _ _ _).comm (on_renew _ b) fun e => hf (e ▸ hb)
  have heffC : ∀ q : EBlk K M nG, Contr (Good m) (Slab m.cfg.app f B s0) (shareOut f B :: js.map (renew m.cfg.app)) s a
      (effectMove m (effLens q) (effAlpha m q)) fun _ _ => 1 := by
    intro q
    have := effResample_prob hm q
    exact contr_move hs hn (effResample m q) (fun d c => effectMove_op q d c s) fun d _ => heff q d
  cases o with
  | cluster v => exact contr_cluster hm hss hs hn hfits.sub v
  | source => exact contr_source hm hss hs hn hfits.sub
  | weights =>
    refine contr_mix (samplePair (List.finRange (M + 1))) (fun ij => weightsMove m ij) ρij fun ij hij => ?_
    have hne := (samplePair_mem hij).2.2
    by_cases hcr : Cross B ij.1
    · simp only [hρij, hcr, if_true]
      exact contr_cross hs ha' hn hfits.sub hne f (fun d _ f' hf' => hoth f' hf' ij.1 hne d) fun d hd Φ hΦ => hcross ij.1 hne hcr d hd Φ hΦ
    · simp only [hρij, hcr, if_false]
      refine contr_weights hs ha' hn hfits.sub hne fun d _ f' => ?_
      by_cases hff : f' = f
      · rw [hff]; exact hsame ij.1 hne hcr d
      · exact hoth f' hff ij.1 hne d
  | clusterEffect =>
    refine (contr_mix (uniform (List.finRange K)) (fun k => effectMove m (eLens k) fun d =>
      gibbsAlpha (fun _ _ => 1) (attributedCounts m.d.features (sourceArray d.2) 0 (d.1 k)))
      (fun k _ _ => 1) fun k _ => heffC (.inl k.1)).weaken fun d _ c _ => ofRand_le_one (uniform_fin_dist hm.hasCluster) fun _ _ => le_rfl
  | confounding i =>
    refine (contr_mix (uniform (List.finRange (nG i))) (fun g => effectMove m (ceLens i g) fun d =>
      gibbsAlpha (concentration (m.cfg.conf i g)) (attributedCounts m.d.features (sourceArray d.2) i.succ (m.d.confGroups i g)))
      (fun g _ _ => 1) fun g _ => heffC (.inr ⟨i, g.1⟩)).weaken fun d _ c _ => ofRand_le_one (uniform_fin_dist (hm.hasGroup i)) fun _ _ => le_rfl

/-- The weights of `f` need not be drawn anew. -/
theorem stage_feature (hm : WellPosed m) (hss : m.cfg.sampleSource = true) (hops : IsDist ops) (hs : Measurable s) (hs1 : ∀ x, s x ≤ 1)
    (hsub : ∀ d, Good m d → ∀ c, Interior m.cfg.app c → s (d, c) ≤ chainStep (Kernel.post m) (propose m) ops (d, c) s)
    {p : ℝ} (hmem : (OpKind.weights, p) ∈ ops) (hp : 0 < p) {f : Fin F} {js : List (Blk K F M nG)}
    (hjs : (.inl f :: js : List (Blk K F M nG)).Nodup)
    (h : ∀ d, Good m d → Null {c | Interior m.cfg.app c} ((.inl f :: js : List (Blk K F M nG)).map (renew m.cfg.app)) fun c => s (d, c)) :
    ∀ d, Good m d → Null {c | Interior m.cfg.app c} (js.map (renew m.cfg.app)) fun c => s (d, c) := by
  obtain ⟨hf, hjs⟩ := List.nodup_cons.mp hjs
  have key : ∀ n, ∀ B : Finset (Fin (M + 1)), B.Nonempty → B.card + n = M + 1 →
      ∀ d, Good m d → Null {c | Interior m.cfg.app c} (shareOut f B :: js.map (renew m.cfg.app)) fun c => s (d, c) := by
    intro n
    induction n with
    | zero =>
      intro B _ hcard
      have : B = Finset.univ := Finset.eq_univ_of_card B (by rw [Fintype.card_fin]; omega)
      rw [this]
      exact h
    | succ n ih =>
      intro B hB hcard
      have hBu : B ≠ Finset.univ := fun e => by rw [e, Finset.card_univ, Fintype.card_fin] at hcard; omega
      refine stage_weights hm hss hops hs hs1 hsub hmem hp hf hjs hB hBu fun k hk => ?_
      exact ih (insert k B) ⟨k, Finset.mem_insert_self k B⟩ (by rw [Finset.card_insert_of_notMem hk]; omega)
  intro d hd x hx
  have := key M {0} (Finset.singleton_nonempty 0) (by rw [Finset.card_singleton]; omega) d hd x hx
  have e : opL (shareOut f {0} :: js.map (renew m.cfg.app)) (fun c => s (d, c)) x = opL (js.map (renew m.cfg.app)) (fun c => s (d, c)) x :=
    shareOut_single _ x
  rw [← e]
  exact this

end Stages

end SBayes.Meas
