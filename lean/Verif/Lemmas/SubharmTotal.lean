import Verif.Lemmas.SubharmW
/- Functions that never decrease on average and vanish almost everywhere vanish everywhere. -/
namespace SBayes.Meas
set_option linter.unusedSectionVars false
open SBayes.Lik SBayes.Clusters SBayes.MH SBayes.Source SBayes.Effects SBayes.Posterior SBayes.Draws SBayes.Kernel SBayes.MCMC MeasureTheory
open scoped BigOperators ENNReal

variable {K N F S M C : ℕ} {nG : Fin M → ℕ} {m : Setup K N F S M nG}

/-! ### Drawing all blocks anew -/

theorem refresh_spread : Refresh (uniformSimplex (Finset.univ : Finset (Fin (M + 1)))) (uniformSimplex Finset.univ) (spread Finset.univ) := by
  have p0 : IsProbabilityMeasure (uniformSimplex (Finset.univ : Finset (Fin (M + 1)))) := uniformSimplex_prob Finset.univ_nonempty
  refine ⟨meas_spread _, fun g hg => ?_⟩
  have hr : ∀ᵐ v ∂uniformSimplex (Finset.univ : Finset (Fin (M + 1))), Row Finset.univ v := uniformSimplex_ae Finset.univ_nonempty
  have e : ∀ᵐ v ∂uniformSimplex (Finset.univ : Finset (Fin (M + 1))), ∫⁻ u, g (spread Finset.univ v u) ∂uniformSimplex Finset.univ =
      ∫⁻ u, g u ∂uniformSimplex Finset.univ := hr.mono fun v hv => by simp only [spread_univ hv]
  rw [lintegral_congr_ae e, lintegral_const, measure_univ, mul_one]

theorem renew_refresh {app : Fin F → Fin S → Bool} (hst : ∀ f, ∃ s, app f s = true) (b : Blk K F M nG) {h : Cont K F S M nG → ℝ≥0∞}
    (hh : Measurable h) : ∫⁻ c, (renew app b).op h c ∂contRef app = ∫⁻ c, h c ∂contRef app := by
  have hp : IsProbabilityMeasure (Measure.pi fun f => uniformSimplex (states app f)) := rows_prob hst
  rcases b with f | k | ⟨i, g⟩
  · exact (refresh_w f refresh_spread).2 h hh
  · exact (refresh_e k (refresh_const' (ν := Measure.pi fun f => uniformSimplex (states app f)))).2 h hh
  · exact (refresh_ce i g (refresh_const' (ν := Measure.pi fun f => uniformSimplex (states app f)))).2 h hh

theorem opL_refresh {app : Fin F → Fin S → Bool} (hst : ∀ f, ∃ s, app f s = true) (js : List (Blk K F M nG)) {h : Cont K F S M nG → ℝ≥0∞}
    (hh : Measurable h) : ∫⁻ c, opL (js.map (renew app)) h c ∂contRef app = ∫⁻ c, h c ∂contRef app := by
  induction js with
  | nil => rfl
  | cons b js ih =>
    rw [List.map_cons]
    show ∫⁻ c, (renew app b).op (opL (js.map (renew app)) h) c ∂contRef app = _
    rw [renew_refresh hst b (opL_meas _ hh), ih]

/-- The points agree on a block. -/
def SameOn (x y : Cont K F S M nG) : Blk K F M nG → Prop
  | .inl f => x.1 f = y.1 f
  | .inr (.inl k) => x.2.1 k = y.2.1 k
  | .inr (.inr p) => x.2.2 p.1 p.2 = y.2.2 p.1 p.2

theorem opL_same {app : Fin F → Fin S → Bool} (hst : ∀ f, ∃ s, app f s = true) (js : List (Blk K F M nG)) (h : Cont K F S M nG → ℝ≥0∞)
    {x y : Cont K F S M nG} (hx : Interior app x) (hy : Interior app y) (hxy : ∀ b ∉ js, SameOn x y b) :
    opL (js.map (renew app)) h x = opL (js.map (renew app)) h y := by
  induction js generalizing x y with
  | nil =>
    have : x = y := by
      refine Prod.ext (funext fun f => hxy (.inl f) (by simp)) (Prod.ext (funext fun k => hxy (.inr (.inl k)) (by simp)) ?_)
      funext i g
      exact hxy (.inr (.inr ⟨i, g⟩)) (by simp)
    rw [this]
  | cons b js ih =>
    rw [List.map_cons]
    show (renew app b).op (opL (js.map (renew app)) h) x = (renew app b).op (opL (js.map (renew app)) h) y
    rcases b with f | k | ⟨i, g⟩
    · show (shareOut f Finset.univ).op _ x = (shareOut f Finset.univ).op _ y
      rw [shareOut_op, shareOut_op]
      have hr : ∀ᵐ u ∂uniformSimplex (Finset.univ : Finset (Fin (M + 1))), Row Finset.univ u := uniformSimplex_ae Finset.univ_nonempty
      refine lintegral_congr_ae (hr.mono fun u hu => ?_)
      have e1 : spread Finset.univ ((wLens f).get x) u = u := spread_univ (hx.w f)
      have e2 : spread Finset.univ ((wLens f).get y) u = u := spread_univ (hy.w f)
      dsimp only
      rw [e1, e2]
      refine ih (hx.set_w f hu) (hy.set_w f hu) fun b hb => ?_
      by_cases hbf : b = .inl f
      · subst hbf
        show Function.update x.1 f u f = Function.update y.1 f u f
        rw [Function.update_self, Function.update_self]
      · have := hxy b (by simp [hbf, hb])
        rcases b with f' | k' | p'
        · have hne : f' ≠ f := fun e => hbf (by rw [e])
          show Function.update x.1 f u f' = Function.update y.1 f u f'
          rw [Function.update_of_ne hne, Function.update_of_ne hne]
          exact this
        · exact this
        · exact this
    · show (redraw app (eLens k)).op _ x = (redraw app (eLens k)).op _ y
      rw [redraw_op, redraw_op]
      refine lintegral_congr_ae ((rows_ae hst).mono fun e he => ?_)
      refine ih (hx.set_e k he) (hy.set_e k he) fun b hb => ?_
      by_cases hbf : b = .inr (.inl k)
      · subst hbf
        show Function.update x.2.1 k e k = Function.update y.2.1 k e k
        rw [Function.update_self, Function.update_self]
      · have := hxy b (by simp [hbf, hb])
        rcases b with f' | k' | p'
        · exact this
        · have hne : k' ≠ k := fun e => hbf (by rw [e])
          show Function.update x.2.1 k e k' = Function.update y.2.1 k e k'
          rw [Function.update_of_ne hne, Function.update_of_ne hne]
          exact this
        · exact this
    · show (redraw app (ceLens i g)).op _ x = (redraw app (ceLens i g)).op _ y
      rw [redraw_op, redraw_op]
      refine lintegral_congr_ae ((rows_ae hst).mono fun e he => ?_)
      refine ih (hx.set_ce i g he) (hy.set_ce i g he) fun b hb => ?_
      by_cases hbf : b = .inr (.inr ⟨i, g⟩)
      · subst hbf
        show Function.update x.2.2 i (Function.update (x.2.2 i) g e) i g = Function.update y.2.2 i (Function.update (y.2.2 i) g e) i g
        rw [Function.update_self, Function.update_self, Function.update_self, Function.update_self]
      · have := hxy b (by simp [hbf, hb])
        rcases b with f' | k' | ⟨i', g'⟩
        · exact this
        · exact this
        · show Function.update x.2.2 i (Function.update (x.2.2 i) g e) i' g' = Function.update y.2.2 i (Function.update (y.2.2 i) g e) i' g'
          by_cases hi : i' = i
          · subst hi
            have hne : g' ≠ g := fun e => hbf (by rw [e])
            rw [Function.update_self, Function.update_self, Function.update_of_ne hne, Function.update_of_ne hne]
            exact this
          · rw [Function.update_of_ne hi, Function.update_of_ne hi]
            exact this

/-- What vanishes almost everywhere vanishes almost surely once all blocks are drawn anew. -/
theorem null_all {app : Fin F → Fin S → Bool} (hst : ∀ f, ∃ s, app f s = true) {js : List (Blk K F M nG)} (hjs : ∀ b, b ∈ js)
    {h : Cont K F S M nG → ℝ≥0∞} (hh : Measurable h) (h0 : ∀ᵐ c ∂contRef app, h c = 0) : Null {c | Interior app c} (js.map (renew app)) h := by
  intro x hx
  have hint : ∫⁻ c, opL (js.map (renew app)) h c ∂contRef app = 0 := by
    rw [opL_refresh hst js hh]
    exact (lintegral_congr_ae h0).trans lintegral_zero
  rw [lintegral_eq_zero_iff (opL_meas _ hh)] at hint
  have hp : IsProbabilityMeasure (contRef app : Measure (Cont K F S M nG)) := contRef_prob hst
  obtain ⟨y, hy1, hy2⟩ := (hint.and (interior_ae hst)).exists
  rw [opL_same hst js h hx hy2 fun b hb => absurd (hjs b) hb]
  exact hy1

/-- **A function between 0 and 1 that never decreases on average and vanishes almost everywhere vanishes everywhere.** -/
theorem subharmonic_zero {s : Disc K N F M × Cont K F S M nG → ℝ≥0∞} {ops : List (OpKind M × ℝ)} (hm : WellPosed m)
    (hss : m.cfg.sampleSource = true) (hops : IsDist ops)
    (hw : ∃ p, (OpKind.weights, p) ∈ ops ∧ 0 < p) (he : ∃ p, (OpKind.clusterEffect, p) ∈ ops ∧ 0 < p)
    (hce : ∀ i, ∃ p, (OpKind.confounding i, p) ∈ ops ∧ 0 < p) (hs : Measurable s) (hs1 : ∀ x, s x ≤ 1)
    (hsub : ∀ d, Good m d → ∀ c, Interior m.cfg.app c → s (d, c) ≤ chainStep (Kernel.post m) (propose m) ops (d, c) s)
    (h0 : ∀ᵐ x ∂target m Prod.fst (Kernel.post m), s x = 0) : ∀ d, Good m d → ∀ c, Interior m.cfg.app c → s (d, c) = 0 := by
  classical
  have hsm : ∀ d, Measurable fun c => s (d, c) := fun d => hs.comp (measurable_const.prodMk measurable_id)
  have key : ∀ js : List (Blk K F M nG), js.Nodup →
      (∀ d, Good m d → Null {c | Interior m.cfg.app c} (js.map (renew m.cfg.app)) fun c => s (d, c)) →
      ∀ d, Good m d → ∀ c, Interior m.cfg.app c → s (d, c) = 0 := by
    intro js
    induction js with
    | nil => exact fun _ h d hd c hc => h d hd c hc
    | cons b js ih =>
      intro hnd h
      refine ih (List.nodup_cons.mp hnd).2 ?_
      rcases b with f | q
      · obtain ⟨p, hmem, hp⟩ := hw
        exact stage_feature hm hss hops hs hs1 hsub hmem hp hnd h
      · have : ∃ p, (effOp q, p) ∈ ops ∧ 0 < p := by
          rcases q with k | p
          · exact he
          · exact hce p.1
        obtain ⟨p, hmem, hp⟩ := this
        exact stage_effect hm hss hops hs hs1 hsub q hmem hp hnd h
  refine key (Finset.univ : Finset (Blk K F M nG)).toList (Finset.nodup_toList _) fun d hd => ?_
  exact null_all hm.hasState (fun b => Finset.mem_toList.mpr (Finset.mem_univ b)) (hsm d) ((ae_target hm hss).mp h0 d hd)

end SBayes.Meas
