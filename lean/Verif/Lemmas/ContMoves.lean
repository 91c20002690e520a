import Verif.Lemmas.Moves
import Verif.Lemmas.AccBound
/- Moves of the weights of a feature, of the effects of a cluster and of the effects of a group. -/
namespace SBayes.Meas
set_option linter.unusedSectionVars false
open SBayes.Lik SBayes.Clusters SBayes.MH SBayes.Source SBayes.Effects SBayes.Posterior SBayes.Draws SBayes.Kernel MeasureTheory
open scoped BigOperators ENNReal

variable {K N F S M C G : ℕ} {nG : Fin M → ℕ}

/-! ### Blocks -/

/-- The weights of a feature, the effects of a cluster, or the effects of a group. -/
abbrev Blk (K F M : ℕ) (nG : Fin M → ℕ) : Type := Fin F ⊕ Fin K ⊕ (Σ i : Fin M, Fin (nG i))

/-- The move changes only one block, and depends on nothing else. -/
def MovesOnly {X R : Type} [MeasurableSpace X] [MeasurableSpace R] (L : Lens X R) (P : Move X) : Prop :=
  ∃ st : R → P.E → R, ∀ x e, P.φ x e = L.set x (st (L.get x) e)

def On : Blk K F M nG → Move (Cont K F S M nG) → Prop
  | .inl f => MovesOnly (wLens f)
  | .inr (.inl k) => MovesOnly (eLens k)
  | .inr (.inr p) => MovesOnly (ceLens p.1 p.2)

theorem MovesOnly.comm {X R Q : Type} [MeasurableSpace X] [MeasurableSpace R] [MeasurableSpace Q] {L : Lens X R} {L' : Lens X Q}
    (h : Indep L L') {P P' : Move X} (hP : MovesOnly L P) (hP' : MovesOnly L' P') : Comm P P' := by
  obtain ⟨st, hst⟩ := hP
  obtain ⟨st', hst'⟩ := hP'
  intro x d e
  rw [hst', hst, hst, hst', h.get, h.symm.get, h]

theorem indep_ww {f f' : Fin F} (h : f ≠ f') : Indep (wLens f : Lens (Cont K F S M nG) _) (wLens f') := fun x v u =>
  Prod.ext (show Function.update (Function.update x.1 f' u) f v = Function.update (Function.update x.1 f v) f' u from
    (Function.update_comm h v u x.1).symm) rfl

theorem indep_we (f : Fin F) (k : Fin K) : Indep (wLens f : Lens (Cont K F S M nG) _) (eLens k) := fun _ _ _ => rfl

theorem indep_wc (f : Fin F) (i : Fin M) (g : Fin (nG i)) : Indep (wLens f : Lens (Cont K F S M nG) _) (ceLens i g) := fun _ _ _ => rfl

theorem indep_ec (k : Fin K) (i : Fin M) (g : Fin (nG i)) : Indep (eLens k : Lens (Cont K F S M nG) _) (ceLens i g) := fun _ _ _ => rfl

theorem indep_ee {k k' : Fin K} (h : k ≠ k') : Indep (eLens k : Lens (Cont K F S M nG) _) (eLens k') := fun x v u =>
  Prod.ext rfl (Prod.ext (show Function.update (Function.update x.2.1 k' u) k v = Function.update (Function.update x.2.1 k v) k' u from
    (Function.update_comm h v u x.2.1).symm) rfl)

theorem indep_cc {p q : Σ i : Fin M, Fin (nG i)} (h : p ≠ q) :
    Indep (ceLens p.1 p.2 : Lens (Cont K F S M nG) _) (ceLens q.1 q.2) := by
  obtain ⟨i, g⟩ := p
  obtain ⟨i', g'⟩ := q
  intro x v u
  refine Prod.ext rfl (Prod.ext rfl ?_)
  show Function.update (Function.update x.2.2 i' (Function.update (x.2.2 i') g' u)) i
      (Function.update (Function.update x.2.2 i' (Function.update (x.2.2 i') g' u) i) g v) =
    Function.update (Function.update x.2.2 i (Function.update (x.2.2 i) g v)) i'
      (Function.update (Function.update x.2.2 i (Function.update (x.2.2 i) g v) i') g' u)
  by_cases hi : i = i'
  · subst hi
    have hg : g ≠ g' := fun e => h (by rw [e])
    rw [Function.update_self, Function.update_self, Function.update_idem, Function.update_idem, Function.update_comm hg]
  · rw [Function.update_of_ne hi, Function.update_of_ne (Ne.symm hi), Function.update_comm hi]

theorem On.comm {b b' : Blk K F M nG} {P Q : Move (Cont K F S M nG)} (hP : On b P) (hQ : On b' Q) (h : b ≠ b') : Comm P Q := by
  rcases b with f | k | p <;> rcases b' with f' | k' | p'
  · exact MovesOnly.comm (indep_ww fun e => h (by rw [e])) hP hQ
  · exact MovesOnly.comm (indep_we f k') hP hQ
  · exact MovesOnly.comm (indep_wc f p'.1 p'.2) hP hQ
  · exact MovesOnly.comm (indep_we f' k).symm hP hQ
  · exact MovesOnly.comm (indep_ee fun e => h (by rw [e])) hP hQ
  · exact MovesOnly.comm (indep_ec k p'.1 p'.2) hP hQ
  · exact MovesOnly.comm (indep_wc f' p.1 p.2).symm hP hQ
  · exact MovesOnly.comm (indep_ec k' p.1 p.2).symm hP hQ
  · exact MovesOnly.comm (indep_cc fun e => h (by rw [e])) hP hQ

/-- The move keeps functions that vanish almost surely after the moves. -/
def Pres {X : Type} [MeasurableSpace X] (G : Set X) (l : List (Move X)) (P : Move X) : Prop :=
  ∀ h, Measurable h → Null G l h → Null G l (P.op h)

theorem Pres.opL {X : Type} [MeasurableSpace X] {G : Set X} {l ps : List (Move X)} (h : ∀ P ∈ ps, Pres G l P) {g : X → ℝ≥0∞}
    (hg : Measurable g) (hn : Null G l g) : Null G l (Meas.opL ps g) := by
  induction ps with
  | nil => exact hn
  | cons P ps ih =>
    exact h P List.mem_cons_self _ (opL_meas ps hg) (ih fun Q hQ => h Q (List.mem_cons_of_mem _ hQ))

theorem pres_blocks {G : Set (Cont K F S M nG)} {R : Blk K F M nG → Move (Cont K F S M nG)} (hR : ∀ b, On b (R b))
    {js : List (Blk K F M nG)} (hjs : js.Nodup) {b : Blk K F M nG} {P : Move (Cont K F S M nG)} (hP : On b P) (hst : P.Stays G)
    (hab : b ∈ js → Absorbs G (R b) P) : Pres G (js.map R) P := by
  intro h hh hn
  by_cases hb : b ∈ js
  · obtain ⟨l1, l2, rfl⟩ := List.append_of_mem hb
    rw [List.map_append, List.map_cons] at hn ⊢
    rw [List.nodup_append] at hjs
    have h1 : ∀ b' ∈ l1, b ≠ b' := fun b' hb' e => hjs.2.2 b' hb' b List.mem_cons_self e.symm
    have h2 : ∀ b' ∈ l2, b ≠ b' := fun b' hb' e => (List.nodup_cons.mp hjs.2.1).1 (e ▸ hb')
    refine Null.absorb hh hn (fun m hm => ?_) (fun m hm => ?_) (hab hb)
    · obtain ⟨b', hb', rfl⟩ := List.mem_map.mp hm
      exact ⟨hP.comm (hR b') (h1 b' hb'), (hR b).comm (hR b') (h1 b' hb')⟩
    · obtain ⟨b', hb', rfl⟩ := List.mem_map.mp hm
      exact hP.comm (hR b') (h2 b' hb')
  · refine Null.comm hh hn (fun m hm => ?_) hst
    obtain ⟨b', hb', rfl⟩ := List.mem_map.mp hm
    exact hP.comm (hR b') fun e => hb (e ▸ hb')

/-! ### Redrawing -/

instance uniformSimplex_sfinite (A : Finset (Fin C)) : IsFiniteMeasure (uniformSimplex A) := by unfold uniformSimplex; infer_instance

instance betaLaw_sfinite (a b : ℝ) : SFinite (betaLaw a b) := by unfold betaLaw ProbabilityTheory.betaMeasure; infer_instance

/-- The mass of the components `B` is shared out anew. -/
noncomputable def shareOut (f : Fin F) (B : Finset (Fin (M + 1))) : Move (Cont K F S M nG) :=
  (wLens f).move (uniformSimplex B) (spread B) (meas_spread B)

/-- The effects are drawn anew. -/
noncomputable def redraw (app : Fin F → Fin S → Bool) (L : Lens (Cont K F S M nG) (Fin F → Fin S → ℝ)) : Move (Cont K F S M nG) :=
  L.move (Measure.pi fun f => uniformSimplex (states app f)) (fun _ e => e) measurable_snd

/-- Drawing a block anew. -/
noncomputable def renew (app : Fin F → Fin S → Bool) : Blk K F M nG → Move (Cont K F S M nG)
  | .inl f => shareOut f Finset.univ
  | .inr (.inl k) => redraw app (eLens k)
  | .inr (.inr p) => redraw app (ceLens p.1 p.2)

/-- Two components of a feature share their weight as drawn. -/
noncomputable def reshare (f : Fin F) (i j : Fin (M + 1)) (ν : Measure ℝ) [SFinite ν] : Move (Cont K F S M nG) :=
  (wLens f).move ν (fun v t => Effects.along v i j t) (measurable_along i j)

/-- The effects are drawn from their conditional distribution. -/
noncomputable def resample (app : Fin F → Fin S → Bool) (L : Lens (Cont K F S M nG) (Fin F → Fin S → ℝ)) (alpha : Fin F → Fin S → ℝ) :
    Move (Cont K F S M nG) :=
  L.move (Measure.pi fun f => dirichletLaw (states app f) (alpha f)) (mergeRows app) (meas_merge app)

theorem move_only {X R E : Type} [MeasurableSpace X] [MeasurableSpace R] [MeasurableSpace E] (L : Lens X R) (ν : Measure E) [SFinite ν]
    (step : R → E → R) (hs : Measurable (Function.uncurry step)) : MovesOnly L (L.move ν step hs) := ⟨step, fun _ _ => rfl⟩

theorem shareOut_op (f : Fin F) (B : Finset (Fin (M + 1))) (g : Cont K F S M nG → ℝ≥0∞) (x : Cont K F S M nG) :
    (shareOut f B).op g x = ∫⁻ u, g ((wLens f).set x (spread B ((wLens f).get x) u)) ∂uniformSimplex B := rfl

theorem redraw_op (app : Fin F → Fin S → Bool) (L : Lens (Cont K F S M nG) (Fin F → Fin S → ℝ)) (g : Cont K F S M nG → ℝ≥0∞)
    (x : Cont K F S M nG) : (redraw app L).op g x = ∫⁻ e, g (L.set x e) ∂Measure.pi fun f => uniformSimplex (states app f) := rfl

theorem reshare_op (f : Fin F) (i j : Fin (M + 1)) (ν : Measure ℝ) [SFinite ν] (g : Cont K F S M nG → ℝ≥0∞) (x : Cont K F S M nG) :
    (reshare f i j ν).op g x = ∫⁻ t, g ((wLens f).set x (Effects.along ((wLens f).get x) i j t)) ∂ν := rfl

theorem resample_op (app : Fin F → Fin S → Bool) (L : Lens (Cont K F S M nG) (Fin F → Fin S → ℝ)) (alpha : Fin F → Fin S → ℝ)
    (g : Cont K F S M nG → ℝ≥0∞) (x : Cont K F S M nG) : (resample app L alpha).op g x =
      ∫⁻ e, g (L.set x (mergeRows app (L.get x) e)) ∂Measure.pi fun f => dirichletLaw (states app f) (alpha f) := rfl

theorem on_shareOut (f : Fin F) (B : Finset (Fin (M + 1))) : On (.inl f : Blk K F M nG) (shareOut f B : Move (Cont K F S M nG)) := ⟨_, fun _ _ => rfl⟩

theorem on_renew (app : Fin F → Fin S → Bool) (b : Blk K F M nG) : On b (renew app b : Move (Cont K F S M nG)) := by
  rcases b with f | k | p
  · exact on_shareOut f _
  · exact move_only (eLens k) _ _ _
  · exact move_only (ceLens p.1 p.2) _ _ _

theorem on_reshare (f : Fin F) (i j : Fin (M + 1)) (ν : Measure ℝ) [SFinite ν] :
    On (.inl f : Blk K F M nG) (reshare f i j ν : Move (Cont K F S M nG)) := move_only (wLens f) _ _ _

/-! ### The set in which the weight of some components of a feature is given -/

/-- Interior points at which the components `B` of feature `f` have a given weight. -/
def Slab (app : Fin F → Fin S → Bool) (f : Fin F) (B : Finset (Fin (M + 1))) (s0 : ℝ) : Set (Cont K F S M nG) :=
  {c | Interior app c ∧ ∑ k ∈ B, c.1 f k = s0}

section Moves
variable {app : Fin F → Fin S → Bool} {f : Fin F} {B : Finset (Fin (M + 1))} {s0 : ℝ}

theorem Interior.set_ce' {c : Cont K F S M nG} (h : Interior app c) (i : Fin M) (g : Fin (nG i)) {v : Fin F → Fin S → ℝ}
    (hv : ∀ f, Row (states app f) (v f)) : Interior app ((ceLens i g).set c v) := h.set_ce i g hv

theorem shareOut_stays (hB : B.Nonempty) : (shareOut f B : Move (Cont K F S M nG)).Stays {c | Interior app c} := fun x hx => by
  have : ∀ᵐ u ∂uniformSimplex B, Row B u := uniformSimplex_ae hB
  exact this.mono fun u hu => Interior.set_w hx f ((hx.w f).spread hB hu)

theorem shareOut_slab (hB : B.Nonempty) : (shareOut f B : Move (Cont K F S M nG)).Stays (Slab app f B s0) := fun x hx => by
  have : ∀ᵐ u ∂uniformSimplex B, Row B u := uniformSimplex_ae hB
  refine this.mono fun u hu => ⟨Interior.set_w hx.1 f ((hx.1.w f).spread hB hu), ?_⟩
  show ∑ k ∈ B, Function.update x.1 f (spread B (x.1 f) u) f k = s0
  rw [Function.update_self, sum_spread hu]
  exact hx.2

theorem renew_stays (hst : ∀ f, ∃ s, app f s = true) (b : Blk K F M nG) :
    (renew app b : Move (Cont K F S M nG)).Stays {c | Interior app c} := by
  rcases b with f | k | ⟨i, g⟩
  · exact shareOut_stays Finset.univ_nonempty
  · exact fun x hx => (rows_ae hst).mono fun e he => Interior.set_e hx k he
  · exact fun x hx => (rows_ae hst).mono fun e he => Interior.set_ce hx i g he

/-- A block other than the weights of `f` does not change the weights of `f`. -/
theorem on_other {b : Blk K F M nG} {P : Move (Cont K F S M nG)} (hP : On b P) (hb : b ≠ .inl f) (x : Cont K F S M nG) (e : P.E) :
    (P.φ x e).1 f = x.1 f := by
  rcases b with f' | k | p
  · obtain ⟨st, hst⟩ := hP
    rw [hst]
    exact Function.update_of_ne (fun h => hb (by rw [h])) _ _
  · obtain ⟨st, hst⟩ := hP
    rw [hst]; rfl
  · obtain ⟨st, hst⟩ := hP
    rw [hst]; rfl

theorem stays_slab {b : Blk K F M nG} {P : Move (Cont K F S M nG)} (hP : On b P) (hb : b ≠ .inl f)
    (hst : P.Stays {c | Interior app c}) : P.Stays (Slab app f B s0) := fun x hx =>
  (hst x hx.1).mono fun e he => ⟨he, by rw [on_other hP hb]; exact hx.2⟩

theorem reshare_stays {i j : Fin (M + 1)} (hij : i ≠ j) {ν : Measure ℝ} [SFinite ν] (hν : ν ≪ volume.restrict (Set.Ioo (0 : ℝ) 1)) (f : Fin F) :
    (reshare f i j ν : Move (Cont K F S M nG)).Stays {c | Interior app c} := fun x hx => by
  have h1 : ∀ᵐ t ∂ν, t ∈ Set.Ioo (0 : ℝ) 1 := hν.ae_le (ae_restrict_mem measurableSet_Ioo)
  exact h1.mono fun t ht => Interior.set_w hx f ((hx.w f).along (Finset.mem_univ i) (Finset.mem_univ j) hij ht)

theorem reshare_slab {i j : Fin (M + 1)} (hij : i ≠ j) (hB : (i ∈ B ↔ j ∈ B)) {ν : Measure ℝ} [SFinite ν]
    (hν : ν ≪ volume.restrict (Set.Ioo (0 : ℝ) 1)) : (reshare f i j ν : Move (Cont K F S M nG)).Stays (Slab app f B s0) := fun x hx => by
  have key : ∀ t : ℝ, ∑ k ∈ B, Function.update x.1 f (Effects.along (x.1 f) i j t) f k = s0 := by
    intro t
    rw [Function.update_self]
    by_cases hi : i ∈ B
    · rw [sum_along_in hi (hB.mp hi) hij]; exact hx.2
    · rw [sum_along_out hi fun hj => hi (hB.mpr hj)]; exact hx.2
  exact (reshare_stays hij hν f x hx.1).mono fun t ht => ⟨ht, key t⟩

theorem resample_ac (hst : ∀ f, ∃ s, app f s = true) {alpha : Fin F → Fin S → ℝ} (ha : ∀ f s, app f s = true → 0 < alpha f s) :
    (Measure.pi fun f => dirichletLaw (states app f) (alpha f)) ≪ Measure.pi fun f => uniformSimplex (states app f) := by
  rw [pi_dirichlet hst ha]
  exact withDensity_absolutelyContinuous _ _

/-- What vanishes when the effects are drawn anew vanishes when they are drawn from their conditional distribution. -/
theorem resample_zero (hst : ∀ f, ∃ s, app f s = true) {alpha : Fin F → Fin S → ℝ} (ha : ∀ f s, app f s = true → 0 < alpha f s)
    {L : Lens (Cont K F S M nG) (Fin F → Fin S → ℝ)} {x : Cont K F S M nG} (hx : ∀ f, Row (states app f) (L.get x f))
    {g : Cont K F S M nG → ℝ≥0∞} (hg : Measurable g) (h0 : (redraw app L).op g x = 0) : (resample app L alpha).op g x = 0 := by
  rw [redraw_op] at h0
  have hm : Measurable fun e => g (L.set x e) := hg.comp (L.mset.comp (measurable_const.prodMk measurable_id))
  rw [lintegral_eq_zero_iff hm] at h0
  rw [resample_op]
  have h1 : ∀ᵐ e ∂Measure.pi fun f => dirichletLaw (states app f) (alpha f), g (L.set x e) = 0 ∧ ∀ f, Row (states app f) (e f) := (resample_ac hst ha).ae_le (h0.and (rows_ae hst))
  refine (lintegral_congr_ae (h1.mono fun e he => ?_)).trans lintegral_zero
  show g (L.set x (mergeRows app (L.get x) e)) = 0
  rw [merge_rows hx he.2]
  exact he.1

theorem resample_stays (hst : ∀ f, ∃ s, app f s = true) {alpha : Fin F → Fin S → ℝ} (ha : ∀ f s, app f s = true → 0 < alpha f s)
    {L : Lens (Cont K F S M nG) (Fin F → Fin S → ℝ)} (hget : ∀ x, Interior app x → ∀ f, Row (states app f) (L.get x f))
    (hset : ∀ x, Interior app x → ∀ v, (∀ f, Row (states app f) (v f)) → Interior app (L.set x v)) :
    (resample app L alpha).Stays {c | Interior app c} := fun x hx => by
  have h1 : ∀ᵐ e ∂Measure.pi fun f => dirichletLaw (states app f) (alpha f), ∀ f, Row (states app f) (e f) :=
    (resample_ac hst ha).ae_le (rows_ae hst)
  refine h1.mono fun e he => ?_
  show Interior app (L.set x (mergeRows app (L.get x) e))
  rw [merge_rows (hget x hx) he]
  exact hset x hx _ he

theorem resample_absorb (hst : ∀ f, ∃ s, app f s = true) {alpha : Fin F → Fin S → ℝ} (ha : ∀ f s, app f s = true → 0 < alpha f s)
    {L : Lens (Cont K F S M nG) (Fin F → Fin S → ℝ)} (hget : ∀ x, Interior app x → ∀ f, Row (states app f) (L.get x f))
    {G : Set (Cont K F S M nG)} (hG : ∀ x ∈ G, Interior app x) (hstay : (redraw app L).Stays G) :
    Absorbs G (redraw app L) (resample app L alpha) := by
  intro g hg h x hx
  exact Move.op_zero hstay (fun y hy => resample_zero hst ha (hget y (hG y hy)) hg (h y hy)) hx

/-- Sharing out the weight of the components `B` once more within `B`. -/
theorem reshare_absorb {i j : Fin (M + 1)} (hi : i ∈ B) (hj : j ∈ B) (hij : i ≠ j) {ν : Measure ℝ} [SFinite ν]
    (hν : ν ≪ volume.restrict (Set.Ioo (0 : ℝ) 1)) (G : Set (Cont K F S M nG)) : Absorbs G (shareOut f B) (reshare f i j ν) := by
  intro g hg h x hx
  have h0 := h x hx
  rw [shareOut_op] at h0 ⊢
  have hm : Measurable fun u => g ((wLens f).set x (spread B ((wLens f).get x) u)) :=
    hg.comp ((wLens f).mset.comp (measurable_const.prodMk ((meas_spread B).comp (measurable_const.prodMk measurable_id))))
  rw [← uniformSimplex_along hi hj hij hm] at h0
  have hm2 : Measurable fun u => ∫⁻ t in Set.Ioo (0 : ℝ) 1, g ((wLens f).set x (spread B ((wLens f).get x) (Effects.along u i j t))) :=
    Measurable.lintegral_prod_right' (hm.comp (measurable_along i j))
  rw [lintegral_eq_zero_iff hm2] at h0
  refine (lintegral_congr_ae (h0.mono fun u hu => ?_)).trans lintegral_zero
  have hu' : ∫⁻ t in Set.Ioo (0 : ℝ) 1, g ((wLens f).set x (spread B ((wLens f).get x) (Effects.along u i j t))) = 0 := hu
  have hm3 : Measurable fun t => g ((wLens f).set x (spread B ((wLens f).get x) (Effects.along u i j t))) :=
    hm.comp ((measurable_along i j).comp (measurable_const.prodMk measurable_id))
  rw [lintegral_eq_zero_iff hm3] at hu'
  show (reshare f i j ν).op g _ = 0
  rw [reshare_op]
  have hu2 : ∀ᵐ t ∂ν, g ((wLens f).set x (spread B ((wLens f).get x) (Effects.along u i j t))) = 0 := hν.ae_le hu'
  refine (lintegral_congr_ae (hu2.mono fun t ht => ?_)).trans lintegral_zero
  show g _ = 0
  rw [(wLens f).get_set, (wLens f).set_set, along_spread_in hi hj]
  exact ht

/-- Sharing out the weight of the components `B` does not interfere with sharing out weights outside `B`. -/
theorem reshare_comm {i j : Fin (M + 1)} (hi : i ∉ B) (hj : j ∉ B) (ν : Measure ℝ) [SFinite ν] :
    Comm (reshare f i j ν : Move (Cont K F S M nG)) (shareOut f B) := by
  have key : ∀ (x : Cont K F S M nG) (t : ℝ) (u : Fin (M + 1) → ℝ),
      (wLens f).set ((wLens f).set x (Effects.along ((wLens f).get x) i j t))
          (spread B ((wLens f).get ((wLens f).set x (Effects.along ((wLens f).get x) i j t))) u) =
        (wLens f).set ((wLens f).set x (spread B ((wLens f).get x) u))
          (Effects.along ((wLens f).get ((wLens f).set x (spread B ((wLens f).get x) u))) i j t) := by
    intro x t u
    rw [(wLens f).get_set, (wLens f).get_set, (wLens f).set_set, (wLens f).set_set, along_spread_out hi hj]
  exact fun x t u => key x t u

/-- What vanishes when the weights of `B` and one more component are shared out, vanishes when those of `B` are shared out, and then
those of one component in `B` and one outside `B`. -/
theorem reshare_cross {i j : Fin (M + 1)} (h : (i ∈ B ∧ j ∉ B) ∨ (i ∉ B ∧ j ∈ B)) {ν : Measure ℝ} [SFinite ν]
    (hν : ν ≪ volume.restrict (Set.Ioo (0 : ℝ) 1)) {g : Cont K F S M nG → ℝ≥0∞} (hg : Measurable g) {x : Cont K F S M nG}
    (hx : Interior app x) (h0 : ∀ k ∉ B, (shareOut f (insert k B)).op g x = 0) :
    (shareOut f B).op ((reshare f i j ν).op g) x = 0 := by
  have key : ∀ a b, a ∈ B → b ∉ B → ∀ᵐ u ∂uniformSimplex B, ∀ᵐ t ∂volume.restrict (Set.Ioo (0 : ℝ) 1),
      g ((wLens f).set x (Effects.along (spread B ((wLens f).get x) u) a b t)) = 0 := by
    intro a b ha hb
    have hk := h0 b hb
    rw [shareOut_op] at hk
    have hm : Measurable fun u => g ((wLens f).set x (spread (insert b B) ((wLens f).get x) u)) :=
      hg.comp ((wLens f).mset.comp (measurable_const.prodMk ((meas_spread _).comp (measurable_const.prodMk measurable_id))))
    rw [lintegral_eq_zero_iff hm] at hk
    have hZ : MeasurableSet {v : Fin (M + 1) → ℝ | g ((wLens f).set x v) = 0} := by
      have : Measurable fun v => g ((wLens f).set x v) := hg.comp ((wLens f).mset.comp (measurable_const.prodMk measurable_id))
      exact this (measurableSet_singleton 0)
    exact spread_merge ha hb (hx.w f) hZ hk
  rw [shareOut_op]
  have hall : ∀ᵐ u ∂uniformSimplex B, ∀ᵐ t ∂ν, g ((wLens f).set x (Effects.along (spread B ((wLens f).get x) u) i j t)) = 0 := by
    rcases h with ⟨hi, hj⟩ | ⟨hi, hj⟩
    · exact (key i j hi hj).mono fun u hu => hν.ae_le hu
    · refine (key j i hj hi).mono fun u hu => hν.ae_le ?_
      have hij : i ≠ j := fun e => hi (e ▸ hj)
      have hflip : ∀ᵐ t ∂volume.restrict (Set.Ioo (0 : ℝ) 1),
          g ((wLens f).set x (Effects.along (spread B ((wLens f).get x) u) j i (1 - t))) = 0 := by
        have hq : MeasurePreserving (fun t : ℝ => 1 - t) volume volume := Measure.measurePreserving_sub_left volume 1
        rw [ae_restrict_iff' measurableSet_Ioo] at hu ⊢
        filter_upwards [hq.quasiMeasurePreserving.ae hu] with t ht ht01
        exact ht ⟨by linarith [ht01.2], by linarith [ht01.1]⟩
      refine hflip.mono fun t ht => ?_
      have e : ∀ v : Fin (M + 1) → ℝ, Effects.along v i j t = Effects.along v j i (1 - t) := by
        intro v
        unfold Effects.along
        rw [Function.update_comm hij, sub_sub_cancel, add_comm (v j)]
      rw [e]
      exact ht
  refine (lintegral_congr_ae (hall.mono fun u hu => ?_)).trans lintegral_zero
  show (reshare f i j ν).op g _ = 0
  rw [reshare_op]
  refine (lintegral_congr_ae (hu.mono fun t ht => ?_)).trans lintegral_zero
  show g _ = 0
  rw [(wLens f).get_set, (wLens f).set_set]
  exact ht

/-- Sharing out the weight of one component changes nothing. -/
theorem shareOut_single {k : Fin (M + 1)} (g : Cont K F S M nG → ℝ≥0∞) (x : Cont K F S M nG) : (shareOut f {k}).op g x = g x := by
  have : IsProbabilityMeasure (uniformSimplex ({k} : Finset (Fin (M + 1)))) := uniformSimplex_prob (Finset.singleton_nonempty k)
  have hr : ∀ᵐ u ∂uniformSimplex ({k} : Finset (Fin (M + 1))), Row {k} u := uniformSimplex_ae (Finset.singleton_nonempty k)
  rw [shareOut_op, lintegral_congr_ae (hr.mono fun u hu => by rw [spread_single hu, (wLens f).set_get]) (g := fun _ => g x)]
  simp

end Moves

end SBayes.Meas
