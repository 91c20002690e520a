import Verif.Lemmas.SamplerPair
/- Invariance of the operators used without source sampling. -/
namespace SBayes.Meas
set_option linter.unusedSectionVars false
open SBayes.Lik SBayes.Clusters SBayes.MH SBayes.Source SBayes.Effects SBayes.Posterior SBayes.Draws SBayes.Kernel MeasureTheory
open scoped BigOperators ENNReal

variable {K N F S M C G : ℕ} {nG : Fin M → ℕ}

/-! ### Rows of the continuous parameters -/

section Lenses
variable {X Y R : Type} [MeasurableSpace X] [MeasurableSpace Y] [MeasurableSpace R]

/-- A row of a row. -/
def Lens.comp (L : Lens X Y) (L' : Lens Y R) : Lens X R where
  get x := L'.get (L.get x)
  set x v := L.set x (L'.set (L.get x) v)
  get_set x v := by rw [L.get_set, L'.get_set]
  set_set x v u := by rw [L.get_set, L.set_set, L'.set_set]
  set_get x := by rw [L'.set_get, L.set_get]
  mget := L'.mget.comp L.mget
  mset := L.mset.comp (measurable_fst.prodMk (L'.mset.comp ((L.mget.comp measurable_fst).prodMk measurable_snd)))

/-- One coordinate. -/
def Lens.pi {ι : Type} [DecidableEq ι] (X : ι → Type) [∀ i, MeasurableSpace (X i)] (i : ι) : Lens (∀ i, X i) (X i) where
  get x := x i
  set x v := Function.update x i v
  get_set x v := Function.update_self i v x
  set_set x v u := Function.update_idem v u x
  set_get x := Function.update_eq_self i x
  mget := measurable_pi_apply i
  mset := measurable_update_pair i

def Lens.fst (X Y : Type) [MeasurableSpace X] [MeasurableSpace Y] : Lens (X × Y) X where
  get := Prod.fst
  set x v := (v, x.2)
  get_set _ _ := rfl
  set_set _ _ _ := rfl
  set_get _ := rfl
  mget := measurable_fst
  mset := measurable_snd.prodMk (measurable_snd.comp measurable_fst)

def Lens.snd (X Y : Type) [MeasurableSpace X] [MeasurableSpace Y] : Lens (X × Y) Y where
  get := Prod.snd
  set x v := (x.1, v)
  get_set _ _ := rfl
  set_set _ _ _ := rfl
  set_get _ := rfl
  mget := measurable_snd
  mset := (measurable_fst.comp measurable_fst).prodMk measurable_snd

end Lenses

/-- The weights of a feature. -/
def wLens (f : Fin F) : Lens (Cont K F S M nG) (Fin (M + 1) → ℝ) := (Lens.fst _ _).comp (Lens.pi _ f)

/-- The cluster effects of a cluster. -/
def eLens (k : Fin K) : Lens (Cont K F S M nG) (Fin F → Fin S → ℝ) :=
  (Lens.snd _ _).comp ((Lens.fst _ _).comp (Lens.pi _ k))

/-- The confounding effects of a group. -/
def ceLens (c : Fin M) (g : Fin (nG c)) : Lens (Cont K F S M nG) (Fin F → Fin S → ℝ) :=
  (Lens.snd _ _).comp ((Lens.snd _ _).comp ((Lens.pi (fun c => Fin (nG c) → Fin F → Fin S → ℝ) c).comp (Lens.pi _ g)))

section Refr
variable {E : Type} [MeasurableSpace E] {ρ : Measure E} [SFinite ρ] {app : Fin F → Fin S → Bool}

theorem refresh_w (f : Fin F) {ψ : (Fin (M + 1) → ℝ) → E → Fin (M + 1) → ℝ} (h : Refresh (uniformSimplex Finset.univ) ρ ψ) :
    Refresh (contRef app : Measure (Cont K F S M nG)) ρ fun x e => (wLens f).set x (ψ ((wLens f).get x) e) :=
  Refresh.fst (Refresh.pi (ν := fun _ : Fin F => uniformSimplex (Finset.univ : Finset (Fin (M + 1)))) f h)

theorem refresh_e (k : Fin K) {ψ : (Fin F → Fin S → ℝ) → E → Fin F → Fin S → ℝ}
    (h : Refresh (Measure.pi fun f => uniformSimplex (states app f)) ρ ψ) :
    Refresh (contRef app : Measure (Cont K F S M nG)) ρ fun x e => (eLens k).set x (ψ ((eLens k).get x) e) :=
  Refresh.snd (Refresh.fst (Refresh.pi (ν := fun _ : Fin K => Measure.pi fun f => uniformSimplex (states app f)) k h))

theorem refresh_ce (c : Fin M) (g : Fin (nG c)) {ψ : (Fin F → Fin S → ℝ) → E → Fin F → Fin S → ℝ}
    (h : Refresh (Measure.pi fun f => uniformSimplex (states app f)) ρ ψ) :
    Refresh (contRef app : Measure (Cont K F S M nG)) ρ fun x e => (ceLens c g).set x (ψ ((ceLens c g).get x) e) :=
  Refresh.snd (Refresh.snd (Refresh.pi
    (ν := fun c => Measure.pi fun _ : Fin (nG c) => Measure.pi fun f => uniformSimplex (states app f)) c
    (Refresh.pi (ν := fun _ : Fin (nG c) => Measure.pi fun f => uniformSimplex (states app f)) g h)))

theorem refresh_along {A : Finset (Fin C)} {i j : Fin C} (hi : i ∈ A) (hj : j ∈ A) (hij : i ≠ j) :
    Refresh (uniformSimplex A) (volume.restrict (Set.Ioo (0 : ℝ) 1)) fun v t => along v i j t :=
  ⟨measurable_along i j, fun _ hg => uniformSimplex_along hi hj hij hg⟩

theorem refresh_feature {f : Fin F} {i j : Fin S} (hi : app f i = true) (hj : app f j = true) (hij : i ≠ j) :
    Refresh (Measure.pi fun f => uniformSimplex (states app f)) (volume.restrict (Set.Ioo (0 : ℝ) 1))
      fun v t => Function.update v f (along (v f) i j t) :=
  Refresh.pi (ν := fun f => uniformSimplex (states app f)) f (refresh_along (mem_states.mpr hi) (mem_states.mpr hj) hij)

end Refr

/-! ### Interior points stay in the interior -/

theorem Interior.set_w {app : Fin F → Fin S → Bool} {c : Cont K F S M nG} (h : Interior app c) (f : Fin F) {v : Fin (M + 1) → ℝ}
    (hv : Row Finset.univ v) : Interior app ((wLens f).set c v) := by
  refine ⟨fun f' => ?_, h.e, h.ce⟩
  show Row Finset.univ (Function.update c.1 f v f')
  by_cases hf : f' = f
  · subst hf; rwa [Function.update_self]
  · rw [Function.update_of_ne hf]; exact h.w f'

theorem Interior.set_e {app : Fin F → Fin S → Bool} {c : Cont K F S M nG} (h : Interior app c) (k : Fin K)
    {v : Fin F → Fin S → ℝ} (hv : ∀ f, Row (states app f) (v f)) : Interior app ((eLens k).set c v) := by
  refine ⟨h.w, fun k' f => ?_, h.ce⟩
  show Row (states app f) (Function.update c.2.1 k v k' f)
  by_cases hk : k' = k
  · subst hk; rw [Function.update_self]; exact hv f
  · rw [Function.update_of_ne hk]; exact h.e k' f

theorem Interior.set_ce {app : Fin F → Fin S → Bool} {c : Cont K F S M nG} (h : Interior app c) (i : Fin M) (g : Fin (nG i))
    {v : Fin F → Fin S → ℝ} (hv : ∀ f, Row (states app f) (v f)) : Interior app ((ceLens i g).set c v) := by
  refine ⟨h.w, h.e, fun i' g' f => ?_⟩
  show Row (states app f) (Function.update c.2.2 i (Function.update (c.2.2 i) g v) i' g' f)
  by_cases hi : i' = i
  · subst hi
    rw [Function.update_self]
    by_cases hg : g' = g
    · subst hg; rw [Function.update_self]; exact hv f
    · rw [Function.update_of_ne hg]; exact h.ce i' g' f
  · rw [Function.update_of_ne hi]; exact h.ce i' g' f

theorem rows_along {app : Fin F → Fin S → Bool} {v : Fin F → Fin S → ℝ} (h : ∀ f, Row (states app f) (v f)) {f : Fin F}
    {i j : Fin S} (hi : app f i = true) (hj : app f j = true) (hij : i ≠ j) {t : ℝ} (ht : t ∈ Set.Ioo (0 : ℝ) 1) (f' : Fin F) :
    Row (states app f') (Function.update v f (Effects.along (v f) i j t) f') := by
  by_cases hf : f' = f
  · subst hf; rw [Function.update_self]; exact (h f').along (mem_states.mpr hi) (mem_states.mpr hj) hij ht
  · rw [Function.update_of_ne hf]; exact h f'

/-! ### The operators -/

section Ops
variable {m : Setup K N F S M nG}

/-- A move of one row, for a drawn pair of entries. -/
noncomputable def pairMove (m : Setup K N F S M nG) (L : Lens (Cont K F S M nG) (Fin C → ℝ)) (prec : ℝ) (ij : Fin C × Fin C) :
    Clus K N × Cont K F S M nG → Law (Clus K N × Cont K F S M nG) :=
  mhStep (post0 m) fun x => Law.bind (drawShare prec (L.get x.2) ij.1 ij.2) fun t =>
    Law.ret ⟨(x.1, L.set x.2 (alterPair prec (L.get x.2) ij.1 ij.2 t).new), (alterPair prec (L.get x.2) ij.1 ij.2 t).q,
      (alterPair prec (L.get x.2) ij.1 ij.2 t).qBack⟩

theorem keeps_pair (hm : WellPosed m) (hs : m.cfg.sampleSource = false) (L : Lens (Cont K F S M nG) (Fin C → ℝ)) {prec : ℝ}
    (hprec : 0 ≤ prec) {i j : Fin C} (hij : i ≠ j)
    (hR : Refresh (contRef m.cfg.app : Measure (Cont K F S M nG)) (volume.restrict (Set.Ioo (0 : ℝ) 1))
      fun x t => L.set x (along (L.get x) i j t))
    (hpos : ∀ c, Interior m.cfg.app c → 0 < L.get c i ∧ 0 < L.get c j ∧
      ∀ t ∈ Set.Ioo (0 : ℝ) 1, Interior m.cfg.app (L.set c (along (L.get c) i j t))) :
    Keeps (target m id (post0 m)) (pairMove m L prec (i, j)) := by
  have hT : ∀ d c g, pairMove m L prec (i, j) (d, c) g =
      drawShare prec (L.get c) i j (pairH L prec i j (fun c => post0 m (d, c)) (fun c => g (d, c)) c) := by
    intro d c g
    unfold pairMove mhStep Law.bind Law.ret pairH
    dsimp only
    congr 1
    funext t
    simp only [Law.ofRand, List.map_cons, List.map_nil, List.sum_cons, List.sum_nil, add_zero]
  refine keeps_of_cont (meas_post0 m) (fun d g hg => ?_) fun d hd g hg => ?_
  · simp only [hT]
    exact meas_pair_law L (meas_post0 m d) (hg.comp (measurable_const.prodMk measurable_id))
  · simp only [hT]
    refine pair_step L hprec hij hR (meas_post0 m d) ?_ (hg.comp (measurable_const.prodMk measurable_id))
    filter_upwards [interior_ae hm.hasState] with c hc
    obtain ⟨h1, h2, h3⟩ := hpos c hc
    exact ⟨h1, h2, fun t ht => post0_pos hm hs hd (h3 t ht)⟩

theorem samplePair_mem {n : ℕ} {l : List (Fin n)} {p : (Fin n × Fin n) × ℝ} (h : p ∈ samplePair l) :
    p.1.1 ∈ l ∧ p.1.2 ∈ l ∧ p.1.1 ≠ p.1.2 := by
  unfold samplePair uniform at h
  obtain ⟨a, ha, rfl⟩ := List.mem_map.mp h
  rw [List.mem_filter, List.pair_mem_product] at ha
  exact ⟨ha.1.1, ha.1.2, by simpa using ha.2⟩

theorem samplePair_dist {n : ℕ} {l : List (Fin n)} {a b : Fin n} (ha : a ∈ l) (hb : b ∈ l) (hab : a ≠ b) :
    IsDist (samplePair l) := by
  refine isDist_uniform (List.ne_nil_of_mem (a := (a, b)) ?_)
  rw [List.mem_filter, List.pair_mem_product]
  exact ⟨⟨ha, hb⟩, by simpa using hab⟩

theorem uniform_fin_dist {n : ℕ} (h : 0 < n) : IsDist (uniform (List.finRange n)) :=
  isDist_uniform (List.ne_nil_of_mem (List.mem_finRange ⟨0, h⟩))

theorem pair_weights (h : 0 < M) : IsDist (samplePair (List.finRange (M + 1))) :=
  samplePair_dist (a := 0) (b := ⟨1, by omega⟩) (List.mem_finRange _) (List.mem_finRange _) (by simp [Fin.ext_iff])

/-- `AlterWeights`. -/
theorem keeps_alterWeights (hm : WellPosed m) (hs : m.cfg.sampleSource = false) (hF : 0 < F) :
    Keeps (target m id (post0 m)) (mhStep (post0 m) (propose0 m .weights)) := by
  have h1 : ∀ (f : Fin F) (ij : Fin (M + 1) × Fin (M + 1)), ij.1 ≠ ij.2 →
      Keeps (target m id (post0 m)) (pairMove m (wLens f) 30 ij) := by
    intro f ij hne
    refine keeps_pair hm hs (wLens f) (prec := 30) (by norm_num) hne
      (refresh_w f (refresh_along (Finset.mem_univ _) (Finset.mem_univ _) hne)) fun c hc => ?_
    exact ⟨(hc.w f).pos (Finset.mem_univ _), (hc.w f).pos (Finset.mem_univ _),
      fun t ht => hc.set_w f ((hc.w f).along (Finset.mem_univ _) (Finset.mem_univ _) hne ht)⟩
  have h2 := Keeps.mix (uniform (List.finRange F)) (ofRand_one (uniform_fin_dist hF))
    (fun f x => Law.bind (Law.ofRand (samplePair (List.finRange (M + 1)))) fun ij => pairMove m (wLens f) 30 ij x) fun f _ =>
    Keeps.mix (samplePair (List.finRange (M + 1))) (ofRand_one (pair_weights hm.hasConfounder))
      (fun ij x => pairMove m (wLens f.1) 30 ij x) fun ij hij => h1 f.1 ij.1 (samplePair_mem hij).2.2
  exact h2

theorem pair_states {app : Fin F → Fin S → Bool} (h : ∀ f, ∃ s s', s ≠ s' ∧ app f s = true ∧ app f s' = true) (f : Fin F) :
    IsDist (samplePair ((List.finRange S).filter fun s => app f s)) := by
  obtain ⟨a, b, hab, ha, hb⟩ := h f
  exact samplePair_dist (a := a) (b := b) (List.mem_filter.mpr ⟨List.mem_finRange _, ha⟩)
    (List.mem_filter.mpr ⟨List.mem_finRange _, hb⟩) hab

/-- `AlterClusterEffect`. -/
theorem keeps_alterClusterEffect (hm : WellPosed m) (hs : m.cfg.sampleSource = false) (hF : 0 < F)
    (h2 : ∀ f, ∃ s s', s ≠ s' ∧ m.cfg.app f s = true ∧ m.cfg.app f s' = true) :
    Keeps (target m id (post0 m)) (mhStep (post0 m) (propose0 m .clusterEffect)) := by
  have h1 : ∀ (k : Fin K) (f : Fin F) (ij : Fin S × Fin S), ij.1 ≠ ij.2 → m.cfg.app f ij.1 = true → m.cfg.app f ij.2 = true →
      Keeps (target m id (post0 m)) (pairMove m ((eLens k).comp (Lens.pi _ f)) 20 ij) := by
    intro k f ij hne hi hj
    refine keeps_pair hm hs ((eLens k).comp (Lens.pi _ f)) (prec := 20) (by norm_num) hne
      (refresh_e k (refresh_feature hi hj hne)) fun c hc => ?_
    exact ⟨(hc.e k f).pos (mem_states.mpr hi), (hc.e k f).pos (mem_states.mpr hj),
      fun t ht => hc.set_e k (rows_along (hc.e k) hi hj hne ht)⟩
  have h3 : ∀ k : Fin K, Keeps (target m id (post0 m)) fun x => Law.bind (Law.ofRand (uniform (List.finRange F))) fun f =>
      Law.bind (Law.ofRand (samplePair ((List.finRange S).filter fun s => m.cfg.app f s))) fun ij =>
        pairMove m ((eLens k).comp (Lens.pi _ f)) 20 ij x := fun k =>
    Keeps.mix (uniform (List.finRange F)) (ofRand_one (uniform_fin_dist hF))
      (fun f x => Law.bind (Law.ofRand (samplePair ((List.finRange S).filter fun s => m.cfg.app f s))) fun ij =>
        pairMove m ((eLens k).comp (Lens.pi _ f)) 20 ij x) fun f _ =>
      Keeps.mix (samplePair ((List.finRange S).filter fun s => m.cfg.app f.1 s)) (ofRand_one (pair_states h2 f.1))
        (fun ij x => pairMove m ((eLens k).comp (Lens.pi _ f.1)) 20 ij x) fun ij hij => by
          obtain ⟨hi, hj, hne⟩ := samplePair_mem hij
          exact h1 k f.1 ij.1 hne (List.mem_filter.mp hi).2 (List.mem_filter.mp hj).2
  have h4 := Keeps.mix (uniform (List.finRange K)) (ofRand_one (uniform_fin_dist hm.hasCluster))
    (fun k x => Law.bind (Law.ofRand (uniform (List.finRange F))) fun f =>
      Law.bind (Law.ofRand (samplePair ((List.finRange S).filter fun s => m.cfg.app f s))) fun ij =>
        pairMove m ((eLens k).comp (Lens.pi _ f)) 20 ij x) fun k _ => h3 k.1
  exact h4

/-- `AlterConfoundingEffects`. -/
theorem keeps_alterConfounding (hm : WellPosed m) (hs : m.cfg.sampleSource = false) (hF : 0 < F)
    (h2 : ∀ f, ∃ s s', s ≠ s' ∧ m.cfg.app f s = true ∧ m.cfg.app f s' = true) (c : Fin M) :
    Keeps (target m id (post0 m)) (mhStep (post0 m) (propose0 m (.confounding c))) := by
  have h1 : ∀ (g : Fin (nG c)) (f : Fin F) (ij : Fin S × Fin S), ij.1 ≠ ij.2 → m.cfg.app f ij.1 = true →
      m.cfg.app f ij.2 = true → Keeps (target m id (post0 m)) (pairMove m ((ceLens c g).comp (Lens.pi _ f)) 10 ij) := by
    intro g f ij hne hi hj
    refine keeps_pair hm hs ((ceLens c g).comp (Lens.pi _ f)) (prec := 10) (by norm_num) hne
      (refresh_ce c g (refresh_feature hi hj hne)) fun c' hc => ?_
    exact ⟨(hc.ce c g f).pos (mem_states.mpr hi), (hc.ce c g f).pos (mem_states.mpr hj),
      fun t ht => hc.set_ce c g (rows_along (hc.ce c g) hi hj hne ht)⟩
  have h3 : ∀ g : Fin (nG c), Keeps (target m id (post0 m)) fun x => Law.bind (Law.ofRand (uniform (List.finRange F))) fun f =>
      Law.bind (Law.ofRand (samplePair ((List.finRange S).filter fun s => m.cfg.app f s))) fun ij =>
        pairMove m ((ceLens c g).comp (Lens.pi _ f)) 10 ij x := fun g =>
    Keeps.mix (uniform (List.finRange F)) (ofRand_one (uniform_fin_dist hF))
      (fun f x => Law.bind (Law.ofRand (samplePair ((List.finRange S).filter fun s => m.cfg.app f s))) fun ij =>
        pairMove m ((ceLens c g).comp (Lens.pi _ f)) 10 ij x) fun f _ =>
      Keeps.mix (samplePair ((List.finRange S).filter fun s => m.cfg.app f.1 s)) (ofRand_one (pair_states h2 f.1))
        (fun ij x => pairMove m ((ceLens c g).comp (Lens.pi _ f.1)) 10 ij x) fun ij hij => by
          obtain ⟨hi, hj, hne⟩ := samplePair_mem hij
          exact h1 g f.1 ij.1 hne (List.mem_filter.mp hi).2 (List.mem_filter.mp hj).2
  have h4 := Keeps.mix (uniform (List.finRange (nG c))) (ofRand_one (uniform_fin_dist (hm.hasGroup c)))
    (fun g x => Law.bind (Law.ofRand (uniform (List.finRange F))) fun f =>
      Law.bind (Law.ofRand (samplePair ((List.finRange S).filter fun s => m.cfg.app f s))) fun ij =>
        pairMove m ((ceLens c g).comp (Lens.pi _ f)) 10 ij x) fun g _ => h3 g.1
  exact h4

end Ops

end SBayes.Meas
