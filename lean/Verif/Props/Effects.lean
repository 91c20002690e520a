import Verif.Lemmas.Effects
import Mathlib.Analysis.SpecialFunctions.Gamma.Deriv
import Mathlib.Analysis.SpecialFunctions.Pow.Continuity
import Mathlib.Logic.Relation
import Mathlib.Tactic.LinearCombination
/- Theorems C24, C25, C26, C51, C52: moves of weights and effects. -/
namespace SBayes.Effects
open SBayes.Lik SBayes.MH MeasureTheory
open scoped BigOperators ENNReal
variable {K N F S C G M : ℕ} {nG : Fin M → ℕ}

/-- **C24.** Whatever the weight operators draw and whichever features are accepted, over any history
the weights of every feature are non-negative and sum to one. -/
theorem C24_weights_stay_on_the_simplex (w w' : Fin F → Fin C → ℝ) (h : Relation.ReflTransGen WStep w w')
    (hw : ∀ f, Simplex (w f)) : ∀ f, Simplex (w' f) := by
  induction h with
  | refl => exact hw
  | tail _ hs ih =>
    cases hs with
    | rejected => exact ih
    | alter f i j t hij ht _ =>
      intro f'
      by_cases hf : f' = f
      · subst hf
        simp only [alterWeights, Function.update_self]
        exact ⟨alterPair_nonneg _ (ih f').1 i j ht.1, (alterPair_sum _ _ hij ht.2).trans (ih f').2⟩
      · simp only [alterWeights, Function.update_of_ne hf]
        exact ih f'
    | gibbs src has i1 i2 a2 u hij ha _ =>
      intro f
      simp only [gibbsWeights, gibbs]
      split
      · simp only [resamplePair]
        rw [mixPair_eq hij (ih f).2]
        have h12 := add_nonneg ((ih f).1 i1) ((ih f).1 i2)
        have h1 : 0 ≤ 1 - a2 f := by linarith [(ha f).2]
        refine ⟨fun k => ?_, ?_⟩
        · simp only [Function.update_apply]
          split
          · exact mul_nonneg (ha f).1 h12
          · split
            · exact mul_nonneg h1 h12
            · exact (ih f).1 k
        · rw [sum_pair_update _ hij, (ih f).2]; ring
      · exact ih f

/-- **C24.** Starting from positive weights (the initial ones are uniform), with draws in the open
simplex the weights stay positive: no step ever divides by a zero total. -/
theorem C24_weights_stay_positive (w w' : Fin F → Fin C → ℝ) (h : Relation.ReflTransGen WStepPos w w')
    (hw : ∀ f, OpenSimplex (w f)) : ∀ f, OpenSimplex (w' f) ∧ ∀ i j, w' f i + w' f j ≠ 0 := by
  have key : ∀ f, OpenSimplex (w' f) := by
    induction h with
    | refl => exact hw
    | tail _ hs ih =>
      cases hs with
      | rejected => exact ih
      | alter f i j t hij ht =>
        intro f'
        by_cases hf : f' = f
        · subst hf
          simp only [alterWeights, Function.update_self]
          exact ⟨alterPair_pos _ (ih f').1 i j ht.1, (alterPair_sum _ _ hij ht.2).trans (ih f').2⟩
        · simp only [alterWeights, Function.update_of_ne hf]
          exact ih f'
      | gibbs src has i1 i2 a2 u hij ha =>
        intro f
        simp only [gibbsWeights, gibbs]
        split
        · simp only [resamplePair]
          rw [mixPair_eq_along hij (ih f).2]
          exact ⟨along_pos (ih f).1 i2 i1 (ha f), (sum_along _ hij.symm _).trans (ih f).2⟩
        · exact ih f
  exact fun f => ⟨key f, fun i j => (add_pos ((key f).1 i) ((key f).1 j)).ne'⟩

/-- **C24**, the features of a Gibbs weight step are decided one by one: each row is the old or the
proposed one. -/
theorem C24_features_accept_independently {N : ℕ} (src : Fin N → Fin F → Fin C → Bool)
    (has : Fin N → Fin C → Bool) (w : Fin F → Fin C → ℝ) (i1 i2 : Fin C) (a2 a2' u u' : Fin F → ℝ)
    (f : Fin F) (ha : a2 f = a2' f) (hu : u f = u' f) :
    (gibbsWeights src has w i1 i2 a2 u).new f = (gibbsWeights src has w i1 i2 a2' u').new f := by
  have : pAccept src has w i1 i2 a2 f = pAccept src has w i1 i2 a2' f := by
    simp only [pAccept, sourceLh, normalizeWeights, ha]
  simp only [gibbsWeights, gibbs, this, hu, ha]

example : (∀ f : Fin 3, OpenSimplex ((fun _ _ => 1/2 : Fin 3 → Fin 2 → ℝ) f)) ∧
    WStepPos (fun _ _ => 1/2 : Fin 3 → Fin 2 → ℝ)
      (alterWeights (fun _ _ => 1/2 : Fin 3 → Fin 2 → ℝ) 1 0 1 ![1/3, 2/3]).new := by
  refine ⟨fun f => ⟨fun i => by norm_num, by simp⟩, .alter 1 0 1 _ (by decide) ⟨?_, ?_⟩⟩
  · intro k; fin_cases k <;> norm_num
  · rw [Fin.sum_univ_two]; norm_num

/-- **C25.** A Dirichlet step on an effect changes two applicable states of one feature of one group,
keeps their joint mass, and nothing else. -/
theorem C25_two_states_change (prec : ℝ) (e : Fin G → Fin F → Fin S → ℝ) (g : Fin G) (f : Fin F)
    (i j : Fin S) (hij : i ≠ j) (t : Fin 2 → ℝ) (ht : Simplex t) :
    let e' := (alterEffect prec e g f i j t).new
    (∀ g' f' s, (g' ≠ g ∨ f' ≠ f ∨ (s ≠ i ∧ s ≠ j)) → e' g' f' s = e g' f' s) ∧
      e' g f i + e' g f j = e g f i + e g f j ∧
      e' g f i = t 0 * (e g f i + e g f j) := by
  intro e'
  have h0 : e' g f = (alterPair prec (e g f) i j t).new := by
    simp [e', alterEffect]
  refine ⟨?_, ?_, ?_⟩
  · rintro g' f' s h
    by_cases hg : g' = g
    · subst hg
      by_cases hf : f' = f
      · subst hf
        rw [h0]
        have : s ≠ i ∧ s ≠ j := by simpa using h
        exact alterPair_other _ _ _ _ _ this.1 this.2
      · simp [e', alterEffect, hf]
    · simp [e', alterEffect, hg]
  · rw [h0, alterPair_new, Function.update_of_ne hij, Function.update_self, Function.update_self]
    have := ht.2
    rw [Fin.sum_univ_two] at this
    rw [← add_mul, this, one_mul]
  · rw [h0, alterPair_new, Function.update_of_ne hij, Function.update_self]

/-- **C25.** Over any history of effect moves (Dirichlet steps, Gibbs resampling, rejections), every
effect stays a probability vector on the applicable states. -/
theorem C25_effects_stay_distributions (app : Fin F → Fin S → Bool) (e e' : Fin G → Fin F → Fin S → ℝ)
    (h : Relation.ReflTransGen (EStep app) e e') (he : ∀ g f, EffectOn (app f) (e g f)) :
    ∀ g f, EffectOn (app f) (e' g f) := by
  induction h with
  | refl => exact he
  | tail _ hs ih =>
    rename_i e0 e1 _
    cases hs with
    | rejected => exact ih
    | alter prec g f i j t hij hi hj ht _ =>
      intro g' f'
      obtain ⟨hsame, -, -⟩ := C25_two_states_change prec e0 g f i j hij t ht
      by_cases hgf : g' = g ∧ f' = f
      · obtain ⟨rfl, rfl⟩ := hgf
        have h0 : (alterEffect prec e0 g' f' i j t).new g' f' = (alterPair prec (e0 g' f') i j t).new := by
          simp [alterEffect]
        refine ⟨?_, ?_, ?_⟩
        · rw [h0]; exact alterPair_nonneg _ (ih g' f').1 i j ht.1
        · intro s hs
          rw [hsame g' f' s (Or.inr (Or.inr ⟨?_, ?_⟩))]
          · exact (ih g' f').2.1 s hs
          · rintro rfl; rw [hi] at hs; cases hs
          · rintro rfl; rw [hj] at hs; cases hs
        · rw [h0, alterPair_sum _ _ hij ht.2]; exact (ih g' f').2.2
      · have : ∀ s, (alterEffect prec e0 g f i j t).new g' f' s = e0 g' f' s := fun s =>
          hsame g' f' s (by tauto)
        rw [funext this]
        exact ih g' f'
    | gibbs g draw hd =>
      intro g' f'
      by_cases hg : g' = g
      · subst hg
        simp only [writeEffect, Function.update_self]
        refine ⟨?_, ?_, ?_⟩
        · intro s
          dsimp only
          split
          · next h => exact (hd f').1 s (by simp [states, h])
          · exact (ih g' f').1 s
        · intro s hs; simp only [hs, Bool.false_eq_true, if_false]; exact (ih g' f').2.1 s hs
        · have : ∀ s, (if app f' s = true then draw f' s else e0 g' f' s) = if app f' s = true then draw f' s else 0 := by
            intro s
            split
            · rfl
            · next h => exact (ih g' f').2.1 s (by simpa using h)
          rw [Finset.sum_congr rfl fun s _ => this s, ← Finset.sum_filter]
          exact (hd f').2
      · simp only [writeEffect, Function.update_of_ne hg]; exact ih g' f'

/-- The hypotheses hold for a non-trivial effect: three states, two applicable. -/
example : let app : Fin 1 → Fin 3 → Bool := fun _ => ![true, false, true]
    let e : Fin 2 → Fin 1 → Fin 3 → ℝ := fun _ _ => ![1/4, 0, 3/4]
    (∀ g f, EffectOn (app f) (e g f)) ∧ EStep app e (alterEffect 20 e 1 0 0 2 ![1/2, 1/2]).new := by
  refine ⟨fun g f => ⟨?_, ?_, ?_⟩, .alter 20 1 0 0 2 _ (by decide) rfl rfl ⟨?_, ?_⟩ ?_⟩
  · intro s; fin_cases s <;> norm_num
  · intro s; fin_cases s <;> simp
  · simp [Fin.sum_univ_three]; norm_num
  · intro k; fin_cases k <;> norm_num
  · rw [Fin.sum_univ_two]; norm_num
  · change (1/4 : ℝ) + 3/4 ≠ 0; norm_num

/-! ### C51: Dirichlet steps are reversible -/

theorem continuous_beta_density (prec : ℝ) (hp : 0 ≤ prec) :
    ContinuousOn (fun p : ℝ × ℝ => dirichletPdf Finset.univ
      (fun k => 1 + prec * (![p.1, 1 - p.1] : Fin 2 → ℝ) k) ![p.2, 1 - p.2])
      (Set.Ioo (0:ℝ) 1 ×ˢ Set.Ioo (0:ℝ) 1) := by
  unfold dirichletPdf
  simp only [Fin.sum_univ_two, Fin.prod_univ_two, Matrix.cons_val_zero, Matrix.cons_val_one]
  have hG : ∀ g : ℝ × ℝ → ℝ, Continuous g → (∀ p ∈ Set.Ioo (0:ℝ) 1 ×ˢ Set.Ioo (0:ℝ) 1, 0 < g p) →
      ContinuousOn (fun p => Real.Gamma (g p)) (Set.Ioo (0:ℝ) 1 ×ˢ Set.Ioo (0:ℝ) 1) := by
    intro g hg hpos p hp'
    refine ContinuousAt.continuousWithinAt ?_
    refine ContinuousAt.comp (f := g) (g := Real.Gamma) ?_ hg.continuousAt
    refine (Real.differentiableAt_Gamma fun m => ?_).continuousAt
    have := hpos p hp'
    have hm : (0:ℝ) ≤ m := Nat.cast_nonneg m
    intro h; linarith
  have h1 : ∀ p ∈ Set.Ioo (0:ℝ) 1 ×ˢ Set.Ioo (0:ℝ) 1, 0 < 1 + prec * p.1 := by
    rintro ⟨a, b⟩ ⟨ha, -⟩
    have := mul_nonneg hp ha.1.le
    change 0 < 1 + prec * a; linarith
  have h2 : ∀ p ∈ Set.Ioo (0:ℝ) 1 ×ˢ Set.Ioo (0:ℝ) 1, 0 < 1 + prec * (1 - p.1) := by
    rintro ⟨a, b⟩ ⟨ha, -⟩
    have := mul_nonneg hp (sub_nonneg.mpr ha.2.le)
    change 0 < 1 + prec * (1 - a); linarith
  have h3 : ∀ p ∈ Set.Ioo (0:ℝ) 1 ×ˢ Set.Ioo (0:ℝ) 1, 0 < 1 + prec * p.1 + (1 + prec * (1 - p.1)) :=
    fun p hp' => add_pos (h1 p hp') (h2 p hp')
  refine ContinuousOn.mul (ContinuousOn.div (hG _ (by fun_prop) h3)
    (ContinuousOn.mul (hG _ (by fun_prop) h1) (hG _ (by fun_prop) h2)) ?_) (ContinuousOn.mul ?_ ?_)
  · intro p hp'
    exact (mul_pos (Real.Gamma_pos_of_pos (h1 p hp')) (Real.Gamma_pos_of_pos (h2 p hp'))).ne'
  · refine ContinuousOn.rpow (by fun_prop) (by fun_prop) ?_
    rintro ⟨a, b⟩ ⟨-, hb⟩; exact Or.inl hb.1.ne'
  · refine ContinuousOn.rpow (by fun_prop) (by fun_prop) ?_
    rintro ⟨a, b⟩ ⟨-, hb⟩
    exact Or.inl (sub_pos.mpr hb.2).ne'

/-- Generic Metropolis-Hastings step with strictly positive densities. -/
theorem stationary_mh (pi : ℝ → ℝ) (q : ℝ → ℝ → ℝ) (acc : ℝ → ℝ → ℝ) (hpim : Measurable pi)
    (hqm : AEMeasurable (fun p : ℝ × ℝ => q p.1 p.2)
      ((volume.restrict (Set.Ioo (0 : ℝ) 1)).prod (volume.restrict (Set.Ioo 0 1))))
    (hqm1 : ∀ a ∈ Set.Ioo (0 : ℝ) 1, AEMeasurable (fun b => q a b) (volume.restrict (Set.Ioo 0 1)))
    (hqm2 : ∀ a ∈ Set.Ioo (0 : ℝ) 1, AEMeasurable (fun b => q b a) (volume.restrict (Set.Ioo 0 1)))
    (hpi : ∀ a ∈ Set.Ioo (0 : ℝ) 1, 0 < pi a)
    (hq : ∀ a ∈ Set.Ioo (0 : ℝ) 1, ∀ b ∈ Set.Ioo (0 : ℝ) 1, 0 < q a b)
    (hone : ∀ a ∈ Set.Ioo (0 : ℝ) 1, ∫⁻ b in Set.Ioo 0 1, ENNReal.ofReal (q a b) = 1)
    (hacc : ∀ a ∈ Set.Ioo (0 : ℝ) 1, ∀ b ∈ Set.Ioo (0 : ℝ) 1,
      acc a b = min 1 (pi b / pi a * (q b a / q a b))) : Stationary pi q acc := by
  have hI : MeasurableSet (Set.Ioo (0:ℝ) 1) := measurableSet_Ioo
  set μ := (volume : Measure ℝ).restrict (Set.Ioo 0 1) with hμ
  have hprod : μ.prod μ = ((volume : Measure ℝ).prod volume).restrict (Set.Ioo 0 1 ×ˢ Set.Ioo 0 1) :=
    Measure.prod_restrict _ _
  have hacc' : ∀ a ∈ Set.Ioo (0 : ℝ) 1, ∀ b ∈ Set.Ioo (0 : ℝ) 1, 0 ≤ acc a b ∧ acc a b ≤ 1 := by
    intro a ha b hb
    rw [hacc a ha b hb]
    refine ⟨le_min zero_le_one ?_, min_le_left _ _⟩
    have := hpi a ha; have := hpi b hb; have := hq a ha b hb; have := hq b hb a ha
    positivity
  refine stationary_of_reversible pi q acc hpim.aemeasurable ?_ ?_ (fun a ha b hb => (hq a ha b hb).le)
    hacc' (fun a ha => (hpi a ha).le) hone ?_
  · refine AEMeasurable.congr (f := fun p : ℝ × ℝ => q p.1 p.2 *
        min 1 (pi p.2 / pi p.1 * (q p.2 p.1 / q p.1 p.2))) ?_ ?_
    · refine AEMeasurable.mul hqm (AEMeasurable.min aemeasurable_const (AEMeasurable.mul ?_ (AEMeasurable.div ?_ hqm)))
      · exact ((hpim.comp measurable_snd).div (hpim.comp measurable_fst)).aemeasurable
      · exact hqm.prod_swap
    · rw [hprod]
      refine (ae_restrict_iff' (hI.prod hI)).mpr (Filter.Eventually.of_forall ?_)
      rintro ⟨a, b⟩ ⟨ha, hb⟩
      simp only [hacc a ha b hb]
  · intro a ha
    refine AEMeasurable.congr (f := fun b : ℝ => q a b * min 1 (pi b / pi a * (q b a / q a b))) ?_ ?_
    · refine AEMeasurable.mul (hqm1 a ha) (AEMeasurable.min aemeasurable_const (AEMeasurable.mul ?_ (AEMeasurable.div ?_ (hqm1 a ha))))
      · exact (hpim.div measurable_const).aemeasurable
      · exact hqm2 a ha
    · refine (ae_restrict_iff' hI).mpr (Filter.Eventually.of_forall ?_)
      intro b hb
      simp only [hacc a ha b hb]
  · intro a ha b hb
    rw [hacc a ha b hb, hacc b hb a ha]
    have pa := hpi a ha; have pb := hpi b hb; have qab := hq a ha b hb; have qba := hq b hb a ha
    rw [← mul_assoc, ← mul_assoc, mul_min_of_nonneg _ _ (mul_pos pa qab).le,
      mul_min_of_nonneg _ _ (mul_pos pb qba).le, min_comm]
    congr 1
    · field_simp
    · field_simp

theorem pair_density_facts (prec : ℝ) (hp : 0 ≤ prec) :
    let q := fun a b : ℝ => dirichletPdf Finset.univ (fun k => 1 + prec * (![a, 1 - a] : Fin 2 → ℝ) k) ![b, 1 - b]
    (∀ a ∈ Set.Ioo (0 : ℝ) 1, ∀ b ∈ Set.Ioo (0 : ℝ) 1, 0 < q a b) ∧
    (∀ a ∈ Set.Ioo (0 : ℝ) 1, ∫⁻ b in Set.Ioo 0 1, ENNReal.ofReal (q a b) = 1) := by
  intro q
  have pos : ∀ a ∈ Set.Ioo (0 : ℝ) 1, 0 < 1 + prec * a ∧ 0 < 1 + prec * (1 - a) := by
    intro a ha
    have h1 := mul_nonneg hp ha.1.le
    have h2 := mul_nonneg hp (sub_nonneg.mpr ha.2.le)
    constructor <;> linarith
  refine ⟨fun a ha b hb => ?_, fun a ha => ?_⟩
  · simp only [q]
    rw [dirichlet_two hb]
    exact ProbabilityTheory.betaPDFReal_pos hb.1 hb.2 (pos a ha).1 (pos a ha).2
  · rw [← betaPDFReal_lintegral (pos a ha).1 (pos a ha).2]
    refine setLIntegral_congr_fun measurableSet_Ioo fun b hb => ?_
    simp only [q]
    rw [dirichlet_two hb]
    rfl

theorem stationary_pair (prec : ℝ) (hp : 0 ≤ prec) (v : Fin C → ℝ) (i j : Fin C) (hij : i ≠ j)
    (hm : 0 < v i + v j) (post : (Fin C → ℝ) → ℝ)
    (hpost : ∀ a ∈ Set.Ioo (0 : ℝ) 1, 0 < post (along v i j a))
    (hmeas : Measurable fun a => post (along v i j a)) :
    Stationary (fun a => post (along v i j a))
      (fun a b => dirichletPdf Finset.univ (fun k => 1 + prec * (![a, 1 - a] : Fin 2 → ℝ) k) ![b, 1 - b])
      (fun a b =>
        let r := alterPair prec (along v i j a) i j ![b, 1 - b]
        acceptProb (post (along v i j a)) (post r.new) r.q r.qBack) := by
  obtain ⟨hq, hone⟩ := pair_density_facts prec hp
  have hcont := continuous_beta_density prec hp
  have hI : MeasurableSet (Set.Ioo (0:ℝ) 1) := measurableSet_Ioo
  refine stationary_mh _ _ _ hmeas ?_ ?_ ?_ hpost hq hone ?_
  · rw [Measure.prod_restrict]
    exact hcont.aemeasurable (hI.prod hI)
  · intro a ha
    have : ContinuousOn (fun b : ℝ => dirichletPdf Finset.univ
        (fun k => 1 + prec * (![a, 1 - a] : Fin 2 → ℝ) k) ![b, 1 - b]) (Set.Ioo 0 1) :=
      hcont.comp (f := fun b : ℝ => ((a, b) : ℝ × ℝ)) (by fun_prop) (fun b hb => ⟨ha, hb⟩)
    exact this.aemeasurable hI
  · intro a ha
    have : ContinuousOn (fun b : ℝ => dirichletPdf Finset.univ
        (fun k => 1 + prec * (![b, 1 - b] : Fin 2 → ℝ) k) ![a, 1 - a]) (Set.Ioo 0 1) :=
      hcont.comp (f := fun b : ℝ => ((b, a) : ℝ × ℝ)) (by fun_prop) (fun b hb => ⟨hb, ha⟩)
    exact this.aemeasurable hI
  · intro a ha b hb
    obtain ⟨h1, h2, h3⟩ := alterPair_q (prec := prec) hij hm a b
    simp only
    rw [h1, h2, h3]
    unfold acceptProb
    rw [if_neg (hq b hb a ha).ne', if_neg (hq a ha b hb).ne']

/-- **C51.** `AlterWeights` redistributing the mass of components `i` and `j` of feature `f`, followed by
the acceptance step of the chain, leaves the posterior along these weights invariant; the density it
draws from is the one it reports. `a` is the current, `b` the drawn share of component `i`. -/
theorem C51_alter_weights_stationary (w : Fin F → Fin C → ℝ) (f : Fin F) (i j : Fin C) (hij : i ≠ j)
    (hm : 0 < w f i + w f j) (post : (Fin F → Fin C → ℝ) → ℝ)
    (hpost : ∀ a ∈ Set.Ioo (0 : ℝ) 1, 0 < post (Function.update w f (along (w f) i j a)))
    (hmeas : Measurable fun a => post (Function.update w f (along (w f) i j a))) :
    let cur := fun a => Function.update w f (along (w f) i j a)
    let r := fun a b => alterWeights (cur a) f i j ![b, 1 - b]
    (∀ a b, (r a b).new = cur b) ∧
    (∀ a b, (r a b).q = dirichletPdf Finset.univ (fun k => 1 + 30 * (![a, 1 - a] : Fin 2 → ℝ) k) ![b, 1 - b]) ∧
    Stationary (fun a => post (cur a))
      (fun a b => dirichletPdf Finset.univ (fun k => 1 + 30 * (![a, 1 - a] : Fin 2 → ℝ) k) ![b, 1 - b])
      (fun a b => acceptProb (post (cur a)) (post (r a b).new) (r a b).q (r a b).qBack) := by
  intro cur r
  have hr : ∀ a b, (r a b).new = Function.update w f (alterPair 30 (along (w f) i j a) i j ![b, 1 - b]).new ∧
      (r a b).q = (alterPair 30 (along (w f) i j a) i j ![b, 1 - b]).q ∧
      (r a b).qBack = (alterPair 30 (along (w f) i j a) i j ![b, 1 - b]).qBack := by
    intro a b
    simp only [r, alterWeights, cur, Function.update_self, Function.update_idem, and_self]
  refine ⟨fun a b => ?_, fun a b => ?_, ?_⟩
  · rw [(hr a b).1, (alterPair_q hij hm a b).2.2]
  · rw [(hr a b).2.1, (alterPair_q hij hm a b).1]
  · have := stationary_pair 30 (by norm_num) (w f) i j hij hm (fun row => post (Function.update w f row)) hpost hmeas
    convert this using 4 with a b
    · rw [(hr a b).1]
    · rw [(hr a b).2.1]
    · rw [(hr a b).2.2]

/-- **C51.** The same for `AlterClusterEffect` (`prec = 20`) and `AlterConfoundingEffects` (`prec = 10`). -/
theorem C51_alter_effect_stationary (prec : ℝ) (hp : 0 ≤ prec) (e : Fin G → Fin F → Fin S → ℝ) (g : Fin G)
    (f : Fin F) (i j : Fin S) (hij : i ≠ j)
    (hm : 0 < e g f i + e g f j) (post : (Fin G → Fin F → Fin S → ℝ) → ℝ)
    (hpost : ∀ a ∈ Set.Ioo (0 : ℝ) 1, 0 < post (Function.update e g (Function.update (e g) f (along (e g f) i j a))))
    (hmeas : Measurable fun a => post (Function.update e g (Function.update (e g) f (along (e g f) i j a)))) :
    let cur := fun a => Function.update e g (Function.update (e g) f (along (e g f) i j a))
    let r := fun a b => alterEffect prec (cur a) g f i j ![b, 1 - b]
    (∀ a b, (r a b).new = cur b) ∧
    (∀ a b, (r a b).q = dirichletPdf Finset.univ (fun k => 1 + prec * (![a, 1 - a] : Fin 2 → ℝ) k) ![b, 1 - b]) ∧
    Stationary (fun a => post (cur a))
      (fun a b => dirichletPdf Finset.univ (fun k => 1 + prec * (![a, 1 - a] : Fin 2 → ℝ) k) ![b, 1 - b])
      (fun a b => acceptProb (post (cur a)) (post (r a b).new) (r a b).q (r a b).qBack) := by
  intro cur r
  have hr : ∀ a b, (r a b).new = Function.update e g (Function.update (e g) f
        (alterPair prec (along (e g f) i j a) i j ![b, 1 - b]).new) ∧
      (r a b).q = (alterPair prec (along (e g f) i j a) i j ![b, 1 - b]).q ∧
      (r a b).qBack = (alterPair prec (along (e g f) i j a) i j ![b, 1 - b]).qBack := by
    intro a b
    simp only [r, alterEffect, cur, Function.update_self, Function.update_idem, and_self]
  refine ⟨fun a b => ?_, fun a b => ?_, ?_⟩
  · rw [(hr a b).1, (alterPair_q hij hm a b).2.2]
  · rw [(hr a b).2.1, (alterPair_q hij hm a b).1]
  · have := stationary_pair prec hp (e g f) i j hij hm
      (fun row => post (Function.update e g (Function.update (e g) f row))) hpost hmeas
    convert this using 4 with a b
    · rw [(hr a b).1]
    · rw [(hr a b).2.1]
    · rw [(hr a b).2.2]

/-- The hypotheses of C51 are met by a non-constant posterior. -/
example : let w : Fin 1 → Fin 3 → ℝ := fun _ => ![1/2, 1/4, 1/4]
    let post : (Fin 1 → Fin 3 → ℝ) → ℝ := fun w => w 0 0 + 1
    0 < w 0 0 + w 0 1 ∧ (∀ a ∈ Set.Ioo (0 : ℝ) 1, 0 < post (Function.update w 0 (along (w 0) 0 1 a))) ∧
      Measurable fun a => post (Function.update w 0 (along (w 0) 0 1 a)) := by
  intro w post
  refine ⟨by norm_num [w], fun a ha => ?_, ?_⟩
  · simp only [post, Function.update_self]
    have := along_pos (v := w 0) (fun k => by fin_cases k <;> norm_num [w]) 0 1 ha 0
    linarith
  · simp only [post, Function.update_self]
    exact (measurable_along _ _ _ _).add measurable_const

/-! ### C52: Gibbs sampling of weights -/

theorem sourcePrior_eq (src : Fin N → Fin F → Fin C → Bool) (h1 : ∀ n f, ∃! c, src n f c = true)
    (wn : Fin N → Fin F → Fin C → ℝ) :
    likelihood (sourceWeights wn src) = ∏ f, sourceLh src wn f := by
  unfold likelihood sourceWeights sourceLh
  rw [prod_filter_ravel, Finset.prod_comm]
  refine Finset.prod_congr rfl fun f _ => Finset.prod_congr rfl fun n _ => ?_
  obtain ⟨c, hc, hu⟩ := h1 n f
  have hne : ∀ c', c' ≠ c → src n f c' = false := fun c' hc' => by
    rw [Bool.eq_false_iff]; intro h; exact hc' (hu c' h)
  rw [Finset.prod_eq_single c (fun c' _ hc' => by simp [hne c' hc']) (by simp),
    Finset.sum_eq_single c (fun c' _ hc' => by simp [hne c' hc']) (by simp)]
  simp [show src n f c = true from hc]

theorem sourceLh_pos (src : Fin N → Fin F → Fin C → Bool) (h1 : ∀ n f, ∃! c, src n f c = true)
    (has : Fin N → Fin C → Bool) (hhas : ∀ n f c, src n f c = true → has n c = true)
    (w : Fin F → Fin C → ℝ) (f : Fin F) (hw : ∀ c, 0 < w f c) :
    0 < sourceLh src (normalizeWeights w has) f := by
  unfold sourceLh
  refine Finset.prod_pos fun n _ => ?_
  obtain ⟨c, hc, -⟩ := h1 n f
  have hnn : ∀ c', 0 ≤ w f c' * b2n ℝ (has n c') := fun c' => by
    unfold b2n; split
    · rw [mul_one]; exact (hw c').le
    · rw [mul_zero]
  have hden : 0 < ∑ c', w f c' * b2n ℝ (has n c') :=
    Finset.sum_pos' (fun c' _ => hnn c') ⟨c, Finset.mem_univ c, by simp [b2n, hhas n f c hc, hw c]⟩
  refine Finset.sum_pos' (fun c' _ => ?_) ⟨c, Finset.mem_univ c, ?_⟩
  · exact mul_nonneg (by split <;> norm_num) (div_nonneg (hnn c') hden.le)
  · unfold normalizeWeights
    have : 0 < w f c * b2n ℝ (has n c) := by simp [b2n, hhas n f c hc, hw c]
    rw [show src n f c = true from hc]
    simp only [if_true, one_mul]
    exact div_pos this hden

theorem sourceLh_congr (src : Fin N → Fin F → Fin C → Bool) (has : Fin N → Fin C → Bool)
    (w w' : Fin F → Fin C → ℝ) (f : Fin F) (h : w f = w' f) :
    sourceLh src (normalizeWeights w has) f = sourceLh src (normalizeWeights w' has) f := by
  unfold sourceLh normalizeWeights; rw [h]

/-- **C52.** In `GibbsSampleWeights`, with `i1`, `i2` and everything except the shares of `i1` and `i2` in
feature `f` fixed: the share of `i2` is drawn from the density that is reported, the proposal and its
acceptance with the probability computed for feature `f` leave the prior probability of the sources
(the only part of the posterior that depends on the weights) invariant.  `a` is the current, `b` the
drawn share of component `i2`; `a2` the draws for the other features. -/
theorem C52_gibbs_weights_stationary (src : Fin N → Fin F → Fin C → Bool)
    (h1 : ∀ n f, ∃! c, src n f c = true) (has : Fin N → Fin C → Bool)
    (hhas : ∀ n f c, src n f c = true → has n c = true)
    (w : Fin F → Fin C → ℝ) (hw : ∀ f, OpenSimplex (w f)) (i1 i2 : Fin C) (hij : i1 ≠ i2) (f : Fin F)
    (a2 : Fin F → ℝ) :
    let cur := fun a => Function.update w f (along (w f) i2 i1 a)
    let c := pairCounts src has i1 i2 f
    (∀ a b, (resamplePair src has (cur a) i1 i2 f b).new = along (w f) i2 i1 b) ∧
    (∀ a b, (resamplePair src has (cur a) i1 i2 f b).q = ProbabilityTheory.betaPDFReal (1 + c i2) (1 + c i1) b) ∧
    Stationary (fun a => likelihood (sourceWeights (normalizeWeights (cur a) has) src))
      (fun _ b => ProbabilityTheory.betaPDFReal (1 + c i2) (1 + c i1) b)
      (fun a b => min 1 (pAccept src has (cur a) i1 i2 (Function.update a2 f b) f)) := by
  intro cur c
  have hc : ∀ k, 0 < 1 + c k := by
    intro k
    have : 0 ≤ c k := Finset.sum_nonneg fun n _ => by split <;> [split <;> norm_num; norm_num]
    linarith
  have hm : 0 < w f i2 + w f i1 := add_pos ((hw f).1 i2) ((hw f).1 i1)
  have hcur : ∀ a, cur a f = along (w f) i2 i1 a := fun a => by simp [cur]
  have hnew : ∀ a b, (resamplePair src has (cur a) i1 i2 f b).new = along (w f) i2 i1 b := by
    intro a b
    simp only [resamplePair]
    rw [hcur, mixPair_eq_along hij (by rw [sum_along _ hij.symm]; exact (hw f).2), along_along _ hij.symm]
  have hold : ∀ a, cur a f i2 / (cur a f i1 + cur a f i2) = a := by
    intro a
    rw [hcur, along_left _ hij.symm, along_right, ← add_mul, sub_add_cancel, one_mul]
    field_simp
  refine ⟨hnew, fun a b => rfl, ?_⟩
  have hq : ∀ b ∈ Set.Ioo (0:ℝ) 1, 0 < ProbabilityTheory.betaPDFReal (1 + c i2) (1 + c i1) b := fun b hb =>
    ProbabilityTheory.betaPDFReal_pos hb.1 hb.2 (hc i2) (hc i1)
  have hbm := ProbabilityTheory.measurable_betaPDFReal (1 + c i2) (1 + c i1)
  have hposf : ∀ a ∈ Set.Ioo (0:ℝ) 1, ∀ f', 0 < sourceLh src (normalizeWeights (cur a) has) f' := by
    intro a ha f'
    refine sourceLh_pos src h1 has hhas _ f' fun k => ?_
    by_cases hf : f' = f
    · subst hf; rw [hcur]; exact along_pos (hw f').1 i2 i1 ha k
    · simp only [cur, Function.update_of_ne hf]; exact (hw f').1 k
  have hmeas : Measurable fun a => likelihood (sourceWeights (normalizeWeights (cur a) has) src) := by
    simp only [sourcePrior_eq src h1, sourceLh, normalizeWeights]
    have hcm : ∀ f' k, Measurable fun a => cur a f' k := by
      intro f' k
      by_cases hf : f' = f
      · subst hf; simp only [hcur]; exact measurable_along _ _ _ _
      · simp only [cur, Function.update_of_ne hf]; exact measurable_const
    refine Finset.measurable_prod _ fun f' _ => Finset.measurable_prod _ fun n _ =>
      Finset.measurable_sum _ fun k _ => Measurable.const_mul ?_ _
    exact ((hcm f' k).mul_const _).div (Finset.measurable_sum _ fun k' _ => (hcm f' k').mul_const _)
  refine stationary_mh _ _ _ hmeas ?_ (fun a _ => hbm.aemeasurable) (fun a _ => aemeasurable_const) ?_
    (fun a _ b hb => hq b hb) (fun a _ => betaPDFReal_lintegral (hc i2) (hc i1)) ?_
  · exact (hbm.comp measurable_snd).aemeasurable
  · intro a ha
    rw [sourcePrior_eq src h1]
    exact Finset.prod_pos fun f' _ => hposf a ha f'
  · intro a ha b hb
    have hlh : sourceLh src (normalizeWeights (fun f' => (resamplePair src has (cur a) i1 i2 f'
        (Function.update a2 f b f')).new) has) f = sourceLh src (normalizeWeights (cur b) has) f := by
      refine sourceLh_congr src has _ _ f ?_
      simp only [Function.update_self]
      rw [hnew, hcur]
    have hp : pAccept src has (cur a) i1 i2 (Function.update a2 f b) f =
        sourceLh src (normalizeWeights (cur b) has) f / sourceLh src (normalizeWeights (cur a) has) f *
        (ProbabilityTheory.betaPDFReal (1 + c i2) (1 + c i1) a / ProbabilityTheory.betaPDFReal (1 + c i2) (1 + c i1) b) := by
      have e1 : (resamplePair src has (cur a) i1 i2 f b).qBack =
          ProbabilityTheory.betaPDFReal (1 + c i2) (1 + c i1) a := by
        simp only [resamplePair]; rw [hold]
      have e2 : (resamplePair src has (cur a) i1 i2 f b).q =
          ProbabilityTheory.betaPDFReal (1 + c i2) (1 + c i1) b := rfl
      simp only [pAccept]
      rw [hlh, Function.update_self, e1, e2]
    rw [hp]
    congr 2
    rw [sourcePrior_eq src h1, sourcePrior_eq src h1, ← Finset.mul_prod_erase _ _ (Finset.mem_univ f),
      ← Finset.mul_prod_erase _ (fun f' => sourceLh src (normalizeWeights (cur a) has) f') (Finset.mem_univ f)]
    have : ∏ f' ∈ Finset.univ.erase f, sourceLh src (normalizeWeights (cur b) has) f' =
        ∏ f' ∈ Finset.univ.erase f, sourceLh src (normalizeWeights (cur a) has) f' := by
      refine Finset.prod_congr rfl fun f' hf' => sourceLh_congr src has _ _ f' ?_
      have hne := Finset.ne_of_mem_erase hf'
      simp only [cur, Function.update_of_ne hne]
    rw [this, mul_div_mul_right]
    exact (Finset.prod_pos fun f' _ => hposf a ha f').ne'

/-- The comparison `np.random.random() < p_accept` of feature `f` has probability `min(1, p_accept)`. -/
theorem C52_accept_event (p : ℝ) :
    volume {u : ℝ | 0 ≤ u ∧ u < 1 ∧ u < p} = ENNReal.ofReal (min 1 p) := by
  have : {u : ℝ | 0 ≤ u ∧ u < 1 ∧ u < p} = Set.Ico 0 (min 1 p) := by
    ext u; simp only [Set.mem_ofPred_eq, Set.mem_Ico, lt_min_iff]
  rw [this, Real.volume_Ico, sub_zero]

example : ∃ (src : Fin 2 → Fin 1 → Fin 2 → Bool) (has : Fin 2 → Fin 2 → Bool) (w : Fin 1 → Fin 2 → ℝ),
    (∀ n f, ∃! c, src n f c = true) ∧ (∀ n f c, src n f c = true → has n c = true) ∧
    (∀ f, OpenSimplex (w f)) ∧ 0 < pairCounts src has 0 1 0 1 := by
  refine ⟨fun n _ c => n == c, fun n c => n == 1 || c == 0, fun _ _ => 1/2, ?_, ?_, ?_, ?_⟩
  · intro n f; exact ⟨n, beq_self_eq_true n, fun c hc => (beq_iff_eq.mp hc).symm⟩
  · decide
  · intro f; exact ⟨fun i => by norm_num, by simp⟩
  · simp [pairCounts]

/-! ### C26: conjugate resampling of effects -/

theorem dirichlet_conjugate (A : Finset (Fin S)) (conc c : Fin S → ℝ) (x y : Fin S → ℝ)
    (hx : ∀ s ∈ A, 0 < x s) (hy : ∀ s ∈ A, 0 < y s) :
    dirichletPdf A conc x * (∏ s ∈ A, x s ^ c s) * dirichletPdf A (fun s => conc s + c s) y =
      dirichletPdf A conc y * (∏ s ∈ A, y s ^ c s) * dirichletPdf A (fun s => conc s + c s) x := by
  unfold dirichletPdf
  have key : ∀ z : Fin S → ℝ, (∀ s ∈ A, 0 < z s) →
      ∏ s ∈ A, z s ^ (conc s + c s - 1) = (∏ s ∈ A, z s ^ (conc s - 1)) * ∏ s ∈ A, z s ^ c s := by
    intro z hz
    rw [← Finset.prod_mul_distrib]
    refine Finset.prod_congr rfl fun s hs => ?_
    rw [← Real.rpow_add (hz s hs)]; congr 1; ring
  rw [key x hx, key y hy]; ring

/-- Product of the values of one component over the observations attributed to it. -/
theorem component_product (app : Fin F → Fin S → Bool) (x : Features N F S)
    (hx : ∀ n f, Missing x n f ∨ ∃ s, Observed x n f s ∧ app f s = true)
    (src : Fin N → Fin F → Bool) (groups : Fin G → Fin N → Bool)
    (e : Fin G → Fin F → Fin S → ℝ) (g : Fin G) (v : Fin N → Fin F → ℝ)
    (hv : IsComponentLh x e groups v) :
    (∏ n, ∏ f, if src n f = true then v n f else 1) =
      (∏ n, ∏ f, if src n f = true ∧ groups g n = false then v n f else 1) *
      ∏ f, ∏ s ∈ states app f, e g f s ^ (∑ n, if src n f && groups g n then (if x n f s then (1:ℝ) else 0) else 0) := by
  have hcast : ∀ f s, (∑ n, if src n f && groups g n then (if x n f s then (1:ℝ) else 0) else 0) =
      ((∑ n, if src n f && groups g n then (if x n f s then 1 else 0) else 0 : ℕ) : ℝ) := by
    intro f s; push_cast
    refine Finset.sum_congr rfl fun n _ => ?_
    split <;> [split <;> simp; simp]
  simp only [hcast, Real.rpow_natCast]
  have hpow : (∏ f, ∏ s ∈ states app f, e g f s ^ (∑ n, if src n f && groups g n then (if x n f s then 1 else 0) else 0)) =
      ∏ n, ∏ f, ∏ s ∈ states app f, e g f s ^ (if src n f && groups g n then (if x n f s then 1 else 0) else 0) := by
    rw [Finset.prod_comm]
    refine Finset.prod_congr rfl fun f _ => ?_
    rw [Finset.prod_comm]
    refine Finset.prod_congr rfl fun s _ => ?_
    rw [Finset.prod_pow_eq_pow_sum]
  rw [hpow, ← Finset.prod_mul_distrib]
  refine Finset.prod_congr rfl fun n _ => ?_
  rw [← Finset.prod_mul_distrib]
  refine Finset.prod_congr rfl fun f _ => ?_
  by_cases hs : src n f = true
  · by_cases hg : groups g n = true
    · simp only [hs, hg, Bool.and_self, if_true, true_and, Bool.true_eq_false, if_false, one_mul]
      rcases hx n f with hna | ⟨s, ho, happ⟩
      · rw [hv.missing n f hna]
        symm
        refine Finset.prod_eq_one fun s _ => ?_
        simp [hna s]
      · rw [hv.member n f s g ho hg]
        rw [Finset.prod_eq_single s]
        · simp [(ho s).mpr rfl]
        · intro s' _ hne
          have : x n f s' = false := by
            rw [Bool.eq_false_iff]; intro h; exact hne ((ho s').mp h)
          simp [this]
        · intro h; exact absurd (by simp [states, happ]) h
    · simp [hs, hg]
  · simp [hs]

/-- Changing the effect of group `g` does not change the likelihood of observations outside of it. -/
theorem component_outside (x : Features N F S)
    (hx : ∀ n f, Missing x n f ∨ ∃ s, Observed x n f s)
    (src : Fin N → Fin F → Bool) (groups : Fin G → Fin N → Bool)
    (e e' : Fin G → Fin F → Fin S → ℝ) (g : Fin G) (hee : ∀ g', g' ≠ g → e g' = e' g')
    (v v' : Fin N → Fin F → ℝ) (hv : IsComponentLh x e groups v) (hv' : IsComponentLh x e' groups v') :
    (∏ n, ∏ f, if src n f = true ∧ groups g n = false then v n f else 1) =
      ∏ n, ∏ f, if src n f = true ∧ groups g n = false then v' n f else 1 := by
  refine Finset.prod_congr rfl fun n _ => Finset.prod_congr rfl fun f _ => ?_
  split
  · next h =>
    rcases hx n f with hna | ⟨s, ho⟩
    · rw [hv.missing n f hna, hv'.missing n f hna]
    · by_cases hg : ∃ i, groups i n = true
      · obtain ⟨i, hi⟩ := hg
        have hig : i ≠ g := by rintro rfl; rw [hi] at h; cases h.2
        rw [hv.member n f s i ho hi, hv'.member n f s i ho hi, hee i hig]
      · have hg' : ∀ i, groups i n = false := by simpa using hg
        rw [hv.outside n f s ho hg', hv'.outside n f s ho hg']
  · rfl

theorem source_likelihood_split (d : ModelData N F S M nG) (p : Params ℝ K N F S M nG)
    (clO : List (Fin K)) (cfO : (c : Fin M) → List (Fin (nG c))) (buf : Fin N → Fin F → Fin (M + 1) → ℝ)
    (src : Fin N → Fin F → Fin (M + 1) → Bool) (hsrc : p.source = some src) :
    likelihood (freshObservationLhs d p clO cfO buf) =
      (∏ n, ∏ f, if src n f 0 = true then overwriteNA d.features (computeComponentLikelihood d.features
        p.clusterEffect p.clusters clO (fun n f => buf n f 0)) n f else 1) *
      ∏ c : Fin M, ∏ n, ∏ f, if src n f c.succ = true then overwriteNA d.features (computeComponentLikelihood
        d.features (p.confEffect c) (d.confGroups c) (cfO c) (fun n f => buf n f c.succ)) n f else 1 := by
  unfold freshObservationLhs
  rw [hsrc]
  unfold likelihood observationLhs
  rw [prod_filter_ravel, Finset.prod_comm (s := (Finset.univ : Finset (Fin M))), ← Finset.prod_mul_distrib]
  refine Finset.prod_congr rfl fun n _ => ?_
  rw [Finset.prod_comm (s := (Finset.univ : Finset (Fin M))), ← Finset.prod_mul_distrib]
  refine Finset.prod_congr rfl fun f _ => ?_
  rw [Fin.prod_univ_succ]
  rfl

theorem states_pos_power (app : Fin F → Fin S → Bool) (e : Fin G → Fin F → Fin S → ℝ) (g : Fin G)
    (th : Fin F → Fin S → ℝ) (c : Fin F → Fin S → ℝ) :
    (∏ f, ∏ s ∈ states app f, writeEffect app e g th g f s ^ c f s) = ∏ f, ∏ s ∈ states app f, th f s ^ c f s := by
  refine Finset.prod_congr rfl fun f _ => Finset.prod_congr rfl fun s hs => ?_
  have : app f s = true := by simpa [states] using hs
  simp [writeEffect, this]

/-- **C26.** `GibbsSampleClusterEffect` draws from the full conditional: for every two effects, the
likelihood of one times the density of drawing the other is symmetric, where the parameters of the
Dirichlet distribution are one plus the number of observations of the state attributed to the cluster
(the prior of the cluster effects is uniform).  `th`, `th'` are effects on the applicable states. -/
theorem C26_cluster_effect_full_conditional (d : ModelData N F S M nG) (p : Params ℝ K N F S M nG)
    (src : Fin N → Fin F → Fin (M + 1) → Bool) (hsrc : p.source = some src)
    (app : Fin F → Fin S → Bool)
    (hx : ∀ n f, Missing d.features n f ∨ ∃ s, Observed d.features n f s ∧ app f s = true)
    (hd : DisjointGroups p.clusters) (clO : List (Fin K)) (hclO : VisitsAll clO)
    (cfO : (c : Fin M) → List (Fin (nG c))) (buf : Fin N → Fin F → Fin (M + 1) → ℝ) (k : Fin K)
    (th th' : Fin F → Fin S → ℝ) (hth : ∀ f s, app f s = true → 0 < th f s)
    (hth' : ∀ f s, app f s = true → 0 < th' f s) :
    let lh := fun t => likelihood (freshObservationLhs d
      { p with clusterEffect := writeEffect app p.clusterEffect k t } clO cfO buf)
    let pdf := gibbsEffectPdf app (gibbsAlpha (fun _ _ => 1) (attributedCounts d.features src 0 (p.clusters k)))
    lh th * pdf th' = lh th' * pdf th := by
  intro lh pdf
  have key : ∀ t, ∃ v, lh t = (∏ n, ∏ f, if src n f 0 = true ∧ p.clusters k n = false then v n f else 1) *
      (∏ f, ∏ s ∈ states app f, t f s ^ attributedCounts d.features src 0 (p.clusters k) f s) *
      (∏ c : Fin M, ∏ n, ∏ f, if src n f c.succ = true then overwriteNA d.features (computeComponentLikelihood
        d.features (p.confEffect c) (d.confGroups c) (cfO c) (fun n f => buf n f c.succ)) n f else 1) ∧
      IsComponentLh d.features (writeEffect app p.clusterEffect k t) p.clusters v := by
    intro t
    have hv : IsComponentLh d.features (writeEffect app p.clusterEffect k t) p.clusters
      (overwriteNA d.features (computeComponentLikelihood d.features (writeEffect app p.clusterEffect k t)
        p.clusters clO (fun n f => buf n f 0))) := by
      refine ⟨?_, ?_, ?_⟩
      · intro n f h; simp [overwriteNA, isNA_iff.mpr h]
      · intro n f s i h hi
        simp only [overwriteNA, observed_not_na h]
        rw [compute_member hd _ hi (hclO i), stateProb_observed h]; rfl
      · intro n f s h hi
        simp only [overwriteNA, observed_not_na h]
        rw [compute_outside _ hi]; rfl
    refine ⟨_, ?_, hv⟩
    simp only [lh]
    rw [source_likelihood_split d { p with clusterEffect := writeEffect app p.clusterEffect k t } clO cfO buf src hsrc]
    rw [component_product app d.features hx (fun n f => src n f 0) p.clusters
      (writeEffect app p.clusterEffect k t) k _ hv]
    rw [states_pos_power]
    rfl
  obtain ⟨v, h1, hv⟩ := key th
  obtain ⟨v', h2, hv'⟩ := key th'
  rw [h1, h2, component_outside d.features (fun n f => (hx n f).imp id fun ⟨s, h, _⟩ => ⟨s, h⟩)
    (fun n f => src n f 0) p.clusters _ _ k (fun g' hg' => by simp [writeEffect, Function.update_of_ne hg']) v v' hv hv']
  have hc : (∏ f, ∏ s ∈ states app f, th f s ^ attributedCounts d.features src 0 (p.clusters k) f s) * pdf th' =
      (∏ f, ∏ s ∈ states app f, th' f s ^ attributedCounts d.features src 0 (p.clusters k) f s) * pdf th := by
    simp only [pdf, gibbsEffectPdf]
    rw [← Finset.prod_mul_distrib, ← Finset.prod_mul_distrib]
    refine Finset.prod_congr rfl fun f _ => ?_
    have := dirichlet_conjugate (states app f) (fun _ => 1) (attributedCounts d.features src 0 (p.clusters k) f)
      (th f) (th' f) (fun s hs => hth f s (by simpa [states] using hs)) (fun s hs => hth' f s (by simpa [states] using hs))
    have hone : ∀ z : Fin S → ℝ, dirichletPdf (states app f) (fun _ => 1) z = dirichletPdf (states app f) (fun _ => 1) (fun _ => 1) := by
      intro z; simp [dirichletPdf]
    rw [hone (th f), hone (th' f)] at this
    have hpos : 0 < dirichletPdf (states app f) (fun _ => 1) (fun _ => (1:ℝ)) ∨ states app f = ∅ := by
      rcases (states app f).eq_empty_or_nonempty with h | h
      · exact Or.inr h
      · left
        have : (0:ℝ) < (states app f).card := by exact_mod_cast h.card_pos
        simp [dirichletPdf, Real.Gamma_pos_of_pos this]
    rcases hpos with hpos | hempty
    · rw [mul_assoc, mul_assoc] at this
      exact mul_left_cancel₀ hpos.ne' this
    · rw [hempty]; simp [dirichletPdf]
  generalize (∏ n, ∏ f, if src n f 0 = true ∧ p.clusters k n = false then v' n f else 1) = A
  generalize (∏ c : Fin M, ∏ n, ∏ f, if src n f c.succ = true then overwriteNA d.features (computeComponentLikelihood
        d.features (p.confEffect c) (d.confGroups c) (cfO c) (fun n f => buf n f c.succ)) n f else 1) = B
  linear_combination A * B * hc

/-- **C26.** `GibbsSampleConfoundingEffects` draws from the full conditional: for every two effects of
group `g` of confounder `c`, prior times likelihood of one times the density of drawing the other is
symmetric, where the parameters of the Dirichlet distribution are the prior concentration plus the number
of observations of the state attributed to the group. -/
theorem C26_confounding_effect_full_conditional (d : ModelData N F S M nG) (p : Params ℝ K N F S M nG)
    (src : Fin N → Fin F → Fin (M + 1) → Bool) (hsrc : p.source = some src)
    (app : Fin F → Fin S → Bool)
    (hx : ∀ n f, Missing d.features n f ∨ ∃ s, Observed d.features n f s ∧ app f s = true)
    (c : Fin M) (hd : DisjointGroups (d.confGroups c)) (clO : List (Fin K))
    (cfO : (c : Fin M) → List (Fin (nG c))) (hcfO : VisitsAll (cfO c))
    (buf : Fin N → Fin F → Fin (M + 1) → ℝ) (g : Fin (nG c))
    (cfg : Option (Fin F → Fin S → ℝ))
    (th th' : Fin F → Fin S → ℝ) (hth : ∀ f s, app f s = true → 0 < th f s)
    (hth' : ∀ f s, app f s = true → 0 < th' f s) :
    let lh := fun t => likelihood (freshObservationLhs d
      { p with confEffect := Function.update p.confEffect c (writeEffect app (p.confEffect c) g t) } clO cfO buf)
    let pdf := gibbsEffectPdf app (gibbsAlpha (concentration cfg)
      (attributedCounts d.features src c.succ (d.confGroups c g)))
    confEffectPrior app cfg th * lh th * pdf th' = confEffectPrior app cfg th' * lh th' * pdf th := by
  intro lh pdf
  set cnt := attributedCounts d.features src c.succ (d.confGroups c g) with hcnt
  have key : ∀ t, ∃ v, ∃ rest : ℝ, lh t = (∏ n, ∏ f, if src n f c.succ = true ∧ d.confGroups c g n = false then v n f else 1) *
      (∏ f, ∏ s ∈ states app f, t f s ^ cnt f s) * rest ∧
      rest = (∏ n, ∏ f, if src n f 0 = true then overwriteNA d.features (computeComponentLikelihood d.features
        p.clusterEffect p.clusters clO (fun n f => buf n f 0)) n f else 1) *
       (∏ c' ∈ Finset.univ.erase c, ∏ n, ∏ f, if src n f c'.succ = true then overwriteNA d.features (computeComponentLikelihood
        d.features (p.confEffect c') (d.confGroups c') (cfO c') (fun n f => buf n f c'.succ)) n f else 1) ∧
      IsComponentLh d.features (writeEffect app (p.confEffect c) g t) (d.confGroups c) v := by
    intro t
    have hv : IsComponentLh d.features (writeEffect app (p.confEffect c) g t) (d.confGroups c)
      (overwriteNA d.features (computeComponentLikelihood d.features (writeEffect app (p.confEffect c) g t)
        (d.confGroups c) (cfO c) (fun n f => buf n f c.succ))) := by
      refine ⟨?_, ?_, ?_⟩
      · intro n f h; simp [overwriteNA, isNA_iff.mpr h]
      · intro n f s i h hi
        simp only [overwriteNA, observed_not_na h]
        rw [compute_member hd _ hi (hcfO i), stateProb_observed h]; rfl
      · intro n f s h hi
        simp only [overwriteNA, observed_not_na h]
        rw [compute_outside _ hi]; rfl
    refine ⟨_, _, ?_, rfl, hv⟩
    simp only [lh]
    rw [source_likelihood_split d { p with confEffect := Function.update p.confEffect c (writeEffect app (p.confEffect c) g t) }
      clO cfO buf src hsrc]
    rw [← Finset.mul_prod_erase Finset.univ _ (Finset.mem_univ c)]
    simp only [Function.update_self]
    rw [component_product app d.features hx (fun n f => src n f c.succ) (d.confGroups c)
      (writeEffect app (p.confEffect c) g t) g _ hv]
    rw [states_pos_power]
    have hrest : (∏ c' ∈ Finset.univ.erase c, ∏ n, ∏ f, if src n f c'.succ = true then overwriteNA d.features
        (computeComponentLikelihood d.features
          (Function.update p.confEffect c (writeEffect app (p.confEffect c) g t) c')
          (d.confGroups c') (cfO c') (fun n f => buf n f c'.succ)) n f else 1) =
        ∏ c' ∈ Finset.univ.erase c, ∏ n, ∏ f, if src n f c'.succ = true then overwriteNA d.features (computeComponentLikelihood
        d.features (p.confEffect c') (d.confGroups c') (cfO c') (fun n f => buf n f c'.succ)) n f else 1 := by
      refine Finset.prod_congr rfl fun c' hc' => ?_
      rw [Function.update_of_ne (Finset.ne_of_mem_erase hc')]
    rw [hrest, hcnt]
    unfold attributedCounts
    ring
  obtain ⟨v, r1, h1, hr1, hv⟩ := key th
  obtain ⟨v', r2, h2, hr2, hv'⟩ := key th'
  rw [h1, h2, component_outside d.features (fun n f => (hx n f).imp id fun ⟨s, h, _⟩ => ⟨s, h⟩)
    (fun n f => src n f c.succ) (d.confGroups c) _ _ g (fun g' hg' => by simp [writeEffect, Function.update_of_ne hg']) v v' hv hv',
    show r1 = r2 from hr1.trans hr2.symm]
  have hc : groupEffectPrior app (concentration cfg) th * (∏ f, ∏ s ∈ states app f, th f s ^ cnt f s) * pdf th' =
      groupEffectPrior app (concentration cfg) th' * (∏ f, ∏ s ∈ states app f, th' f s ^ cnt f s) * pdf th := by
    simp only [pdf, gibbsEffectPdf, groupEffectPrior]
    rw [← Finset.prod_mul_distrib, ← Finset.prod_mul_distrib, ← Finset.prod_mul_distrib, ← Finset.prod_mul_distrib]
    refine Finset.prod_congr rfl fun f _ => ?_
    exact dirichlet_conjugate (states app f) (concentration cfg f) (cnt f)
      (th f) (th' f) (fun s hs => hth f s (by simpa [states] using hs)) (fun s hs => hth' f s (by simpa [states] using hs))
  have hc' : confEffectPrior app cfg th * (∏ f, ∏ s ∈ states app f, th f s ^ cnt f s) * pdf th' =
      confEffectPrior app cfg th' * (∏ f, ∏ s ∈ states app f, th' f s ^ cnt f s) * pdf th := by
    cases cfg with
    | some conc => exact hc
    | none =>
      have hone : ∀ z, groupEffectPrior app (concentration none) z = ∏ f, dirichletPdf (states app f) (fun _ => 1) (fun _ => (1:ℝ)) := by
        intro z; simp [groupEffectPrior, concentration, dirichletPdf]
      rw [hone th, hone th'] at hc
      simp only [confEffectPrior, one_mul]
      by_cases hne : ∀ f, states app f ≠ ∅
      · have hpos : 0 < ∏ f, dirichletPdf (states app f) (fun _ => 1) (fun _ => (1:ℝ)) := by
          refine Finset.prod_pos fun f _ => ?_
          have : (0:ℝ) < (states app f).card := by
            exact_mod_cast (Finset.nonempty_iff_ne_empty.mpr (hne f)).card_pos
          simp [dirichletPdf, Real.Gamma_pos_of_pos this]
        rw [mul_assoc, mul_assoc] at hc
        exact mul_left_cancel₀ hpos.ne' hc
      · push Not at hne
        obtain ⟨f, hf⟩ := hne
        have : ∀ z, pdf z = 0 := fun z => by
          simp only [pdf, gibbsEffectPdf]
          exact Finset.prod_eq_zero (Finset.mem_univ f) (by rw [hf]; simp [dirichletPdf])
        rw [this, this, mul_zero, mul_zero]
  generalize (∏ n, ∏ f, if src n f c.succ = true ∧ d.confGroups c g n = false then v' n f else 1) = A
  linear_combination A * r2 * hc'

/-- **C26**, the counts: `attributedCounts` is the number of objects in the group whose observation of
feature `f` is `s` and is attributed to the component. -/
theorem C26_counts (x : Features N F S) (src : Fin N → Fin F → Fin C → Bool) (c : Fin C)
    (group : Fin N → Bool) (f : Fin F) (s : Fin S) :
    attributedCounts x src c group f s =
      (Finset.univ.filter fun n => src n f c = true ∧ group n = true ∧ x n f s = true).card := by
  unfold attributedCounts
  rw [Finset.card_filter]
  push_cast
  refine Finset.sum_congr rfl fun n _ => ?_
  by_cases h1 : src n f c = true <;> by_cases h2 : group n = true <;> by_cases h3 : x n f s = true <;> simp [h1, h2, h3]

/-- The hypotheses of C26 hold for four objects (one of them missing an observation), two clusters and a
universal confounder; the attributed counts are not zero. -/
example : let x : Features 4 1 2 := ![![![true, false]], ![![false, true]], ![![false, false]], ![![true, false]]]
    let cl : Fin 2 → Fin 4 → Bool := ![![true, true, false, false], ![false, false, true, false]]
    let src : Fin 4 → Fin 1 → Fin 2 → Bool := fun n _ c => (c == 0) == (n.val < 3)
    (∀ n f, Missing x n f ∨ ∃ s, Observed x n f s ∧ true = true) ∧ DisjointGroups cl ∧
      (Finset.univ.filter fun n => src n 0 0 = true ∧ cl 0 n = true ∧ x n 0 1 = true).card = 1 := by
  refine ⟨?_, ?_, by decide⟩
  · show ∀ n f, (∀ s, _ = false) ∨ ∃ s, (∀ s', _ = true ↔ s' = s) ∧ true = true
    decide
  · show ∀ i j n, _ = true → _ = true → i = j
    decide

end SBayes.Effects
