import Verif.Spec.Sampler
import Verif.Lemmas.SimplexPair
import Verif.Lemmas.Likelihood
/- Measurability of everything a step computes in the continuous parameters. -/
namespace SBayes.Meas
open SBayes.Lik SBayes.Clusters SBayes.MH SBayes.Source SBayes.Effects SBayes.Posterior SBayes.Draws SBayes.Kernel MeasureTheory
open scoped BigOperators ENNReal

variable {K N F S M C G : ℕ} {nG : Fin M → ℕ} {Θ : Type} [MeasurableSpace Θ]

theorem meas_stateProb (x : Features N F S) {p : Θ → Fin F → Fin S → ℝ} (hp : ∀ f s, Measurable fun θ => p θ f s)
    (n : Fin N) (f : Fin F) : Measurable fun θ => stateProb x (p θ) n f := by
  unfold stateProb
  exact Finset.measurable_fun_sum _ fun s _ => (hp f s).const_mul _

theorem meas_fold (x : Features N F S) {probs : Θ → Fin G → Fin F → Fin S → ℝ}
    (hp : ∀ g f s, Measurable fun θ => probs θ g f s) (groups : Fin G → Fin N → Bool) (order : List (Fin G))
    {out : Θ → Fin N → Fin F → ℝ} (ho : ∀ n f, Measurable fun θ => out θ n f) (n : Fin N) (f : Fin F) :
    Measurable fun θ => order.foldl (writeGroup x (probs θ) groups) (out θ) n f := by
  induction order generalizing out with
  | nil => exact ho n f
  | cons i l ih =>
    simp only [List.foldl_cons]
    refine ih fun n f => ?_
    unfold writeGroup
    split
    · exact meas_stateProb x (hp i) n f
    · exact ho n f

theorem meas_compute (x : Features N F S) {probs : Θ → Fin G → Fin F → Fin S → ℝ}
    (hp : ∀ g f s, Measurable fun θ => probs θ g f s) (groups : Fin G → Fin N → Bool) (order : List (Fin G))
    (out : Fin N → Fin F → ℝ) (n : Fin N) (f : Fin F) :
    Measurable fun θ => overwriteNA x (computeComponentLikelihood x (probs θ) groups order out) n f := by
  unfold overwriteNA
  split
  · exact measurable_const
  · unfold computeComponentLikelihood
    exact meas_fold (out := fun _ n f => if anyGroup groups n = true then out n f else 0) x hp groups order
      (fun n f => measurable_const) n f

theorem meas_normalizeWeights {w : Θ → Fin F → Fin C → ℝ} (hw : ∀ f c, Measurable fun θ => w θ f c)
    (has : Fin N → Fin C → Bool) (n : Fin N) (f : Fin F) (c : Fin C) :
    Measurable fun θ => normalizeWeights (w θ) has n f c := by
  unfold normalizeWeights
  exact ((hw f c).mul_const _).div (Finset.measurable_fun_sum _ fun c' _ => (hw f c').mul_const _)

theorem meas_cons {a : Θ → ℝ} {b : Θ → Fin M → ℝ} (ha : Measurable a) (hb : ∀ c, Measurable fun θ => b θ c)
    (c : Fin (M + 1)) : Measurable fun θ => (Fin.cons (a θ) (b θ) : Fin (M + 1) → ℝ) c := by
  refine Fin.cases ?_ (fun j => ?_) c
  · simpa using ha
  · simpa using hb j

theorem meas_list_prod {α : Type} (l : List α) {h : Θ → α → ℝ} (hh : ∀ a, Measurable fun θ => h θ a) :
    Measurable fun θ => (l.map (h θ)).prod := by
  induction l with
  | nil => simp
  | cons a l ih => simp only [List.map_cons, List.prod_cons]; exact (hh a).mul ih

theorem meas_list_sum {α : Type} (l : List α) {h : Θ → α → ℝ} (hh : ∀ a, Measurable fun θ => h θ a) :
    Measurable fun θ => (l.map (h θ)).sum := by
  induction l with
  | nil => simp
  | cons a l ih => simp only [List.map_cons, List.sum_cons]; exact (hh a).add ih

section Params
variable (d : ModelData N F S M nG) {w : Θ → Fin F → Fin (M + 1) → ℝ} {e : Θ → Fin K → Fin F → Fin S → ℝ}
  {ce : Θ → (c : Fin M) → Fin (nG c) → Fin F → Fin S → ℝ}
  (hw : ∀ f c, Measurable fun θ => w θ f c) (he : ∀ k f s, Measurable fun θ => e θ k f s)
  (hce : ∀ c g f s, Measurable fun θ => ce θ c g f s)
include hce

theorem meas_confLh (n : Fin N) (f : Fin F) (c : Fin M) : Measurable fun θ => confLh d (ce θ) n f c :=
  meas_compute d.features (hce c) _ _ _ n f

include he

theorem meas_componentLh (cl : Clus K N) (n : Fin N) (f : Fin F) (c : Fin (M + 1)) :
    Measurable fun θ => componentLh d (e θ) (ce θ) cl n f c :=
  meas_cons (meas_compute d.features he _ _ _ n f) (meas_confLh d hce n f) c

include hw

theorem meas_sourcePosterior (cl : Clus K N) (n : Fin N) (f : Fin F) (c : Fin (M + 1)) :
    Measurable fun θ => sourcePosterior d (w θ) (e θ) (ce θ) cl n f c := by
  have h : ∀ c, Measurable fun θ => componentLh d (e θ) (ce θ) cl n f c * normalizeWeights (w θ) (hasComponents d cl) n f c :=
    fun c => (meas_componentLh d he hce cl n f c).mul (meas_normalizeWeights hw _ n f c)
  exact (h c).div (Finset.measurable_fun_sum _ fun c' _ => h c')

theorem meas_clusterPosterior (cl : Clus K N) (z : Fin K) (n : Fin N) :
    Measurable fun θ => clusterPosterior d (w θ) (e θ) (ce θ) cl z n := by
  have hlh : ∀ (f : Fin F) (c : Fin (M + 1)), Measurable fun θ =>
      (Fin.cons (stateProb d.features (e θ z) n f) (confLh d (ce θ) n f) : Fin (M + 1) → ℝ) c := fun f c =>
    meas_cons (meas_stateProb d.features (he z) n f) (meas_confLh d hce n f) c
  have hif : ∀ (b : Bool) (h1 h2 : Fin N → Fin (M + 1) → Bool) (f : Fin F) (c : Fin (M + 1)), Measurable fun θ =>
      (if b then normalizeWeights (w θ) h1 n else normalizeWeights (w θ) h2 n) f c := by
    intro b h1 h2 f c
    cases b
    · simpa using meas_normalizeWeights hw h2 n f c
    · simpa using meas_normalizeWeights hw h1 n f c
  unfold clusterPosterior
  dsimp only
  refine Measurable.div (meas_list_prod _ fun f => Finset.measurable_fun_sum _ fun c _ => (hlh f c).mul (hif _ _ _ f c))
    (Measurable.add (meas_list_prod _ fun f => Finset.measurable_fun_sum _ fun c _ => (hlh f c).mul (hif _ _ _ f c))
      (meas_list_prod _ fun f => Finset.measurable_fun_sum _ fun c _ => (hlh f c).mul (hif _ _ _ f c)))

omit hw he hce in
theorem meas_dirichletPdf {ι : Type} (A : Finset ι) (alpha : ι → ℝ) {x : Θ → ι → ℝ} (hx : ∀ i, Measurable fun θ => x θ i) :
    Measurable fun θ => dirichletPdf A alpha (x θ) := by
  unfold dirichletPdf
  exact (Finset.measurable_fun_prod _ fun i _ => (hx i).pow_const _).const_mul _

theorem meas_posterior (cfg : ModelCfg N F S M nG) (clO : List (Fin K)) (cfO : (c : Fin M) → List (Fin (nG c)))
    (empty : Fin N → Fin F → Fin (M + 1) → ℝ) (cl : Clus K N) (src : Option (Fin N → Fin F → Fin (M + 1) → Bool)) :
    Measurable fun θ => (posterior d cfg clO cfO empty
      { clusters := cl, weights := w θ, clusterEffect := e θ, confEffect := ce θ, source := src }).getD 0 := by
  have hup : ∀ n f c, Measurable fun θ => updateComponents d
      { clusters := cl, weights := w θ, clusterEffect := e θ, confEffect := ce θ, source := src } clO cfO empty n f c :=
    fun n f c => meas_cons (meas_compute d.features he _ _ _ n f)
      (fun c => meas_compute d.features (hce c) _ _ _ n f) c
  have hlik : Measurable fun θ => likelihood (freshObservationLhs d
      { clusters := cl, weights := w θ, clusterEffect := e θ, confEffect := ce θ, source := src } clO cfO empty) := by
    unfold freshObservationLhs
    rcases src with _ | src
    · simp only [likelihood_none]
      exact Finset.measurable_fun_prod _ fun n _ => Finset.measurable_fun_prod _ fun f _ =>
        Finset.measurable_fun_sum _ fun c _ => (meas_normalizeWeights hw _ n f c).mul (hup n f c)
    · exact meas_list_prod _ fun t => hup t.1 t.2.1 t.2.2
  have hconf : Measurable fun θ => ∏ c, ∏ g, confEffectPrior cfg.app (cfg.conf c g) (ce θ c g) := by
    refine Finset.measurable_fun_prod _ fun c _ => Finset.measurable_fun_prod _ fun g _ => ?_
    unfold confEffectPrior
    rcases cfg.conf c g with _ | conc
    · exact measurable_const
    · exact Finset.measurable_fun_prod _ fun f _ => meas_dirichletPdf _ _ fun s => hce c g f s
  unfold posterior prior
  dsimp only
  rcases geoTerm cfg.geo cl with _ | geo
  · simp
  rcases hs : cfg.sampleSource with _ | _ <;> rcases src with _ | src <;>
    simp only [sourceTerm, Option.bind_eq_bind, Option.bind_some, Option.bind_none, Option.map_some, Option.map_none, Option.getD_some,
      Option.getD_none] <;> try exact measurable_const
  · exact hlik.mul ((hconf.const_mul _).mul_const _)
  · refine hlik.mul ((hconf.const_mul _).mul ?_)
    exact meas_list_prod _ fun t => meas_normalizeWeights hw _ t.1 t.2.1 t.2.2

end Params

theorem meas_acceptProb {a b q r : Θ → ℝ} (ha : Measurable a) (hb : Measurable b) (hq : Measurable q) (hr : Measurable r) :
    Measurable fun θ => acceptProb (a θ) (b θ) (q θ) (r θ) := by
  unfold acceptProb
  refine Measurable.ite (hr (measurableSet_singleton 0)) measurable_const ?_
  exact Measurable.ite (hq (measurableSet_singleton 0)) measurable_const (measurable_const.min ((hb.div ha).mul (hr.div hq)))

/-! ### The Gamma function -/

open Classical in
theorem measurable_Gamma : Measurable Real.Gamma := by
  have hc : Set.Countable (Set.range fun m : ℕ => (-m : ℝ)) := Set.countable_range _
  have ho : ContinuousOn Real.Gamma (Set.range fun m : ℕ => (-m : ℝ))ᶜ := by
    intro x hx
    exact (Real.differentiableAt_Gamma fun m h => hx ⟨m, h.symm⟩).continuousAt.continuousWithinAt
  have h1 : Measurable ((Set.range fun m : ℕ => (-m : ℝ))ᶜ.piecewise Real.Gamma fun _ => 0) :=
    ho.measurable_piecewise continuousOn_const hc.measurableSet.compl
  have : Real.Gamma = (Set.range fun m : ℕ => (-m : ℝ))ᶜ.piecewise Real.Gamma fun _ => 0 := by
    funext x
    by_cases hx : x ∈ (Set.range fun m : ℕ => (-m : ℝ))ᶜ
    · rw [Set.piecewise_eq_of_mem _ _ _ hx]
    · rw [Set.piecewise_eq_of_notMem _ _ _ hx]
      simp only [Set.mem_compl_iff, not_not] at hx
      obtain ⟨m, rfl⟩ := hx
      exact Real.Gamma_neg_nat_eq_zero m
  rw [this]
  exact h1

theorem meas_dirichletPdf_full {ι : Type} (A : Finset ι) {alpha x : Θ → ι → ℝ} (ha : ∀ i, Measurable fun θ => alpha θ i)
    (hx : ∀ i, Measurable fun θ => x θ i) : Measurable fun θ => dirichletPdf A (alpha θ) (x θ) := by
  unfold dirichletPdf
  refine Measurable.mul (Measurable.div ?_ ?_) ?_
  · exact measurable_Gamma.comp (Finset.measurable_fun_sum _ fun i _ => ha i)
  · exact Finset.measurable_fun_prod _ fun i _ => measurable_Gamma.comp (ha i)
  · exact Finset.measurable_fun_prod _ fun i _ => (hx i).pow ((ha i).sub_const _)

end SBayes.Meas
