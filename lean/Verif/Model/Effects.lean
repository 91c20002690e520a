import Verif.Model.MH
import Verif.Model.Source
import Mathlib.Analysis.SpecialFunctions.Gamma.Basic
import Mathlib.Probability.Distributions.Beta
/-
Model of the operators on continuous parameters (sbayes/sampling/operators.py): `DirichletOperator`
(99-135), `AlterWeights` (138-173), `AlterClusterEffect` (176-218), `AlterConfoundingEffects` (221-266),
`GibbsSampleWeights` (326-426), `GibbsSampleClusterEffect` (429-477), `GibbsSampleConfoundingEffects`
(480-549).  Random draws are arguments; densities are in linear space.  Floats are reals: the
NaN/Inf branch of `dirichlet_proposal` (129-134) is not modelled.
-/
namespace SBayes.Effects
open SBayes.Lik SBayes.MH
open scoped BigOperators

variable {ι : Type} {K N F S C G M : ℕ} {nG : Fin M → ℕ}

/-- `exp(dirichlet_logpdf(x, alpha))` (scipy `dirichlet._logpdf`, util.py:31) over the entries `A`:
`Γ(Σα)/ΠΓ(α_i) · Π x_i^(α_i - 1)`. -/
noncomputable def dirichletPdf (A : Finset ι) (alpha x : ι → ℝ) : ℝ :=
  Real.Gamma (∑ i ∈ A, alpha i) / (∏ i ∈ A, Real.Gamma (alpha i)) * ∏ i ∈ A, x i ^ (alpha i - 1)

/-- `dirichlet_proposal`, operators.py:103-135, if `np.random.dirichlet(alpha)` draws `wNew`. -/
noncomputable def dirichletProposal [Fintype ι] (w : ι → ℝ) (prec : ℝ) (wNew : ι → ℝ) : Result (ι → ℝ) :=
  let alpha := fun i => 1 + prec * w i
  let q := dirichletPdf Finset.univ alpha wNew
  let alphaBack := fun i => 1 + prec * wNew i
  let qBack := dirichletPdf Finset.univ alphaBack w
  ⟨wNew, q, qBack⟩

/-- The common part of `AlterWeights`, `AlterClusterEffect` and `AlterConfoundingEffects`
(operators.py:155-173, 201-218, 245-266): redistribute the mass of entries `i`, `j` of a probability
vector `v`, if the Dirichlet draw is `t`. -/
noncomputable def alterPair (prec : ℝ) (v : Fin C → ℝ) (i j : Fin C) (t : Fin 2 → ℝ) : Result (Fin C → ℝ) :=
  let cur : Fin 2 → ℝ := ![v i, v j]
  let total := ∑ k, cur k
  let curT := fun k => cur k / total
  let r := dirichletProposal curT prec t
  let new := fun k => r.new k * total
  ⟨Function.update (Function.update v i (new 0)) j (new 1), r.q, r.qBack⟩

/-- `AlterWeights._propose`, operators.py:142-173 (`STEP_PRECISION = 30`), for the drawn feature `f` and
components `i`, `j`. -/
noncomputable def alterWeights (w : Fin F → Fin C → ℝ) (f : Fin F) (i j : Fin C) (t : Fin 2 → ℝ) :
    Result (Fin F → Fin C → ℝ) :=
  let r := alterPair 30 (w f) i j t
  ⟨Function.update w f r.new, r.q, r.qBack⟩

/-- `AlterClusterEffect._propose` (operators.py:184-218, precision 20) and
`AlterConfoundingEffects._propose` (230-266, precision 10) for the drawn group `g`, feature `f` and
applicable states `i`, `j`. -/
noncomputable def alterEffect (prec : ℝ) (e : Fin G → Fin F → Fin S → ℝ) (g : Fin G) (f : Fin F)
    (i j : Fin S) (t : Fin 2 → ℝ) : Result (Fin G → Fin F → Fin S → ℝ) :=
  let r := alterPair prec (e g f) i j t
  ⟨Function.update e g (Function.update (e g) f r.new), r.q, r.qBack⟩

/-- `counts[f, c]` in `resample_weight_for_two_components`, operators.py:386-387: over the objects that
have both components. -/
def pairCounts (src : Fin N → Fin F → Fin C → Bool) (has : Fin N → Fin C → Bool) (i1 i2 : Fin C)
    (f : Fin F) (c : Fin C) : ℝ :=
  ∑ n, if has n i1 && has n i2 then (if src n f c then 1 else 0) else 0

/-- `normalize(x, axis=-1)`, util.py:984-1002, for one row. -/
noncomputable def normalize [Fintype ι] (x : ι → ℝ) : ι → ℝ := fun i => x i / ∑ k, x k

/-- `w_new`, operators.py:399-403, for one feature with relative weight `a2` drawn. -/
noncomputable def mixPair (v : Fin C → ℝ) (i1 i2 : Fin C) (a2 : ℝ) : Fin C → ℝ :=
  let a1 := 1 - a2
  let w02 := v i1 + v i2
  normalize (Function.update (Function.update v i1 (a1 * w02)) i2 (a2 * w02))

/-- `resample_weight_for_two_components`, operators.py:374-410, for one feature: the proposed row and
its forward and backward density (`stats.beta(1 + c2, 1 + c1)`), if `distr.rvs()` gives `a2`. -/
noncomputable def resamplePair (src : Fin N → Fin F → Fin C → Bool) (has : Fin N → Fin C → Bool)
    (w : Fin F → Fin C → ℝ) (i1 i2 : Fin C) (f : Fin F) (a2 : ℝ) : Result (Fin C → ℝ) :=
  let c1 := pairCounts src has i1 i2 f i1
  let c2 := pairCounts src has i1 i2 f i2
  let w02 := w f i1 + w f i2
  let a2Old := w f i2 / w02
  ⟨mixPair (w f) i1 i2 a2, ProbabilityTheory.betaPDFReal (1 + c2) (1 + c1) a2,
    ProbabilityTheory.betaPDFReal (1 + c2) (1 + c1) a2Old⟩

/-- `source_lh_by_feature`, operators.py:412-418, in linear space, for feature `f`. -/
noncomputable def sourceLh (src : Fin N → Fin F → Fin C → Bool) (wn : Fin N → Fin F → Fin C → ℝ) (f : Fin F) : ℝ :=
  ∏ n, ∑ c, (if src n f c then 1 else 0) * wn n f c

/-- `p_accept`, operators.py:341-365, for one feature. -/
noncomputable def pAccept (src : Fin N → Fin F → Fin C → Bool) (has : Fin N → Fin C → Bool)
    (w : Fin F → Fin C → ℝ) (i1 i2 : Fin C) (a2 : Fin F → ℝ) (f : Fin F) : ℝ :=
  let r := fun f => resamplePair src has w i1 i2 f (a2 f)
  let wNew := fun f => (r f).new
  let lhOld := sourceLh src (normalizeWeights w has) f
  let lhNew := sourceLh src (normalizeWeights wNew has) f
  lhNew / lhOld * ((r f).qBack / (r f).q)

open Classical in
/-- `GibbsSampleWeights._propose`, operators.py:337-372: every feature accepts or rejects on its own
(`u` are the uniform draws); the sample is returned as a Gibbs step. -/
noncomputable def gibbsWeights (src : Fin N → Fin F → Fin C → Bool) (has : Fin N → Fin C → Bool)
    (w : Fin F → Fin C → ℝ) (i1 i2 : Fin C) (a2 u : Fin F → ℝ) : Result (Fin F → Fin C → ℝ) :=
  gibbs fun f => if u f < pAccept src has w i1 i2 a2 f then (resamplePair src has w i1 i2 f (a2 f)).new else w f

/-- `feature_counts`, operators.py:452-471 (cluster: component 0) and 514-542 (confounder: its
`source_index`): observations of state `s` attributed to component `c` in group `group`. -/
noncomputable def attributedCounts (x : Features N F S) (src : Fin N → Fin F → Fin C → Bool) (c : Fin C)
    (group : Fin N → Bool) (f : Fin F) (s : Fin S) : ℝ :=
  ∑ n, if src n f c && group n then (if x n f s then 1 else 0) else 0

/-- `cluster_effect[i_feat, s_idxs] = np.random.dirichlet(...)`, operators.py:465-472, 536-543: the
applicable entries of one group are replaced by the draws. -/
def writeEffect (app : Fin F → Fin S → Bool) (e : Fin G → Fin F → Fin S → ℝ) (g : Fin G)
    (draw : Fin F → Fin S → ℝ) : Fin G → Fin F → Fin S → ℝ :=
  Function.update e g fun f s => if app f s then draw f s else e g f s

/-- `np.nonzero(applicable_states[f])`. -/
def states (app : Fin F → Fin S → Bool) (f : Fin F) : Finset (Fin S) := Finset.univ.filter fun s => app f s

/-- The parameters of the Dirichlet distribution from which `GibbsSampleClusterEffect` (operators.py:469-472,
`conc = 1`) and `GibbsSampleConfoundingEffects` (529-543, `conc = prior_counts`) draw feature `f`. -/
noncomputable def gibbsAlpha (conc : Fin F → Fin S → ℝ) (counts : Fin F → Fin S → ℝ) (f : Fin F) (s : Fin S) : ℝ :=
  conc f s + counts f s

/-- Density of the effect drawn by the two Gibbs operators: features are drawn one by one. -/
noncomputable def gibbsEffectPdf (app : Fin F → Fin S → Bool) (alpha : Fin F → Fin S → ℝ)
    (draw : Fin F → Fin S → ℝ) : ℝ := ∏ f, dirichletPdf (states app f) (alpha f) (draw f)

/-- `compute_group_effect_prior`, prior.py:661-682, in linear space. -/
noncomputable def groupEffectPrior (app : Fin F → Fin S → Bool) (conc : Fin F → Fin S → ℝ)
    (e : Fin F → Fin S → ℝ) : ℝ := ∏ f, dirichletPdf (states app f) (conc f) (e f)

/-- `ConfoundingEffectsPrior.parse_attributes`, prior.py:204-215 and `get_uniform_concentration`, 172-178:
the concentration of a group with a uniform (`none`) or Dirichlet prior. -/
noncomputable def concentration (cfg : Option (Fin F → Fin S → ℝ)) : Fin F → Fin S → ℝ := cfg.getD fun _ _ => 1

/-- One entry of `cached_priors` in `ConfoundingEffectsPrior.__call__`, prior.py:233-244, in linear
space: a uniform prior contributes `log_p = 0`. -/
noncomputable def confEffectPrior (app : Fin F → Fin S → Bool) (cfg : Option (Fin F → Fin S → ℝ))
    (e : Fin F → Fin S → ℝ) : ℝ :=
  match cfg with
  | none => 1
  | some conc => groupEffectPrior app conc e

end SBayes.Effects
