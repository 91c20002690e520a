import Verif.Model.Sampler
import Verif.Spec.Clusters
import Verif.Spec.Likelihood
/- Specification of the sampler as a whole: the posterior distribution and what it means to leave it invariant. -/
namespace SBayes.Kernel
open SBayes.Lik SBayes.Prior SBayes.Clusters SBayes.Effects SBayes.Posterior SBayes.Draws MeasureTheory
open scoped ENNReal

variable {K N F S M : ℕ} {nG : Fin M → ℕ}

/-- All weights, cluster effects and confounding effects independent and uniformly distributed on the probability vectors
(of the applicable states). -/
noncomputable def contRef (app : Fin F → Fin S → Bool) : Measure (Cont K F S M nG) :=
  (Measure.pi fun _ : Fin F => uniformSimplex (Finset.univ : Finset (Fin (M + 1)))).prod
    ((Measure.pi fun _ : Fin K => Measure.pi fun f => uniformSimplex (states app f)).prod
      (Measure.pi fun c => Measure.pi fun _ : Fin (nG c) => Measure.pi fun f => uniformSimplex (states app f)))

open Classical in
/-- The (unnormalised) posterior distribution: the discrete parameters counted one by one, the continuous parameters
uniform on their simplices, weighted with `post`, on the states whose clusters satisfy the constraints. -/
noncomputable def target {D : Type} [MeasurableSpace D] (m : Setup K N F S M nG) (clusters : D → Clus K N)
    (post : D × Cont K F S M nG → ℝ) : Measure (D × Cont K F S M nG) :=
  (Measure.count.prod (contRef m.cfg.app)).withDensity fun x =>
    if Valid m.cl.minSize m.cl.maxSize (clusters x.1) then ENNReal.ofReal (post x) else 0

/-- If the state is distributed as `π`, it is still so after the random step `k`. -/
def LeavesInvariant {X : Type} [MeasurableSpace X] (π : Measure X) (k : X → Law X) : Prop :=
  ∀ B, MeasurableSet B → Measurable (fun x => (k x).prob B) ∧ ∫⁻ x, (k x).prob B ∂π = π B

/-- A run that is set up properly. -/
structure WellPosed (m : Setup K N F S M nG) : Prop where
  observed : ∀ n f, Missing m.d.features n f ∨ ∃ s, Observed m.d.features n f s ∧ m.cfg.app f s = true
  disjoint : ∀ c, DisjointGroups (m.d.confGroups c)
  covered : ∀ n, ∃ c g, m.d.confGroups c g n = true
  hasState : ∀ f, ∃ s, m.cfg.app f s = true
  hasCluster : 0 < K
  hasConfounder : 0 < M
  hasGroup : ∀ c, 0 < nG c
  clOrder : VisitsAll m.clOrder
  confOrder : ∀ c, VisitsAll (m.confOrder c)
  geo : ∀ z : Clus K N, Valid m.cl.minSize m.cl.maxSize z → (geoTerm m.cfg.geo z).isSome
  conc : ∀ c g a, m.cfg.conf c g = some a → ∀ f s, m.cfg.app f s = true → 0 < a f s
  nonempty : m.cfg.size = .quadraticSize → 0 < m.cl.minSize
  pConn : 0 ≤ m.cl.pConn ∧ m.cl.pConn ≤ 1

/-- Likelihoods of all components, as C09 specifies them. -/
structure ComponentLhs (m : Setup K N F S M nG) (z : Clus K N) (c : Cont K F S M nG) (lh : Fin (M + 1) → Fin N → Fin F → ℝ) : Prop where
  cluster : IsComponentLh m.d.features c.2.1 z (lh 0)
  confounder : ∀ i, IsComponentLh m.d.features (c.2.2 i) (m.d.confGroups i) (lh i.succ)

/-- The weight of a component for an object: the weight of the feature, renormalised over the components the object has. -/
noncomputable def effectiveWeight (w : Fin F → Fin (M + 1) → ℝ) (has : Fin N → Fin (M + 1) → Bool) (n : Fin N) (f : Fin F)
    (i : Fin (M + 1)) : ℝ := if has n i then w f i / ∑ j, (if has n j then w f j else 0) else 0

end SBayes.Kernel
