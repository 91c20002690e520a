import Verif.Lemmas.ErgoSimplex
import Verif.Lemmas.SamplerWeights
import Verif.Lemmas.SamplerProper
/- Sets of continuous parameters that no move can leave. -/
namespace SBayes.Meas
set_option linter.unusedSectionVars false
open SBayes.Lik SBayes.Clusters SBayes.MH SBayes.Source SBayes.Effects SBayes.Posterior SBayes.Draws SBayes.Kernel MeasureTheory
open scoped BigOperators ENNReal

variable {K N F S M C G : ℕ} {nG : Fin M → ℕ}

section Generic
variable {X E Y : Type} [MeasurableSpace X] [MeasurableSpace E] [MeasurableSpace Y]

/-- What holds almost everywhere holds almost everywhere after a move. -/
theorem Refresh.ae {μ : Measure X} {ρ : Measure E} [SFinite ρ] {ψ : X → E → X} (h : Refresh μ ρ ψ) {P : X → Prop}
    (hP : ∀ᵐ x ∂μ, P x) : ∀ᵐ x ∂μ, ∀ᵐ e ∂ρ, P (ψ x e) := by
  obtain ⟨s, hs, hsm, h0⟩ := exists_measurable_superset_of_null (ae_iff.mp hP)
  have hm : Measurable (s.indicator (1 : X → ℝ≥0∞)) := measurable_one.indicator hsm
  have h1 := h.2 _ hm
  rw [lintegral_indicator_one hsm, h0, lintegral_eq_zero_iff (h.meas hm)] at h1
  filter_upwards [h1] with x hx
  have hψ : Measurable fun e => s.indicator (1 : X → ℝ≥0∞) (ψ x e) :=
    hm.comp (h.1.comp (measurable_const.prodMk measurable_id))
  have hx' : ∫⁻ e, s.indicator (1 : X → ℝ≥0∞) (ψ x e) ∂ρ = 0 := hx
  rw [lintegral_eq_zero_iff hψ] at hx'
  filter_upwards [hx'] with e he
  by_contra hn
  have : ψ x e ∈ s := hs hn
  have he' : s.indicator (1 : X → ℝ≥0∞) (ψ x e) = 0 := he
  rw [Set.indicator_of_mem this] at he'
  exact one_ne_zero he'

theorem refresh_const' {ν : Measure Y} [IsProbabilityMeasure ν] : Refresh ν ν fun _ e => e :=
  ⟨measurable_snd, fun g _ => by rw [lintegral_const, measure_univ, mul_one]⟩

/-- A block whose coordinates do not matter does not matter. -/
theorem Lens.slice_pi {ι : Type} [Fintype ι] [DecidableEq ι] {Z : ι → Type} [∀ i, MeasurableSpace (Z i)] {ν : (i : ι) → Measure (Z i)}
    [∀ i, IsProbabilityMeasure (ν i)] (L : Lens X (∀ i, Z i)) {μ : Measure X} {B : Set X} (hB : MeasurableSet B)
    (hR : Refresh μ (Measure.pi ν) fun x e => L.set x e)
    (h : ∀ i, ∀ᵐ x ∂μ, Triv (ν i) {t | (L.comp (Lens.pi Z i)).set x t ∈ B}) :
    ∀ᵐ x ∂μ, Triv (Measure.pi ν) {v | L.set x v ∈ B} := by
  have h' : ∀ᵐ x ∂μ, ∀ i, ∀ᵐ v ∂Measure.pi ν, Triv (ν i) {t | L.set x (Function.update v i t) ∈ B} := by
    rw [ae_all_iff]
    intro i
    filter_upwards [hR.ae (h i)] with x hx
    refine hx.mono fun v hv => ?_
    have e : ∀ t, (L.comp (Lens.pi Z i)).set (L.set x v) t = L.set x (Function.update v i t) := by
      intro t
      show L.set (L.set x v) (Function.update (L.get (L.set x v)) i t) = _
      rw [L.get_set, L.set_set]
    simp only [e] at hv
    exact hv
  filter_upwards [h'] with x hx
  refine triv_pi ?_ hx
  exact (L.mset.comp (measurable_const.prodMk measurable_id)) hB

theorem triv_prod' {μ : Measure X} {κ : Measure Y} [IsProbabilityMeasure μ] [IsProbabilityMeasure κ] {A : Set (X × Y)}
    (hA : MeasurableSet A) (h1 : ∀ᵐ p ∂μ.prod κ, Triv μ {x | (x, p.2) ∈ A}) (h2 : ∀ᵐ p ∂μ.prod κ, Triv κ {y | (p.1, y) ∈ A}) :
    Triv (μ.prod κ) A := by
  refine triv_prod hA ?_ ?_
  · have := (Measure.measurePreserving_swap (μ := κ) (ν := μ)).quasiMeasurePreserving.ae h1
    refine (Measure.ae_ae_of_ae_prod this).mono fun y hy => ?_
    exact hy.exists.choose_spec
  · refine (Measure.ae_ae_of_ae_prod h2).mono fun x hx => ?_
    exact hx.exists.choose_spec

end Generic

section Cont
variable {app : Fin F → Fin S → Bool}

/-- A set of continuous parameters in which no row of weights, no effects of a cluster and no effects of a group matter. -/
theorem triv_contRef (hst : ∀ f, ∃ s, app f s = true) {B : Set (Cont K F S M nG)} (hB : MeasurableSet B)
    (hw : ∀ f, ∀ᵐ c ∂(contRef app : Measure (Cont K F S M nG)), Triv (uniformSimplex Finset.univ) {v | (wLens f).set c v ∈ B})
    (he : ∀ k, ∀ᵐ c ∂(contRef app : Measure (Cont K F S M nG)),
      Triv (Measure.pi fun f => uniformSimplex (states app f)) {v | (eLens k).set c v ∈ B})
    (hce : ∀ i g, ∀ᵐ c ∂(contRef app : Measure (Cont K F S M nG)),
      Triv (Measure.pi fun f => uniformSimplex (states app f)) {v | (ceLens i g).set c v ∈ B}) :
    Triv (contRef app) B := by
  have p0 : IsProbabilityMeasure (uniformSimplex (Finset.univ : Finset (Fin (M + 1)))) := uniformSimplex_prob Finset.univ_nonempty
  have p1 := rows_prob (app := app) hst
  set W := Measure.pi fun _ : Fin F => uniformSimplex (Finset.univ : Finset (Fin (M + 1))) with hW
  set Eff := Measure.pi fun _ : Fin K => Measure.pi fun f => uniformSimplex (states app f) with hEff
  set CE := Measure.pi fun c => Measure.pi fun _ : Fin (nG c) => Measure.pi fun f => uniformSimplex (states app f) with hCE
  have hdef : (contRef app : Measure (Cont K F S M nG)) = W.prod (Eff.prod CE) := rfl
  have rW : Refresh (contRef app : Measure (Cont K F S M nG)) W fun x e => (Lens.fst _ _).set x e := by
    rw [hdef]; exact Refresh.fst refresh_const'
  have rE : Refresh (contRef app : Measure (Cont K F S M nG)) Eff fun x e => ((Lens.snd _ _).comp (Lens.fst _ _)).set x e := by
    rw [hdef]; exact Refresh.snd (Refresh.fst refresh_const')
  have rC : Refresh (contRef app : Measure (Cont K F S M nG)) CE fun x e => ((Lens.snd _ _).comp (Lens.snd _ _)).set x e := by
    rw [hdef]; exact Refresh.snd (Refresh.snd refresh_const')
  have tW := Lens.slice_pi (Lens.fst _ _) hB rW hw
  have tE := Lens.slice_pi ((Lens.snd _ _).comp (Lens.fst _ _)) hB rE he
  have tC := Lens.slice_pi ((Lens.snd (Fin F → Fin (M + 1) → ℝ) _).comp (Lens.snd (Fin K → Fin F → Fin S → ℝ) _)) hB rC fun i => by
    refine Lens.slice_pi (((Lens.snd _ _).comp (Lens.snd _ _)).comp (Lens.pi (fun c => Fin (nG c) → Fin F → Fin S → ℝ) i)) hB ?_ (hce i)
    rw [hdef]
    exact Refresh.snd (Refresh.snd (Refresh.pi (ν := fun c => Measure.pi fun _ : Fin (nG c) => Measure.pi fun f => uniformSimplex (states app f))
      i refresh_const'))
  rw [hdef] at tW tE tC ⊢
  refine triv_prod' hB tW ?_
  have tE' := Measure.ae_ae_of_ae_prod tE
  have tC' := Measure.ae_ae_of_ae_prod tC
  have key : ∀ᵐ w ∂W, Triv (Eff.prod CE) {y | (w, y) ∈ B} := by
    filter_upwards [tE', tC'] with w h1 h2
    exact triv_prod' ((measurable_const.prodMk measurable_id) hB) h1 h2
  exact Measure.quasiMeasurePreserving_fst.ae key

/-- A row whose pairs do not matter does not matter. -/
theorem triv_row {n : ℕ} {A : Finset (Fin n)} (hA : A.Nonempty) (L : Lens (Cont K F S M nG) (Fin n → ℝ)) {B : Set (Cont K F S M nG)}
    (hB : MeasurableSet B) (hR : Refresh (contRef app : Measure (Cont K F S M nG)) (uniformSimplex A) fun x e => L.set x e)
    (h : ∀ i ∈ A, ∀ j ∈ A, i ≠ j → ∀ᵐ c ∂(contRef app : Measure (Cont K F S M nG)), ∀ᵐ t ∂volume.restrict (Set.Ioo (0 : ℝ) 1),
      (L.set c (along (L.get c) i j t) ∈ B ↔ c ∈ B)) :
    ∀ᵐ c ∂(contRef app : Measure (Cont K F S M nG)), Triv (uniformSimplex A) {v | L.set c v ∈ B} := by
  have p0 : IsProbabilityMeasure (uniformSimplex A) := uniformSimplex_prob hA
  have h' : ∀ᵐ c ∂(contRef app : Measure (Cont K F S M nG)), ∀ i ∈ A, ∀ j ∈ A, i ≠ j → ∀ᵐ u ∂uniformSimplex A,
      ∀ᵐ t ∂volume.restrict (Set.Ioo (0 : ℝ) 1), (L.set c (along u i j t) ∈ B ↔ L.set c u ∈ B) := by
    refine (Filter.eventually_all_finset A).mpr fun i hi => (Filter.eventually_all_finset A).mpr fun j hj => ?_
    by_cases hij : i = j
    · exact ae_of_all _ fun c h => absurd hij h
    filter_upwards [hR.ae (h i hi j hj hij)] with c hc _
    refine hc.mono fun u hu => hu.mono fun t ht => ?_
    rwa [L.get_set, L.set_set] at ht
  filter_upwards [h'] with c hc
  exact triv_simplex hA ((L.mset.comp (measurable_const.prodMk measurable_id)) hB) hc

end Cont

end SBayes.Meas
