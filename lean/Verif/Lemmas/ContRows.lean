import Verif.Lemmas.RowHarris
import Verif.Lemmas.SubharmTotal
/- The weights of the features and the effects of clusters and groups, as rows. -/
namespace SBayes.Meas
set_option linter.unusedSectionVars false
open SBayes.Lik SBayes.Clusters SBayes.MH SBayes.Source SBayes.Effects SBayes.Posterior SBayes.Draws SBayes.Kernel MeasureTheory
open scoped BigOperators ENNReal

variable {K N F S M C G : ℕ} {nG : Fin M → ℕ}

/-- The weights of a feature, or the effects of a cluster or a group on a feature. -/
abbrev RIdx (K F M : ℕ) (nG : Fin M → ℕ) : Type := Fin F ⊕ (Fin K × Fin F) ⊕ ((Σ i : Fin M, Fin (nG i)) × Fin F)

/-- The number of entries of a row. -/
def rowC (S : ℕ) : RIdx K F M nG → ℕ
  | .inl _ => M + 1
  | .inr (.inl _) => S
  | .inr (.inr _) => S

/-- A row. -/
def rowLen : (b : RIdx K F M nG) → Lens (Cont K F S M nG) (Fin (rowC S b) → ℝ)
  | .inl f => wLens f
  | .inr (.inl p) => (eLens p.1).comp (Lens.pi _ p.2)
  | .inr (.inr p) => (ceLens p.1.1 p.1.2).comp (Lens.pi _ p.2)

/-- The entries of a row that can be positive. -/
def rowSup (app : Fin F → Fin S → Bool) : (b : RIdx K F M nG) → Finset (Fin (rowC S b))
  | .inl _ => Finset.univ
  | .inr (.inl p) => states app p.2
  | .inr (.inr p) => states app p.2

theorem indep_comp {X R Q R' Q' : Type} [MeasurableSpace X] [MeasurableSpace R] [MeasurableSpace Q] [MeasurableSpace R'] [MeasurableSpace Q']
    {L : Lens X R} {L' : Lens X Q} (h : Indep L L') (P : Lens R R') (P' : Lens Q Q') : Indep (L.comp P) (L'.comp P') := by
  intro x v u
  show L.set (L'.set x (P'.set (L'.get x) u)) (P.set (L.get (L'.set x (P'.set (L'.get x) u))) v) =
    L'.set (L.set x (P.set (L.get x) v)) (P'.set (L'.get (L.set x (P.set (L.get x) v))) u)
  rw [h.get, h.symm.get, h]

theorem indep_comp_left {X R Q R' : Type} [MeasurableSpace X] [MeasurableSpace R] [MeasurableSpace Q] [MeasurableSpace R']
    {L : Lens X R} {L' : Lens X Q} (h : Indep L L') (P : Lens R R') : Indep (L.comp P) L' := by
  intro x v u
  show L.set (L'.set x u) (P.set (L.get (L'.set x u)) v) = L'.set (L.set x (P.set (L.get x) v)) u
  rw [h.get, h]

theorem indep_same {X R R' R'' : Type} [MeasurableSpace X] [MeasurableSpace R] [MeasurableSpace R'] [MeasurableSpace R'']
    {L : Lens X R} {P : Lens R R'} {P' : Lens R R''} (h : Indep P P') : Indep (L.comp P) (L.comp P') := by
  intro x v u
  show L.set (L.set x (P'.set (L.get x) u)) (P.set (L.get (L.set x (P'.set (L.get x) u))) v) =
    L.set (L.set x (P.set (L.get x) v)) (P'.set (L.get (L.set x (P.set (L.get x) v))) u)
  rw [L.get_set, L.get_set, L.set_set, L.set_set, h]

theorem indep_pi {ι : Type} [DecidableEq ι] {X : ι → Type} [∀ i, MeasurableSpace (X i)] {i j : ι} (h : i ≠ j) : Indep (Lens.pi X i) (Lens.pi X j) :=
  fun x v u => (Function.update_comm h v u x).symm

theorem row_indep (b b' : RIdx K F M nG) (h : b ≠ b') : Indep (rowLen b : Lens (Cont K F S M nG) _) (rowLen b') := by
  rcases b with f | ⟨k, f⟩ | ⟨q, f⟩ <;> rcases b' with f' | ⟨k', f'⟩ | ⟨q', f'⟩
  · exact indep_ww fun e => h (by rw [e])
  · exact (indep_comp_left (indep_we f k').symm _).symm
  · exact (indep_comp_left (indep_wc f q'.1 q'.2).symm _).symm
  · exact indep_comp_left (indep_we f' k).symm _
  · by_cases hk : k = k'
    · subst hk
      exact indep_same (indep_pi fun (e : f = f') => h (by rw [e]))
    · exact indep_comp (indep_ee hk) _ _
  · exact indep_comp (indep_ec k q'.1 q'.2) _ _
  · exact indep_comp_left (indep_wc f' q.1 q.2).symm _
  · exact indep_comp (indep_ec k' q.1 q.2).symm _ _
  · by_cases hq : q = q'
    · subst hq
      exact indep_same (indep_pi fun (e : f = f') => h (by rw [e]))
    · exact indep_comp (indep_cc hq) _ _

/-- The continuous parameters as rows. -/
def contRows (app : Fin F → Fin S → Bool) (hst : ∀ f, ∃ s, app f s = true) : Rows (Cont K F S M nG) (RIdx K F M nG) where
  C := rowC S
  len := rowLen
  sup := rowSup app
  ne b := by
    rcases b with f | ⟨k, f⟩ | ⟨q, f⟩
    · exact (Finset.univ_nonempty : (Finset.univ : Finset (Fin (M + 1))).Nonempty)
    · obtain ⟨s, hs⟩ := hst f
      exact ⟨s, mem_states.mpr hs⟩
    · obtain ⟨s, hs⟩ := hst f
      exact ⟨s, mem_states.mpr hs⟩
  indep := row_indep
  ext x y h := by
    refine Prod.ext (funext fun f => h (.inl f)) (Prod.ext (funext fun k => funext fun f => h (.inr (.inl (k, f)))) ?_)
    funext i g f
    exact h (.inr (.inr (⟨i, g⟩, f)))

variable {app : Fin F → Fin S → Bool} {hst : ∀ f, ∃ s, app f s = true}

theorem mem_int {c : Cont K F S M nG} : c ∈ (contRows (K := K) (M := M) (nG := nG) app hst).Int ↔ Interior app c := by
  constructor
  · intro h
    exact ⟨fun f => h (.inl f), fun k f => h (.inr (.inl (k, f))), fun i g f => h (.inr (.inr (⟨i, g⟩, f)))⟩
  · rintro h (f | ⟨k, f⟩ | ⟨q, f⟩)
    · exact h.w f
    · exact h.e k f
    · exact h.ce q.1 q.2 f

theorem refresh_spread' {A : Finset (Fin C)} (hA : A.Nonempty) : Refresh (uniformSimplex A) (uniformSimplex A) (spread A) := by
  have p0 : IsProbabilityMeasure (uniformSimplex A) := uniformSimplex_prob hA
  refine ⟨meas_spread _, fun g hg => ?_⟩
  have hr : ∀ᵐ v ∂uniformSimplex A, Row A v := uniformSimplex_ae hA
  have e : ∀ᵐ v ∂uniformSimplex A, ∫⁻ u, g (spread A v u) ∂uniformSimplex A = ∫⁻ u, g u ∂uniformSimplex A :=
    hr.mono fun v hv => lintegral_congr_ae (hr.mono fun u hu => by simp only [spread_full hv hu])
  rw [lintegral_congr_ae e, lintegral_const, measure_univ, mul_one]

theorem rows_refresh (b : RIdx K F M nG) (h : Cont K F S M nG → ℝ≥0∞) (hh : Measurable h) :
    ∫⁻ c, ((contRows app hst).renew b).op h c ∂contRef app = ∫⁻ c, h c ∂contRef app := by
  have hs : ∀ f, (states app f).Nonempty := fun f => by
    obtain ⟨s, hs⟩ := hst f
    exact ⟨s, mem_states.mpr hs⟩
  rcases b with f | ⟨k, f⟩ | ⟨⟨i, g⟩, f⟩
  · exact (refresh_w f (refresh_spread' Finset.univ_nonempty)).2 h hh
  · exact (refresh_e k (Refresh.pi (ν := fun f => uniformSimplex (states app f)) f (refresh_spread' (hs f)))).2 h hh
  · exact (refresh_ce i g (Refresh.pi (ν := fun f => uniformSimplex (states app f)) f (refresh_spread' (hs f)))).2 h hh

end SBayes.Meas
