import Verif.Lemmas.SamplerDisc
import Verif.Lemmas.SimplexPair
import Verif.Props.Effects
/- Invariance of the moves that redistribute the mass of two entries of a row. -/
namespace SBayes.Meas
set_option linter.unusedSectionVars false
open SBayes.Lik SBayes.Clusters SBayes.MH SBayes.Source SBayes.Effects SBayes.Posterior SBayes.Draws SBayes.Kernel MeasureTheory
open scoped BigOperators ENNReal

variable {K N F S M C G : ℕ} {nG : Fin M → ℕ}

/-- A row of a structure. -/
structure Lens (X R : Type) [MeasurableSpace X] [MeasurableSpace R] where
  get : X → R
  set : X → R → X
  get_set : ∀ x v, get (set x v) = v
  set_set : ∀ x v u, set (set x v) u = set x u
  set_get : ∀ x, set x (get x) = x
  mget : Measurable get
  mset : Measurable (Function.uncurry set)

/-- Metropolis-Hastings balance with positive densities. -/
theorem accept_balance {P Q q r : ℝ} (hP : 0 < P) (hQ : 0 < Q) (hq : 0 < q) (hr : 0 < r) :
    P * (q * acceptProb P Q q r) = Q * (r * acceptProb Q P r q) := by
  unfold acceptProb
  rw [if_neg hr.ne', if_neg hq.ne', if_neg hq.ne', if_neg hr.ne']
  have h1 : P * (q * min 1 (Q / P * (r / q))) = min (P * q) (Q * r) := by
    rw [← mul_assoc, mul_min_of_nonneg _ _ (mul_pos hP hq).le, mul_one]
    congr 1
    field_simp
  have h2 : Q * (r * min 1 (P / Q * (q / r))) = min (Q * r) (P * q) := by
    rw [← mul_assoc, mul_min_of_nonneg _ _ (mul_pos hQ hr).le, mul_one]
    congr 1
    field_simp
  rw [h1, h2, min_comm]

theorem accept_mem {P Q q r : ℝ} (hP : 0 ≤ P) (hQ : 0 ≤ Q) (hq : 0 ≤ q) (hr : 0 ≤ r) :
    0 ≤ acceptProb P Q q r ∧ acceptProb P Q q r ≤ 1 := by
  unfold acceptProb
  split
  · exact ⟨le_rfl, zero_le_one⟩
  split
  · exact ⟨zero_le_one, le_rfl⟩
  · exact ⟨le_min zero_le_one (mul_nonneg (div_nonneg hQ hP) (div_nonneg hr hq)), min_le_left _ _⟩

theorem two_row {v : Fin C → ℝ} {i j : Fin C} (hi : 0 < v i) (hj : 0 < v j) :
    ∃ a ∈ Set.Ioo (0 : ℝ) 1, along v i j a = v := by
  have hs : 0 < v i + v j := add_pos hi hj
  refine ⟨v i / (v i + v j), ⟨div_pos hi hs, (div_lt_one hs).mpr (by linarith)⟩, ?_⟩
  unfold along
  have h1 : v i / (v i + v j) * (v i + v j) = v i := by field_simp
  have h2 : (1 - v i / (v i + v j)) * (v i + v j) = v j := by field_simp; ring
  rw [h1, h2, Function.update_eq_self, Function.update_eq_self]

/-- The density from which the share is drawn. -/
noncomputable def shareAlpha (prec : ℝ) (v : Fin C → ℝ) (i j : Fin C) (k : Fin 2) : ℝ :=
  1 + prec * ((![v i, v j] : Fin 2 → ℝ) k / ∑ k, (![v i, v j] : Fin 2 → ℝ) k)

theorem alterPair_shareAlpha (prec : ℝ) (v : Fin C → ℝ) (i j : Fin C) (t : Fin 2 → ℝ) :
    (alterPair prec v i j t).q = dirichletPdf Finset.univ (shareAlpha prec v i j) t := rfl

theorem drawShare_eq (prec : ℝ) (v : Fin C → ℝ) (i j : Fin C) (H : (Fin 2 → ℝ) → ℝ≥0∞) :
    drawShare prec v i j H = ∫⁻ t, H t ∂dirichletLaw Finset.univ (shareAlpha prec v i j) := rfl

theorem shareAlpha_pos {prec : ℝ} (hp : 0 ≤ prec) {v : Fin C → ℝ} {i j : Fin C} (hi : 0 < v i) (hj : 0 < v j) (k : Fin 2) :
    0 < shareAlpha prec v i j k := by
  unfold shareAlpha
  have : 0 ≤ (![v i, v j] : Fin 2 → ℝ) k / ∑ k, (![v i, v j] : Fin 2 → ℝ) k := by
    rw [Fin.sum_univ_two]
    refine div_nonneg ?_ (add_pos hi hj).le
    fin_cases k
    · exact hi.le
    · exact hj.le
  nlinarith [mul_nonneg hp this]

theorem along_alterPair (prec : ℝ) (v : Fin C → ℝ) (i j : Fin C) (t : ℝ) :
    (alterPair prec v i j ![t, 1 - t]).new = along v i j t := by
  rw [alterPair_new]
  rfl

section
variable {X : Type} [MeasurableSpace X] (L : Lens X (Fin C → ℝ)) {μ : Measure X} [SFinite μ]
  {prec : ℝ} {i j : Fin C} {p : X → ℝ}

/-- What happens for a drawn share. -/
noncomputable def pairH (prec : ℝ) (i j : Fin C) (p : X → ℝ) (g : X → ℝ≥0∞) (x : X) (t : Fin 2 → ℝ) : ℝ≥0∞ :=
  let r := alterPair prec (L.get x) i j t
  let a := acceptProb (p x) (p (L.set x r.new)) r.q r.qBack
  ENNReal.ofReal a * g (L.set x r.new) + ENNReal.ofReal (1 - a) * g x

theorem meas_two {f : X → Fin 2 → ℝ} (h0 : Measurable fun x => f x 0) (h1 : Measurable fun x => f x 1) : Measurable f := by
  rw [measurable_pi_iff]
  intro k
  fin_cases k
  · exact h0
  · exact h1

section meas
variable (hp : Measurable p)
include hp

theorem meas_cur : Measurable fun z : X × (Fin 2 → ℝ) => (![L.get z.1 i, L.get z.1 j] : Fin 2 → ℝ) := by
  have hg : ∀ k, Measurable fun z : X × (Fin 2 → ℝ) => L.get z.1 k := fun k =>
    (measurable_pi_apply k).comp (L.mget.comp measurable_fst)
  exact meas_two (hg i) (hg j)

theorem meas_alter_new : Measurable fun z : X × (Fin 2 → ℝ) => (alterPair prec (L.get z.1) i j z.2).new := by
  have hg : ∀ k, Measurable fun z : X × (Fin 2 → ℝ) => L.get z.1 k := fun k =>
    (measurable_pi_apply k).comp (L.mget.comp measurable_fst)
  have ht : ∀ k, Measurable fun z : X × (Fin 2 → ℝ) => z.2 k := fun k => (measurable_pi_apply k).comp measurable_snd
  simp only [alterPair_new]
  rw [measurable_pi_iff]
  intro k
  simp only [Function.update_apply]
  split
  · exact (ht 1).mul ((hg i).add (hg j))
  · split
    · exact (ht 0).mul ((hg i).add (hg j))
    · exact hg k

theorem meas_share : ∀ k, Measurable fun z : X × (Fin 2 → ℝ) =>
    (![L.get z.1 i, L.get z.1 j] : Fin 2 → ℝ) k / ∑ k, (![L.get z.1 i, L.get z.1 j] : Fin 2 → ℝ) k := by
  have hc := meas_cur L hp (i := i) (j := j)
  rw [measurable_pi_iff] at hc
  exact fun k => (hc k).div (Finset.measurable_fun_sum _ fun k _ => hc k)

theorem meas_alter_q : Measurable fun z : X × (Fin 2 → ℝ) => (alterPair prec (L.get z.1) i j z.2).q := by
  have ht : ∀ k, Measurable fun z : X × (Fin 2 → ℝ) => z.2 k := fun k => (measurable_pi_apply k).comp measurable_snd
  have hs := meas_share L hp (i := i) (j := j)
  exact meas_dirichletPdf_full Finset.univ (fun k => ((hs k).const_mul prec).const_add 1) ht

theorem meas_alter_qBack : Measurable fun z : X × (Fin 2 → ℝ) => (alterPair prec (L.get z.1) i j z.2).qBack := by
  have ht : ∀ k, Measurable fun z : X × (Fin 2 → ℝ) => z.2 k := fun k => (measurable_pi_apply k).comp measurable_snd
  have hs := meas_share L hp (i := i) (j := j)
  exact meas_dirichletPdf_full Finset.univ (fun k => ((ht k).const_mul prec).const_add 1) hs

theorem meas_alter_acc : Measurable fun z : X × (Fin 2 → ℝ) =>
    acceptProb (p z.1) (p (L.set z.1 (alterPair prec (L.get z.1) i j z.2).new)) (alterPair prec (L.get z.1) i j z.2).q
      (alterPair prec (L.get z.1) i j z.2).qBack :=
  meas_acceptProb (hp.comp measurable_fst)
    (hp.comp (L.mset.comp (measurable_fst.prodMk (meas_alter_new L hp)))) (meas_alter_q L hp) (meas_alter_qBack L hp)

theorem meas_pairH {g : X → ℝ≥0∞} (hg : Measurable g) :
    Measurable fun z : X × (Fin 2 → ℝ) => pairH L prec i j p g z.1 z.2 := by
  have ha := meas_alter_acc L hp (prec := prec) (i := i) (j := j)
  exact (ha.ennreal_ofReal.mul (hg.comp (L.mset.comp (measurable_fst.prodMk (meas_alter_new L hp))))).add
    ((ha.const_sub 1).ennreal_ofReal.mul (hg.comp measurable_fst))

attribute [local irreducible] pairH alterPair

theorem measurable_share2 : Measurable fun t : ℝ => (![t, 1 - t] : Fin 2 → ℝ) :=
  meas_two measurable_id (measurable_id.const_sub 1)

open Classical in
theorem pair_law_eq {g : X → ℝ≥0∞} (hg : Measurable g) (x : X) :
    drawShare prec (L.get x) i j (pairH L prec i j p g x) = if ∀ k, 0 < shareAlpha prec (L.get x) i j k then
      ∫⁻ t in Set.Ioo (0 : ℝ) 1, ENNReal.ofReal (alterPair prec (L.get x) i j ![t, 1 - t]).q * pairH L prec i j p g x ![t, 1 - t]
      else 0 := by
  have hx : Measurable (pairH L prec i j p g x) := 
    Measurable.comp (g := fun z : X × (Fin 2 → ℝ) => pairH L prec i j p g z.1 z.2) (meas_pairH L hp hg)
      (measurable_const.prodMk measurable_id)
  rw [drawShare_eq]
  split
  · rename_i h
    simp only [alterPair_shareAlpha]
    exact lintegral_dirichlet_two h hx
  · rename_i h
    have : dirichletLaw Finset.univ (shareAlpha prec (L.get x) i j) = 0 := by
      unfold dirichletLaw
      exact if_neg fun h' => h fun k => h'.2 k (Finset.mem_univ k)
    rw [this, lintegral_zero_measure]

theorem meas_pair_law {g : X → ℝ≥0∞} (hg : Measurable g) :
    Measurable fun x => drawShare prec (L.get x) i j (pairH L prec i j p g x) := by
  classical
  simp only [pair_law_eq L hp hg]
  have hs : ∀ k, Measurable fun x => shareAlpha prec (L.get x) i j k := fun k =>
    (((meas_share L hp (i := i) (j := j) k).const_mul prec).const_add 1).comp (measurable_id.prodMk (measurable_const (a := (0 : Fin 2 → ℝ))))
  have hpair : Measurable fun z : X × ℝ => (z.1, (![z.2, 1 - z.2] : Fin 2 → ℝ)) :=
    measurable_fst.prodMk ((measurable_share2 hp).comp measurable_snd)
  refine Measurable.ite ?_ ?_ measurable_const
  · have : {x | ∀ k, 0 < shareAlpha prec (L.get x) i j k} = ⋂ k, {x | 0 < shareAlpha prec (L.get x) i j k} := by
      ext x; simp
    rw [this]
    exact MeasurableSet.iInter fun k => measurableSet_lt measurable_const (hs k)
  · have h1 : Measurable fun z : X × ℝ => (alterPair prec (L.get z.1) i j ![z.2, 1 - z.2]).q := (meas_alter_q L hp).comp hpair
    have h2 : Measurable fun z : X × ℝ => pairH L prec i j p g z.1 ![z.2, 1 - z.2] :=
      Measurable.comp (g := fun z : X × (Fin 2 → ℝ) => pairH L prec i j p g z.1 z.2) (meas_pairH L hp hg) hpair
    exact Measurable.lintegral_prod_right' (f := fun z : X × ℝ => ENNReal.ofReal (alterPair prec (L.get z.1) i j ![z.2, 1 - z.2]).q *
      pairH L prec i j p g z.1 ![z.2, 1 - z.2]) (h1.ennreal_ofReal.mul h2)

end meas

/-- Redistributing the mass of two entries of a row, with the acceptance step, leaves the density `p` invariant. -/
theorem pair_step (hprec : 0 ≤ prec) (hij : i ≠ j)
    (hR : Refresh μ (volume.restrict (Set.Ioo (0 : ℝ) 1)) fun x t => L.set x (along (L.get x) i j t))
    (hp : Measurable p)
    (hpos : ∀ᵐ x ∂μ, 0 < L.get x i ∧ 0 < L.get x j ∧ ∀ t ∈ Set.Ioo (0 : ℝ) 1, 0 < p (L.set x (along (L.get x) i j t)))
    {g : X → ℝ≥0∞} (hg : Measurable g) :
    ∫⁻ x, ENNReal.ofReal (p x) * drawShare prec (L.get x) i j (pairH L prec i j p g x) ∂μ =
      ∫⁻ x, ENNReal.ofReal (p x) * g x ∂μ := by
  classical
  have hpair : Measurable fun z : X × ℝ => (z.1, (![z.2, 1 - z.2] : Fin 2 → ℝ)) :=
    measurable_fst.prodMk ((measurable_share2 hp).comp measurable_snd)
  have hI : ∀ᵐ t ∂volume.restrict (Set.Ioo (0 : ℝ) 1), t ∈ Set.Ioo (0 : ℝ) 1 := ae_restrict_mem measurableSet_Ioo
  obtain ⟨hq0, hq1⟩ := pair_density_facts prec hprec
  have key := slice_mh hR (fun x => ENNReal.ofReal (p x)) hp.ennreal_ofReal
    (fun x t => ENNReal.ofReal (alterPair prec (L.get x) i j ![t, 1 - t]).q)
    (fun x t => ENNReal.ofReal (acceptProb (p x) (p (L.set x (alterPair prec (L.get x) i j ![t, 1 - t]).new))
      (alterPair prec (L.get x) i j ![t, 1 - t]).q (alterPair prec (L.get x) i j ![t, 1 - t]).qBack))
    (fun x t => ENNReal.ofReal (1 - acceptProb (p x) (p (L.set x (alterPair prec (L.get x) i j ![t, 1 - t]).new))
      (alterPair prec (L.get x) i j ![t, 1 - t]).q (alterPair prec (L.get x) i j ![t, 1 - t]).qBack))
    ((meas_alter_q L hp).comp hpair).ennreal_ofReal ((meas_alter_acc L hp).comp hpair).ennreal_ofReal
    (((meas_alter_acc L hp).comp hpair).const_sub 1).ennreal_ofReal ?_ ?_ g hg
  · rw [← key]
    refine lintegral_congr_ae ?_
    filter_upwards [hpos] with x hx
    rw [pair_law_eq L hp hg, if_pos fun k => shareAlpha_pos hprec hx.1 hx.2.1 k]
    congr 1
    refine lintegral_congr fun t => ?_
    unfold pairH
    dsimp only
    rw [along_alterPair]
  · filter_upwards [hpos] with x hx
    obtain ⟨hi, hj, hpp⟩ := hx
    obtain ⟨a, ha, hav⟩ := two_row hi hj
    have hm : 0 < L.get x i + L.get x j := add_pos hi hj
    have hpx : 0 < p x := by
      have := hpp a ha
      rwa [hav, L.set_get] at this
    rw [← hq1 a ha]
    refine lintegral_congr_ae ?_
    filter_upwards [hI] with t ht
    have hfac := alterPair_q (prec := prec) hij hm a t
    rw [hav] at hfac
    obtain ⟨e1, e2, e3⟩ := hfac
    rw [e1, e2, e3]
    obtain ⟨b0, b1⟩ := accept_mem hpx.le (hpp t ht).le (hq0 a ha t ht).le (hq0 t ht a ha).le
    rw [← ENNReal.ofReal_add b0 (sub_nonneg.mpr b1), add_sub_cancel, ENNReal.ofReal_one, mul_one]
  · filter_upwards [hpos] with x hx
    obtain ⟨hi, hj, hpp⟩ := hx
    have hm : 0 < L.get x i + L.get x j := add_pos hi hj
    filter_upwards [hI] with s hs
    filter_upwards [hI] with t ht
    refine ⟨by rw [L.get_set, L.set_set, along_along _ hij], ?_⟩
    obtain ⟨e1, e2, e3⟩ := alterPair_q (prec := prec) hij hm s t
    obtain ⟨e1', e2', e3'⟩ := alterPair_q (prec := prec) hij hm t s
    simp only [L.get_set, L.set_set]
    rw [e1, e2, e3, e1', e2', e3']
    have h1 := hq0 s hs t ht
    have h2 := hq0 t ht s hs
    rw [← ENNReal.ofReal_mul h1.le, ← ENNReal.ofReal_mul (hpp s hs).le, ← ENNReal.ofReal_mul h2.le, ← ENNReal.ofReal_mul (hpp t ht).le]
    congr 1
    exact accept_balance (hpp s hs) (hpp t ht) h1 h2

end

end SBayes.Meas
