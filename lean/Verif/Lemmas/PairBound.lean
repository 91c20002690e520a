import Verif.Lemmas.Tame
import Verif.Lemmas.ContRows
import Verif.Lemmas.ErgoAlter
/- A lower bound for the probability that two entries of a row are redistributed. -/
namespace SBayes.Meas
set_option linter.unusedSectionVars false
open SBayes.Lik SBayes.Clusters SBayes.MH SBayes.Source SBayes.Effects SBayes.Posterior SBayes.Draws SBayes.Kernel MeasureTheory
open scoped BigOperators ENNReal

variable {K N F S M C G : ℕ} {nG : Fin M → ℕ} {m : Setup K N F S M nG}

/-! ### The density of a new share -/

/-- The density of the share `t` if the share is `a` now. -/
noncomputable def shareDens (prec a t : ℝ) : ℝ := dirichletPdf Finset.univ (fun k => 1 + prec * (![a, 1 - a] : Fin 2 → ℝ) k) ![t, 1 - t]

theorem shareDens_eq (prec a t : ℝ) : shareDens prec a t =
    Real.Gamma (1 + prec * a + (1 + prec * (1 - a))) / (Real.Gamma (1 + prec * a) * Real.Gamma (1 + prec * (1 - a))) *
      (t ^ (prec * a) * (1 - t) ^ (prec * (1 - a))) := by
  unfold shareDens dirichletPdf
  simp [Fin.sum_univ_two, Fin.prod_univ_two]

theorem gamma_cont {s : Set (ℝ × ℝ)} {h : ℝ × ℝ → ℝ} (hh : Continuous h) (hp : ∀ x ∈ s, 0 < h x) : ContinuousOn (fun x => Real.Gamma (h x)) s := by
  intro x hx
  have hd : DifferentiableAt ℝ Real.Gamma (h x) := Real.differentiableAt_Gamma fun n hn => by
    have := hp x hx
    rw [hn] at this
    have : (0 : ℝ) ≤ n := Nat.cast_nonneg n
    linarith
  exact (hd.continuousAt.comp hh.continuousAt).continuousWithinAt

/-- The density is bounded below away from 0 and 1. -/
theorem shareDens_lower {prec : ℝ} (hp : 0 ≤ prec) {ε : ℝ} (hε : 0 < ε) : ∃ δ : ℝ, 0 < δ ∧
    ∀ a ∈ Set.Icc ε (1 - ε), ∀ t ∈ Set.Icc ε (1 - ε), δ ≤ shareDens prec a t := by
  set s : Set (ℝ × ℝ) := Set.Icc ε (1 - ε) ×ˢ Set.Icc ε (1 - ε) with hs
  have hc : IsCompact s := isCompact_Icc.prod isCompact_Icc
  have h01 : ∀ x ∈ s, 0 < x.1 ∧ 0 < 1 - x.1 ∧ 0 < x.2 ∧ 0 < 1 - x.2 := by
    rintro x ⟨h1, h2⟩
    exact ⟨hε.trans_le h1.1, by linarith [h1.2], hε.trans_le h2.1, by linarith [h2.2]⟩
  have hg : ∀ x ∈ s, 0 < 1 + prec * x.1 ∧ 0 < 1 + prec * (1 - x.1) := fun x hx =>
    ⟨by have := mul_nonneg hp (h01 x hx).1.le; linarith, by have := mul_nonneg hp (h01 x hx).2.1.le; linarith⟩
  have hcont : ContinuousOn (fun x : ℝ × ℝ => shareDens prec x.1 x.2) s := by
    simp only [shareDens_eq]
    refine ContinuousOn.mul (ContinuousOn.div (gamma_cont (by fun_prop) fun x hx => add_pos (hg x hx).1 (hg x hx).2)
      ((gamma_cont (by fun_prop) fun x hx => (hg x hx).1).mul (gamma_cont (by fun_prop) fun x hx => (hg x hx).2)) fun x hx => ?_) ?_
    · exact (mul_pos (Real.Gamma_pos_of_pos (hg x hx).1) (Real.Gamma_pos_of_pos (hg x hx).2)).ne'
    · refine ContinuousOn.mul (ContinuousOn.rpow (by fun_prop) (by fun_prop) fun x hx => Or.inl (h01 x hx).2.2.1.ne')
        (ContinuousOn.rpow (by fun_prop) (by fun_prop) fun x hx => Or.inl (h01 x hx).2.2.2.ne')
  have hpos : ∀ x ∈ s, 0 < shareDens prec x.1 x.2 := by
    intro x hx
    rw [shareDens_eq]
    obtain ⟨g1, g2⟩ := hg x hx
    obtain ⟨-, -, t1, t2⟩ := h01 x hx
    exact mul_pos (div_pos (Real.Gamma_pos_of_pos (add_pos g1 g2)) (mul_pos (Real.Gamma_pos_of_pos g1) (Real.Gamma_pos_of_pos g2)))
      (mul_pos (Real.rpow_pos_of_pos t1 _) (Real.rpow_pos_of_pos t2 _))
  by_cases hne : s.Nonempty
  · obtain ⟨x, hx, hmin⟩ := hc.exists_isMinOn hne hcont
    exact ⟨_, hpos x hx, fun a ha t ht => hmin (a := (a, t)) ⟨ha, ht⟩⟩
  · exact ⟨1, one_pos, fun a ha t ht => absurd ⟨(a, t), ha, ht⟩ hne⟩

/-! ### The posterior -/

/-- Two interior points whose entries differ at most by a factor. -/
def Near (app : Fin F → Fin S → Bool) (l : ℝ) (x y : Cont K F S M nG) : Prop := Interior app x ∧ Interior app y ∧
  ∀ (b : RIdx K F M nG) k, l * (rowLen b).get x k ≤ (rowLen b).get y k ∧ l * (rowLen b).get y k ≤ (rowLen b).get x k

theorem Near.symm {app : Fin F → Fin S → Bool} (l : ℝ) (x y : Cont K F S M nG) (h : Near app l x y) : Near app l y x :=
  ⟨h.2.1, h.1, fun b k => ⟨(h.2.2 b k).2, (h.2.2 b k).1⟩⟩

theorem Row.nonneg {A : Finset (Fin C)} {v : Fin C → ℝ} (h : Row A v) (k : Fin C) : 0 ≤ v k := by
  by_cases hk : k ∈ A
  · exact (h.pos hk).le
  · rw [h.zero hk]

/-- The posterior changes at most by a factor between points that are near each other. -/
theorem post0_near (hm : WellPosed m) (hs : m.cfg.sampleSource = false) (l : ℝ) (hl : 0 < l) : ∃ k : ℝ, 0 < k ∧
    ∀ z : Clus K N, Valid m.cl.minSize m.cl.maxSize z → ∀ x y, Near m.cfg.app l x y → k * post0 m (z, x) ≤ post0 m (z, y) := by
  classical
  have hw : ∀ f c, Tame (Near m.cfg.app) fun θ : Cont K F S M nG => θ.1 f c := fun f c l hl =>
    ⟨l, hl, fun x y h => ⟨(h.1.w f).nonneg c, (h.2.2 (.inl f) c).1⟩⟩
  have he : ∀ k f s, Tame (Near m.cfg.app) fun θ : Cont K F S M nG => θ.2.1 k f s := fun k f s l hl =>
    ⟨l, hl, fun x y h => ⟨(h.1.e k f).nonneg s, (h.2.2 (.inr (.inl (k, f))) s).1⟩⟩
  have hce : ∀ i g f s, Tame (Near m.cfg.app) fun θ : Cont K F S M nG => θ.2.2 i g f s := fun i g f s l hl =>
    ⟨l, hl, fun x y h => ⟨(h.1.ce i g f).nonneg s, (h.2.2 (.inr (.inr (⟨i, g⟩, f))) s).1⟩⟩
  have key : ∀ z : Clus K N, Tame (Near m.cfg.app) fun θ : Cont K F S M nG =>
      (∏ n, ∏ f, ∑ i, normalizeWeights θ.1 (hasComponents m.d z) n f i * componentLh m.d θ.2.1 θ.2.2 z n f i) *
      (clusterTerm m z * (∏ i, ∏ g, confEffectPrior m.cfg.app (m.cfg.conf i g) (θ.2.2 i g))) := by
    intro z
    refine Tame.mul (Tame.prod fun n _ => Tame.prod fun f _ => Tame.sum fun i _ =>
      (tame_normalizeWeights Near.symm hw _ n f i).mul (tame_componentLh m.d he hce z n f i)) ?_
    exact Tame.mul (tame_const (clusterTerm_pos m z).le) (Tame.prod fun i _ => Tame.prod fun g _ =>
      tame_conf Near.symm hce m.cfg.app hm.hasState (fun c g a h => hm.conc c g a h) i g)
  choose k hk h using fun z => key z l hl
  have hfin : (Finset.univ : Finset (Clus K N)).Nonempty := ⟨fun _ _ => false, Finset.mem_univ _⟩
  refine ⟨Finset.univ.inf' hfin k, (Finset.lt_inf'_iff hfin).mpr fun z _ => hk z, fun z hz x y hxy => ?_⟩
  rw [post0_eq hm hs hz, post0_eq hm hs hz]
  obtain ⟨h1, h2⟩ := h z x y hxy
  exact (mul_le_mul_of_nonneg_right (Finset.inf'_le k (Finset.mem_univ z)) h1).trans h2

/-- New shares that are not extreme lead to a near point. -/
theorem near_along (hst : ∀ f, ∃ s, m.cfg.app f s = true) {b : RIdx K F M nG} {i j : Fin (rowC S b)} (hi : i ∈ rowSup m.cfg.app b)
    (hj : j ∈ rowSup m.cfg.app b) (hij : i ≠ j) {c : Cont K F S M nG} (hc : Interior m.cfg.app c) {ε : ℝ} (hε : 0 < ε)
    (h1 : ε ≤ (rowLen b).get c i) (h2 : ε ≤ (rowLen b).get c j) {t : ℝ} (ht : t ∈ Set.Icc (1 / 4 : ℝ) (3 / 4)) :
    Near m.cfg.app (ε / 4) c ((rowLen b).set c (along ((rowLen b).get c) i j t)) := by
  have hci : c ∈ (contRows (K := K) (M := M) (nG := nG) m.cfg.app hst).Int := mem_int.mpr hc
  have hrow : Row (rowSup m.cfg.app b) ((rowLen b).get c) := hci b
  have ht01 : t ∈ Set.Ioo (0 : ℝ) 1 := ⟨by linarith [ht.1], by linarith [ht.2]⟩
  have hrow' := hrow.along hi hj hij ht01
  have hnew : (rowLen b).set c (along ((rowLen b).get c) i j t) ∈ (contRows (K := K) (M := M) (nG := nG) m.cfg.app hst).Int :=
    Rows.set_int hci b hrow'
  refine ⟨hc, mem_int.mp hnew, fun b' k => ?_⟩
  have hε1 : ε ≤ 1 := h1.trans (hrow.le_one i)
  by_cases hb : b' = b
  · subst hb
    rw [(rowLen b').get_set]
    set v := (rowLen b').get c with hv
    have hvi : 0 < v i := hε.trans_le h1
    have hvj : 0 < v j := hε.trans_le h2
    have hsum : v i + v j ≤ 1 := by
      rw [← hrow.2]
      exact Finset.add_le_sum (fun k _ => hrow.nonneg k) (Finset.mem_univ i) (Finset.mem_univ j) hij
    by_cases hkj : k = j
    · subst hkj
      rw [along_right]
      constructor
      · nlinarith [ht.2]
      · have : (1 - t) * (v i + v k) ≤ 1 := by nlinarith [ht.1, ht.2]
        nlinarith
    by_cases hki : k = i
    · subst hki
      rw [along_left v hij]
      constructor
      · nlinarith [ht.1]
      · have : t * (v k + v j) ≤ 1 := by nlinarith [ht.1, ht.2]
        nlinarith
    · have e : along v i j t k = v k := by
        unfold along
        rw [Function.update_of_ne hkj, Function.update_of_ne hki]
      rw [e]
      have := hrow.nonneg k
      constructor <;> nlinarith
  · rw [(row_indep b' b hb).get]
    have : 0 ≤ (rowLen b').get c k := Row.nonneg (hci b') k
    constructor <;> nlinarith

/-! ### The move -/

/-- The precision of the proposal for a row. -/
def rowPrec : RIdx K F M nG → ℝ
  | .inl _ => 30
  | .inr (.inl _) => 20
  | .inr (.inr _) => 10

theorem rowPrec_nonneg (b : RIdx K F M nG) : 0 ≤ rowPrec b := by
  rcases b with f | p | p <;> norm_num [rowPrec]

theorem pairOk_row {b : RIdx K F M nG} {i j : Fin (rowC S b)} (hi : i ∈ rowSup m.cfg.app b) (hj : j ∈ rowSup m.cfg.app b) (hij : i ≠ j) :
    PairOk m (rowLen b) i j := by
  rcases b with f | ⟨k, f⟩ | ⟨⟨a, g⟩, f⟩
  · exact pairOk_w f hij
  · exact pairOk_e k f hij (mem_states.mp hi) (mem_states.mp hj)
  · exact pairOk_ce a g f hij (mem_states.mp hi) (mem_states.mp hj)

/-- The probability to stay. -/
noncomputable def pairStay (m : Setup K N F S M nG) (b : RIdx K F M nG) (i j : Fin (rowC S b)) (z : Clus K N) (c : Cont K F S M nG) : ℝ≥0∞ :=
  ∫⁻ t in Set.Ioo (0 : ℝ) 1, ENNReal.ofReal (pairQ (rowLen b) (rowPrec b) i j c t) *
    ENNReal.ofReal (1 - pairAcc m (rowLen b) (rowPrec b) i j z c t)

section
variable {L : Lens (Cont K F S M nG) (Fin C → ℝ)} {prec : ℝ} {i j : Fin C}

/-- The rate of moves to a new share is bounded below. -/
theorem pair_rate (hm : WellPosed m) (hs : m.cfg.sampleSource = false) (hprec : 0 ≤ prec) (ho : PairOk m L i j) {c : Cont K F S M nG}
    (hc : Interior m.cfg.app c) {z : Clus K N} (hz : Valid m.cl.minSize m.cl.maxSize z) {ε δ k : ℝ} (hε : 0 < ε) (hδ : 0 ≤ δ) (hk : 0 ≤ k)
    (hd : ∀ a ∈ Set.Icc (ε / 4) (1 - ε / 4), ∀ t ∈ Set.Icc (ε / 4) (1 - ε / 4), δ ≤ shareDens prec a t)
    (h1 : ε ≤ L.get c i) (h2 : ε ≤ L.get c j) (hle : L.get c i + L.get c j ≤ 1) {t : ℝ} (ht : t ∈ Set.Icc (1 / 4 : ℝ) (3 / 4))
    (hp : k * post0 m (z, c) ≤ post0 m (z, L.set c (along (L.get c) i j t))) :
    min 1 k * δ ≤ pairQ L prec i j c t * pairAcc m L prec i j z c t := by
  have hi : 0 < L.get c i := hε.trans_le h1
  have hj : 0 < L.get c j := hε.trans_le h2
  have hsum : 0 < L.get c i + L.get c j := add_pos hi hj
  have hε1 : ε ≤ 1 := by linarith
  obtain ⟨-, -, h3⟩ := ho.pos c hc
  have ht01 : t ∈ Set.Ioo (0 : ℝ) 1 := ⟨by linarith [ht.1], by linarith [ht.2]⟩
  set a := L.get c i / (L.get c i + L.get c j) with ha
  have hav : along (L.get c) i j a = L.get c := by
    unfold along
    have e1 : a * (L.get c i + L.get c j) = L.get c i := by rw [ha]; field_simp
    have e2 : (1 - a) * (L.get c i + L.get c j) = L.get c j := by rw [sub_mul, e1]; ring
    rw [e1, e2, Function.update_eq_self, Function.update_eq_self]
  have ha1 : ε ≤ a := by
    rw [ha, le_div_iff₀ hsum]
    nlinarith
  have ha2 : a ≤ 1 - ε := by
    rw [ha, div_le_iff₀ hsum]
    nlinarith
  have hfac := alterPair_q (prec := prec) ho.ne hsum a t
  rw [hav] at hfac
  have q1 : δ ≤ shareDens prec a t := hd a ⟨by linarith, by linarith⟩ t ⟨by linarith [ht.1], by linarith [ht.2]⟩
  have q2 : δ ≤ shareDens prec t a := hd t ⟨by linarith [ht.1], by linarith [ht.2]⟩ a ⟨by linarith, by linarith⟩
  have p3 := post0_pos hm hs hz hc
  have p4 := post0_pos hm hs hz (h3 t ht01)
  obtain ⟨hq0, -⟩ := pair_density_facts prec hprec
  have haI : a ∈ Set.Ioo (0 : ℝ) 1 := ⟨by linarith, by linarith⟩
  have d1 : 0 < shareDens prec a t := hq0 a haI t ht01
  have d2 : 0 < shareDens prec t a := hq0 t ht01 a haI
  have e : pairQ L prec i j c t * pairAcc m L prec i j z c t =
      min (shareDens prec a t) (post0 m (z, L.set c (along (L.get c) i j t)) / post0 m (z, c) * shareDens prec t a) := by
    unfold pairQ pairAcc
    rw [hfac.1, hfac.2.1]
    change shareDens prec a t * acceptProb _ _ (shareDens prec a t) (shareDens prec t a) = _
    unfold acceptProb
    rw [if_neg d2.ne', if_neg d1.ne', mul_min_of_nonneg _ _ d1.le, mul_one]
    congr 1
    field_simp
  rw [e]
  refine le_min ?_ ?_
  · calc min 1 k * δ ≤ 1 * δ := mul_le_mul_of_nonneg_right (min_le_left _ _) hδ
      _ ≤ _ := by rw [one_mul]; exact q1
  · have hr : k ≤ post0 m (z, L.set c (along (L.get c) i j t)) / post0 m (z, c) := by rwa [le_div_iff₀ p3]
    calc min 1 k * δ ≤ k * δ := mul_le_mul_of_nonneg_right (min_le_right _ _) hδ
      _ ≤ _ := mul_le_mul hr q2 hδ (hk.trans hr)

end

attribute [local irreducible] alterPair pairQ pairAcc

/-- Redistributing two entries of a row is a step of the kind considered. -/
theorem pairLaw (hm : WellPosed m) (hs : m.cfg.sampleSource = false) {b : RIdx K F M nG} {i j : Fin (rowC S b)}
    (hi : i ∈ rowSup m.cfg.app b) (hj : j ∈ rowSup m.cfg.app b) (hij : i ≠ j) :
    PairLaw (contRows m.cfg.app hm.hasState) (fun z : Clus K N => Valid m.cl.minSize m.cl.maxSize z) b i j
      (pairMove m (rowLen b) (rowPrec b) (i, j)) (pairStay m b i j) := by
  have ho := pairOk_row hi hj hij
  have hprec := rowPrec_nonneg b
  have hQ : ∀ c, Measurable fun t => pairQ (rowLen b) (rowPrec b) i j c t := fun c =>
    Measurable.comp (g := fun x : Cont K F S M nG × ℝ => pairQ (rowLen b) (rowPrec b) i j x.1 x.2) meas_pairQ (measurable_const.prodMk measurable_id)
  have hA : ∀ z c, Measurable fun t => pairAcc m (rowLen b) (rowPrec b) i j z c t := fun z c =>
    Measurable.comp (g := fun x : Cont K F S M nG × ℝ => pairAcc m (rowLen b) (rowPrec b) i j z x.1 x.2) (meas_pairAcc z)
      (measurable_const.prodMk measurable_id)
  have m1 : ∀ z c, Measurable fun t => ENNReal.ofReal (pairQ (rowLen b) (rowPrec b) i j c t) *
      ENNReal.ofReal (pairAcc m (rowLen b) (rowPrec b) i j z c t) := fun z c => (hQ c).ennreal_ofReal.mul (hA z c).ennreal_ofReal
  have m2 : ∀ z c, Measurable fun t => ENNReal.ofReal (pairQ (rowLen b) (rowPrec b) i j c t) *
      ENNReal.ofReal (1 - pairAcc m (rowLen b) (rowPrec b) i j z c t) := fun z c => (hQ c).ennreal_ofReal.mul ((hA z c).const_sub 1).ennreal_ofReal
  have htot : ∀ z : Clus K N, Valid m.cl.minSize m.cl.maxSize z → ∀ c, Interior m.cfg.app c →
      (∫⁻ t in Set.Ioo (0 : ℝ) 1, ENNReal.ofReal (pairQ (rowLen b) (rowPrec b) i j c t) *
        ENNReal.ofReal (pairAcc m (rowLen b) (rowPrec b) i j z c t)) + pairStay m b i j z c = 1 := by
    intro z hz c hc
    obtain ⟨h1, h2⟩ := pair_facts hm hs hprec ho hc hz
    unfold pairStay
    rw [← lintegral_add_left (m1 z c), ← h2]
    refine setLIntegral_congr_fun measurableSet_Ioo fun t ht => ?_
    obtain ⟨-, h3, h4⟩ := h1 t ht
    rw [← mul_add, ← ENNReal.ofReal_add h3.le (sub_nonneg.mpr h4), add_sub_cancel, ENNReal.ofReal_one, mul_one]
  refine ⟨hij, hi, hj, fun z hz c hc => ?_, fun ε hε => ?_⟩
  · refine ⟨_, m1 z c, htot z hz c (mem_int.mp hc), fun s hsm => ?_⟩
    rw [pairMove_eq hprec ho (mem_int.mp hc) z hsm]
    unfold pairStay
    rw [← lintegral_mul_const _ (m2 z c)]
    have hφ : Measurable fun t => (z, (rowLen b).set c (along ((rowLen b).get c) i j t)) :=
      measurable_const.prodMk (ho.refresh.1.comp (measurable_const.prodMk measurable_id))
    have hsφ : Measurable fun t => s (z, (rowLen b).set c (along ((rowLen b).get c) i j t)) := hsm.comp hφ
    refine Eq.trans ?_ (lintegral_add_left ((m1 z c).mul hsφ) _)
    refine lintegral_congr fun t => ?_
    simp only [Pi.mul_apply]
    ring
  · obtain ⟨δ, hδ, hd⟩ := shareDens_lower hprec (show 0 < ε / 4 by linarith)
    obtain ⟨k, hk, hp⟩ := post0_near hm hs (ε / 4) (by linarith)
    refine ⟨ENNReal.ofReal (min 1 k * δ) * ENNReal.ofReal (1 / 2), mul_ne_zero
      (ENNReal.ofReal_pos.mpr (mul_pos (lt_min one_pos hk) hδ)).ne' (ENNReal.ofReal_pos.mpr (by norm_num)).ne', fun z hz c hc h1 h2 => ?_⟩
    have hci := mem_int.mp hc
    have hrow : Row (rowSup m.cfg.app b) ((rowLen b).get c) := hc b
    have hle : (rowLen b).get c i + (rowLen b).get c j ≤ 1 := by
      rw [← hrow.2]
      exact Finset.add_le_sum (fun k _ => hrow.nonneg k) (Finset.mem_univ i) (Finset.mem_univ j) hij
    rw [← htot z hz c hci, add_comm]
    refine add_le_add ?_ le_rfl
    have hsub : Set.Icc (1 / 4 : ℝ) (3 / 4) ⊆ Set.Ioo 0 1 := fun t ht => ⟨by linarith [ht.1], by linarith [ht.2]⟩
    refine le_trans ?_ (lintegral_mono_set hsub)
    have hv : volume (Set.Icc (1 / 4 : ℝ) (3 / 4)) = ENNReal.ofReal (1 / 2) := by rw [Real.volume_Icc]; norm_num
    rw [← hv, ← setLIntegral_const]
    refine setLIntegral_mono (m1 z c) fun t ht => ?_
    have hq0 := ((pair_facts hm hs hprec ho hci hz).1 t (hsub ht)).1
    rw [← ENNReal.ofReal_mul hq0.le]
    refine ENNReal.ofReal_le_ofReal ?_
    exact pair_rate hm hs hprec ho hci hz hε hδ.le hk.le hd h1 h2 hle ht
      (hp z hz _ _ (near_along hm.hasState hi hj hij hci hε h1 h2 ht))

end SBayes.Meas
