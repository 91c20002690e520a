import Verif.Lemmas.ErgoSource
import Verif.Lemmas.Spread
/- A lower bound for the probability that new weights of two components are accepted. -/
namespace SBayes.Meas
set_option linter.unusedSectionVars false
open SBayes.Lik SBayes.Clusters SBayes.MH SBayes.Source SBayes.Effects SBayes.Posterior SBayes.Draws SBayes.Kernel MeasureTheory
open scoped BigOperators ENNReal

variable {K N F S M C G : ℕ} {nG : Fin M → ℕ}

section Acc
variable {src : Fin N → Fin F → Fin C → Bool} {has : Fin N → Fin C → Bool} {i1 i2 : Fin C}

/-- What two components share is at least as much as before, up to a factor. -/
theorem along_lower {v : Fin C → ℝ} (hv : Row Finset.univ v) {ε : ℝ} (hε : 0 < ε) (h1 : ε ≤ v i1) (h2 : ε ≤ v i2) {t : ℝ}
    (ht : t ∈ Set.Ioo (0 : ℝ) 1) (k : Fin C) : t * (1 - t) * ε * v k ≤ Effects.along v i2 i1 t k := by
  have ht1 : 0 < 1 - t := by linarith [ht.2]
  have hk0 : 0 < v k := hv.pos (Finset.mem_univ k)
  have hk1 := hv.le_one k
  have he1 : ε ≤ 1 := h1.trans (hv.le_one i1)
  have hS : ε ≤ v i2 + v i1 := by linarith
  have hb : t * (1 - t) * ε * v k ≤ t * (1 - t) * ε := by
    have : 0 ≤ t * (1 - t) * ε := by have := ht.1; positivity
    nlinarith
  unfold Effects.along
  by_cases hk : k = i1
  · rw [hk, Function.update_self, ← hk]
    refine hb.trans ?_
    have : (1 - t) * ε ≤ (1 - t) * (v i2 + v i1) := by gcongr
    nlinarith [mul_pos ht1 hε, ht.2]
  rw [Function.update_of_ne hk]
  by_cases hk2 : k = i2
  · rw [hk2, Function.update_self, ← hk2]
    refine hb.trans ?_
    have : t * ε ≤ t * (v i2 + v i1) := by have := ht.1.le; gcongr
    nlinarith [mul_pos ht.1 hε, ht.1]
  rw [Function.update_of_ne hk2]
  have h01 : t * (1 - t) ≤ 1 := by nlinarith [ht.1, ht.2]
  have : t * (1 - t) * ε ≤ 1 := by
    have h0 : 0 ≤ t * (1 - t) := mul_nonneg ht.1.le ht1.le
    nlinarith
  nlinarith

theorem mass_lower (hij : i1 ≠ i2) {v : Fin C → ℝ} (hv : Row Finset.univ v) {ε : ℝ} (hε : 0 < ε) (h1 : ε ≤ v i1) (h2 : ε ≤ v i2) {t : ℝ}
    (ht : t ∈ Set.Ioo (0 : ℝ) 1) (n : Fin N) :
    ε * ∑ c, Effects.along v i2 i1 t c * b2n ℝ (has n c) ≤ ∑ c, v c * b2n ℝ (has n c) := by
  have hv' := hv.along (Finset.mem_univ i2) (Finset.mem_univ i1) hij.symm ht
  have hb : ∀ c, 0 ≤ b2n ℝ (has n c) ∧ b2n ℝ (has n c) ≤ 1 := fun c => by unfold b2n; split <;> norm_num
  have hle : ∑ c, Effects.along v i2 i1 t c * b2n ℝ (has n c) ≤ 1 := by
    rw [← hv'.2]
    refine Finset.sum_le_sum fun c _ => ?_
    have := (hv'.pos (Finset.mem_univ c)).le
    nlinarith [(hb c).1, (hb c).2]
  have hnn : ∀ c, 0 ≤ v c * b2n ℝ (has n c) := fun c => mul_nonneg (hv.pos (Finset.mem_univ c)).le (hb c).1
  have he1 : ε ≤ 1 := h1.trans (hv.le_one i1)
  have key : ∀ i, ε ≤ v i → has n i = true → ε ≤ ∑ c, v c * b2n ℝ (has n c) := by
    intro i hi hh
    have := Finset.single_le_sum (fun c _ => hnn c) (Finset.mem_univ i)
    have e : v i * b2n ℝ (has n i) = v i := by rw [hh]; simp [b2n]
    rw [e] at this
    exact hi.trans this
  by_cases ha : has n i1 = true
  · have := key i1 h1 ha; nlinarith
  by_cases hb' : has n i2 = true
  · have := key i2 h2 hb'; nlinarith
  have hsum : ∑ c, Effects.along v i2 i1 t c * b2n ℝ (has n c) = ∑ c, v c * b2n ℝ (has n c) := by
    refine Finset.sum_congr rfl fun c _ => ?_
    by_cases hc1 : c = i1
    · subst hc1; simp [b2n, ha]
    by_cases hc2 : c = i2
    · subst hc2; simp [b2n, hb']
    unfold Effects.along
    rw [Function.update_of_ne hc1, Function.update_of_ne hc2]
  rw [hsum]
  have : 0 ≤ ∑ c, v c * b2n ℝ (has n c) := Finset.sum_nonneg fun c _ => hnn c
  nlinarith

theorem rowLh_lower (f : Fin F) (h1 : ∀ n f, ∃! c, src n f c = true) (hhas : ∀ n f c, src n f c = true → has n c = true) (hij : i1 ≠ i2)
    {v : Fin C → ℝ} (hv : Row Finset.univ v) {ε : ℝ} (hε : 0 < ε) (he1 : ε ≤ v i1) (he2 : ε ≤ v i2) {t : ℝ} (ht : t ∈ Set.Ioo (0 : ℝ) 1) :
    (t * (1 - t) * ε ^ 2) ^ N * rowLh src has f v ≤ rowLh src has f (Effects.along v i2 i1 t) := by
  have hv' := hv.along (Finset.mem_univ i2) (Finset.mem_univ i1) hij.symm ht
  have ht1 : 0 < 1 - t := by linarith [ht.2]
  have ht0 := ht.1
  have hcard : (t * (1 - t) * ε ^ 2) ^ N = ∏ _n : Fin N, (t * (1 - t) * ε ^ 2) := by simp
  have hterm : ∀ (n : Fin N) (u : Fin C → ℝ) (c : Fin C), src n f c = true →
      ∑ c, (if src n f c then 1 else 0) * normalizeWeights (fun _ : Fin F => u) has n f c = u c / ∑ c, u c * b2n ℝ (has n c) := by
    intro n u c hc
    rw [Finset.sum_eq_single c]
    · rw [if_pos hc, one_mul]
      unfold normalizeWeights
      rw [hhas n f c hc]
      simp [b2n]
    · intro b _ hb
      rw [if_neg fun h => hb ((h1 n f).unique h hc), zero_mul]
    · exact fun h => absurd (Finset.mem_univ _) h
  unfold rowLh sourceLh
  rw [hcard, ← Finset.prod_mul_distrib]
  refine Finset.prod_le_prod (fun n _ => ?_) fun n _ => ?_
  · obtain ⟨c, hc, -⟩ := h1 n f
    rw [hterm n v c hc]
    refine mul_nonneg (by positivity) (div_nonneg (hv.pos (Finset.mem_univ c)).le (Finset.sum_nonneg fun c _ => ?_))
    exact mul_nonneg (hv.pos (Finset.mem_univ c)).le (by unfold b2n; split <;> norm_num)
  · obtain ⟨c, hc, -⟩ := h1 n f
    have hpos : ∀ u : Fin C → ℝ, Row Finset.univ u → 0 < ∑ c, u c * b2n ℝ (has n c) := fun u hu =>
      Finset.sum_pos' (fun c' _ => mul_nonneg (hu.pos (Finset.mem_univ c')).le (by unfold b2n; split <;> norm_num))
        ⟨c, Finset.mem_univ c, by rw [hhas n f c hc]; simpa [b2n] using hu.pos (Finset.mem_univ c)⟩
    rw [hterm n v c hc, hterm n _ c hc, ← mul_div_assoc, div_le_div_iff₀ (hpos v hv) (hpos _ hv')]
    have ha := along_lower hv hε he1 he2 ht c
    have hb := mass_lower (has := has) hij hv hε he1 he2 ht n
    have hd := (hpos v hv).le
    have hd' := (hpos _ hv').le
    have hvc := (hv.pos (Finset.mem_univ c)).le
    calc t * (1 - t) * ε ^ 2 * v c * ∑ c, Effects.along v i2 i1 t c * b2n ℝ (has n c)
        = (t * (1 - t) * ε * v c) * (ε * ∑ c, Effects.along v i2 i1 t c * b2n ℝ (has n c)) := by ring
      _ ≤ Effects.along v i2 i1 t c * ∑ c, v c * b2n ℝ (has n c) := by
          refine mul_le_mul ha hb (mul_nonneg hε.le hd') ?_
          exact (hv'.pos (Finset.mem_univ c)).le

/-- The acceptance ratio is bounded below while both weights are not too small. -/
theorem rowAcc_lower (f : Fin F) (h1 : ∀ n f, ∃! c, src n f c = true) (hhas : ∀ n f c, src n f c = true → has n c = true) (hij : i1 ≠ i2)
    {v : Fin C → ℝ} (hv : Row Finset.univ v) {ε : ℝ} (hε : 0 < ε) (he1 : ε ≤ v i1) (he2 : ε ≤ v i2) {t : ℝ} (ht : t ∈ Set.Ioo (0 : ℝ) 1) :
    (t * (1 - t) * ε ^ 2) ^ N * (ε ^ pairCounts src has i1 i2 f i2 * ε ^ pairCounts src has i1 i2 f i1) ≤ rowAcc src has i1 i2 f v t := by
  have hlh : 0 < rowLh src has f v := sourceLh_pos src h1 has hhas (fun _ => v) f fun c => hv.pos (Finset.mem_univ c)
  have p1 := hv.pos (Finset.mem_univ i1)
  have p2 := hv.pos (Finset.mem_univ i2)
  have ht1 : 0 < 1 - t := by linarith [ht.2]
  have ht0 := ht.1
  have hS1 : v i1 + v i2 ≤ 1 := by
    rw [← hv.2, ← Finset.sum_pair hij]
    exact Finset.sum_le_sum_of_subset_of_nonneg (Finset.subset_univ _) fun k _ _ => (hv.pos (Finset.mem_univ k)).le
  have hS : 0 < v i1 + v i2 := add_pos p1 p2
  have c1 := counts_pos src has i1 i2 f i1
  have c2 := counts_pos src has i1 i2 f i2
  have n1 : 0 ≤ pairCounts src has i1 i2 f i1 := Finset.sum_nonneg fun n _ => by split <;> [split <;> norm_num; norm_num]
  have n2 : 0 ≤ pairCounts src has i1 i2 f i2 := Finset.sum_nonneg fun n _ => by split <;> [split <;> norm_num; norm_num]
  set x := v i2 / (v i1 + v i2) with hx
  have hx0 : 0 < x := div_pos p2 hS
  have hx1 : x < 1 := by rw [hx, div_lt_one hS]; linarith
  have hxe : ε ≤ x := by rw [hx, le_div_iff₀ hS]; nlinarith
  have hxe' : ε ≤ 1 - x := by
    have : 1 - x = v i1 / (v i1 + v i2) := by rw [hx]; field_simp; ring
    rw [this, le_div_iff₀ hS]; nlinarith
  unfold rowAcc
  rw [mixPair_eq_along hij hv.2]
  refine mul_le_mul ?_ ?_ (by positivity) (div_nonneg ?_ hlh.le)
  · rw [le_div_iff₀ hlh]
    exact rowLh_lower f h1 hhas hij hv hε he1 he2 ht
  · rw [le_div_iff₀ (ProbabilityTheory.betaPDFReal_pos ht.1 ht.2 c2 c1)]
    rw [← hx, ProbabilityTheory.betaPDFReal, ProbabilityTheory.betaPDFReal, if_pos ⟨ht.1, ht.2⟩, if_pos ⟨hx0, hx1⟩]
    have hbeta : 0 ≤ 1 / ProbabilityTheory.beta (1 + pairCounts src has i1 i2 f i2) (1 + pairCounts src has i1 i2 f i1) :=
      (one_div_pos.mpr (ProbabilityTheory.beta_pos c2 c1)).le
    simp only [add_sub_cancel_left]
    have a1 : t ^ pairCounts src has i1 i2 f i2 ≤ 1 := Real.rpow_le_one ht.1.le ht.2.le n2
    have a2 : (1 - t) ^ pairCounts src has i1 i2 f i1 ≤ 1 := Real.rpow_le_one ht1.le (by linarith) n1
    have b1 : ε ^ pairCounts src has i1 i2 f i2 ≤ x ^ pairCounts src has i1 i2 f i2 := Real.rpow_le_rpow hε.le hxe n2
    have b2 : ε ^ pairCounts src has i1 i2 f i1 ≤ (1 - x) ^ pairCounts src has i1 i2 f i1 := Real.rpow_le_rpow hε.le hxe' n1
    have q1 : 0 ≤ t ^ pairCounts src has i1 i2 f i2 := Real.rpow_nonneg ht.1.le _
    have q2 : 0 ≤ (1 - t) ^ pairCounts src has i1 i2 f i1 := Real.rpow_nonneg ht1.le _
    have r1 : 0 ≤ ε ^ pairCounts src has i1 i2 f i2 := Real.rpow_nonneg hε.le _
    have r2 : 0 ≤ ε ^ pairCounts src has i1 i2 f i1 := Real.rpow_nonneg hε.le _
    have s1 : t ^ pairCounts src has i1 i2 f i2 * (1 - t) ^ pairCounts src has i1 i2 f i1 ≤ 1 := mul_le_one₀ a1 q2 a2
    have s2 : ε ^ pairCounts src has i1 i2 f i2 * ε ^ pairCounts src has i1 i2 f i1 ≤
        x ^ pairCounts src has i1 i2 f i2 * (1 - x) ^ pairCounts src has i1 i2 f i1 :=
      mul_le_mul b1 b2 r2 (Real.rpow_nonneg hx0.le _)
    set β := 1 / ProbabilityTheory.beta (1 + pairCounts src has i1 i2 f i2) (1 + pairCounts src has i1 i2 f i1)
    calc ε ^ pairCounts src has i1 i2 f i2 * ε ^ pairCounts src has i1 i2 f i1 *
          (β * t ^ pairCounts src has i1 i2 f i2 * (1 - t) ^ pairCounts src has i1 i2 f i1)
        = β * (ε ^ pairCounts src has i1 i2 f i2 * ε ^ pairCounts src has i1 i2 f i1) *
          (t ^ pairCounts src has i1 i2 f i2 * (1 - t) ^ pairCounts src has i1 i2 f i1) := by ring
      _ ≤ β * (ε ^ pairCounts src has i1 i2 f i2 * ε ^ pairCounts src has i1 i2 f i1) * 1 :=
          mul_le_mul_of_nonneg_left s1 (mul_nonneg hbeta (mul_nonneg r1 r2))
      _ ≤ β * (x ^ pairCounts src has i1 i2 f i2 * (1 - x) ^ pairCounts src has i1 i2 f i1) := by
          rw [mul_one]; exact mul_le_mul_of_nonneg_left s2 hbeta
      _ = β * x ^ pairCounts src has i1 i2 f i2 * (1 - x) ^ pairCounts src has i1 i2 f i1 := by ring
  · exact (sourceLh_pos src h1 has hhas (fun _ => Effects.along v i2 i1 t) f fun c =>
      (hv.along (Finset.mem_univ i2) (Finset.mem_univ i1) hij.symm ht).pos (Finset.mem_univ c)).le

/-- Among some of the weights there is one that is not too small. -/
theorem exists_large {B : Finset (Fin C)} (hB : B.Nonempty) (v : Fin C → ℝ) {s : ℝ} (hs : s ≤ ∑ k ∈ B, v k) :
    ∃ i ∈ B, s / C ≤ v i ∨ s < 0 := by
  by_contra h
  push Not at h
  obtain ⟨i0, hi0⟩ := hB
  have hs0 : 0 ≤ s := (h i0 hi0).2
  have hC : (0 : ℝ) < C := by
    have : 0 < C := i0.pos
    exact_mod_cast this
  have h1 : ∑ k ∈ B, v k < ∑ _k ∈ B, s / C := Finset.sum_lt_sum_of_nonempty ⟨i0, hi0⟩ fun k hk => (h k hk).1
  rw [Finset.sum_const, nsmul_eq_mul] at h1
  have h2 : (B.card : ℝ) ≤ C := by
    have := Finset.card_le_univ B
    rw [Fintype.card_fin] at this
    exact_mod_cast this
  have h3 : (B.card : ℝ) * (s / C) ≤ C * (s / C) := mul_le_mul_of_nonneg_right h2 (div_nonneg hs0 hC.le)
  have h4 : (C : ℝ) * (s / C) = s := by field_simp
  linarith

end Acc

end SBayes.Meas
