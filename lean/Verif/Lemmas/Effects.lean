import Verif.Lemmas.Continuous
import Verif.Lemmas.Likelihood
import Mathlib.Tactic.Linarith
import Mathlib.Tactic.Positivity
import Mathlib.Tactic.FieldSimp
import Mathlib.Tactic.NormNum
import Mathlib.Data.Fin.VecNotation
import Mathlib.Algebra.Order.BigOperators.Group.Finset
/- Helper lemmas for moves of continuous parameters. -/
namespace SBayes.Effects
open SBayes.Lik SBayes.MH MeasureTheory
open scoped BigOperators ENNReal
variable {N F S C G M : ℕ} {ι : Type}

theorem sum_pair_update [Fintype ι] [DecidableEq ι] (v : ι → ℝ) {i j : ι} (hij : i ≠ j) (x y : ℝ) :
    ∑ k, Function.update (Function.update v i x) j y k = ∑ k, v k - (v i + v j) + (x + y) := by
  rw [Finset.sum_update_of_mem (Finset.mem_univ j)]
  have hi : i ∈ Finset.univ \ {j} := by simp [hij]
  rw [Finset.sum_update_of_mem hi]
  have h1 : ∑ k, v k = v j + ∑ k ∈ Finset.univ \ {j}, v k := by
    rw [Finset.sdiff_singleton_eq_erase, Finset.add_sum_erase _ _ (Finset.mem_univ j)]
  have h2 : ∑ k ∈ Finset.univ \ {j}, v k = v i + ∑ k ∈ (Finset.univ \ {j}) \ {i}, v k := by
    rw [Finset.sdiff_singleton_eq_erase, Finset.sdiff_singleton_eq_erase, Finset.add_sum_erase]
    simpa [Finset.sdiff_singleton_eq_erase] using hi
  rw [h1, h2]; ring

theorem alterPair_new (prec : ℝ) (v : Fin C → ℝ) (i j : Fin C) (t : Fin 2 → ℝ) :
    (alterPair prec v i j t).new =
      Function.update (Function.update v i (t 0 * (v i + v j))) j (t 1 * (v i + v j)) := by
  simp [alterPair, dirichletProposal, Fin.sum_univ_two]

theorem alterPair_sum (prec : ℝ) (v : Fin C → ℝ) {i j : Fin C} (hij : i ≠ j) {t : Fin 2 → ℝ}
    (ht : ∑ k, t k = 1) : ∑ k, (alterPair prec v i j t).new k = ∑ k, v k := by
  rw [alterPair_new, sum_pair_update v hij]
  rw [Fin.sum_univ_two] at ht
  have : t 1 = 1 - t 0 := by linarith
  rw [this]; ring

theorem alterPair_nonneg (prec : ℝ) {v : Fin C → ℝ} (hv : ∀ k, 0 ≤ v k) (i j : Fin C) {t : Fin 2 → ℝ}
    (ht : ∀ k, 0 ≤ t k) (k : Fin C) : 0 ≤ (alterPair prec v i j t).new k := by
  rw [alterPair_new]
  have := add_nonneg (hv i) (hv j)
  simp only [Function.update_apply]
  split
  · exact mul_nonneg (ht 1) this
  · split
    · exact mul_nonneg (ht 0) this
    · exact hv k

theorem alterPair_pos (prec : ℝ) {v : Fin C → ℝ} (hv : ∀ k, 0 < v k) (i j : Fin C) {t : Fin 2 → ℝ}
    (ht : ∀ k, 0 < t k) (k : Fin C) : 0 < (alterPair prec v i j t).new k := by
  rw [alterPair_new]
  have := add_pos (hv i) (hv j)
  simp only [Function.update_apply]
  split
  · exact mul_pos (ht 1) this
  · split
    · exact mul_pos (ht 0) this
    · exact hv k

theorem alterPair_other (prec : ℝ) (v : Fin C → ℝ) (i j : Fin C) (t : Fin 2 → ℝ) {k : Fin C}
    (h1 : k ≠ i) (h2 : k ≠ j) : (alterPair prec v i j t).new k = v k := by
  rw [alterPair_new, Function.update_of_ne h2, Function.update_of_ne h1]

theorem mixPair_eq {v : Fin C → ℝ} {i1 i2 : Fin C} (h : i1 ≠ i2) (hv : ∑ k, v k = 1) (a : ℝ) :
    mixPair v i1 i2 a = Function.update (Function.update v i1 ((1 - a) * (v i1 + v i2))) i2 (a * (v i1 + v i2)) := by
  have hs : ∑ k, Function.update (Function.update v i1 ((1 - a) * (v i1 + v i2))) i2 (a * (v i1 + v i2)) k = 1 := by
    rw [sum_pair_update v h, hv]; ring
  unfold mixPair normalize
  funext k
  rw [hs, div_one]

theorem mixPair_eq_along {v : Fin C → ℝ} {i1 i2 : Fin C} (h : i1 ≠ i2) (hv : ∑ k, v k = 1) (a : ℝ) :
    mixPair v i1 i2 a = along v i2 i1 a := by
  rw [mixPair_eq h hv]
  unfold along
  rw [Function.update_comm h, add_comm (v i1)]

theorem sum_along (v : Fin C → ℝ) {i j : Fin C} (h : i ≠ j) (a : ℝ) : ∑ k, along v i j a k = ∑ k, v k := by
  unfold along; rw [sum_pair_update v h]; ring

theorem along_left (v : Fin C → ℝ) {i j : Fin C} (h : i ≠ j) (a : ℝ) : along v i j a i = a * (v i + v j) := by
  unfold along; rw [Function.update_of_ne h, Function.update_self]

theorem along_right (v : Fin C → ℝ) (i j : Fin C) (a : ℝ) : along v i j a j = (1 - a) * (v i + v j) := by
  unfold along; rw [Function.update_self]

theorem along_other (v : Fin C → ℝ) {i j k : Fin C} (h1 : k ≠ i) (h2 : k ≠ j) (a : ℝ) : along v i j a k = v k := by
  unfold along; rw [Function.update_of_ne h2, Function.update_of_ne h1]

theorem along_along (v : Fin C → ℝ) {i j : Fin C} (h : i ≠ j) (a b : ℝ) : along (along v i j a) i j b = along v i j b := by
  funext k
  have hs : along v i j a i + along v i j a j = v i + v j := by
    rw [along_left v h, along_right]; ring
  by_cases h1 : k = i
  · rw [h1, along_left _ h, hs, along_left _ h]
  · by_cases h2 : k = j
    · rw [h2, along_right, hs, along_right]
    · rw [along_other _ h1 h2, along_other _ h1 h2, along_other _ h1 h2]

theorem along_pos {v : Fin C → ℝ} (hv : ∀ k, 0 < v k) (i j : Fin C) {a : ℝ} (ha : a ∈ Set.Ioo (0:ℝ) 1) (k : Fin C) :
    0 < along v i j a k := by
  unfold along
  have := add_pos (hv i) (hv j)
  have h0 := ha.1
  have h1 : 0 < 1 - a := by linarith [ha.2]
  simp only [Function.update_apply]
  split
  · positivity
  · split
    · positivity
    · exact hv k

theorem measurable_along (v : Fin C → ℝ) (i j k : Fin C) : Measurable fun a => along v i j a k := by
  unfold along
  simp only [Function.update_apply]
  split
  · fun_prop
  · split
    · fun_prop
    · fun_prop

theorem dirichlet_two {α : Fin 2 → ℝ} {b : ℝ} (hb : b ∈ Set.Ioo (0:ℝ) 1) :
    dirichletPdf Finset.univ α ![b, 1 - b] = ProbabilityTheory.betaPDFReal (α 0) (α 1) b := by
  unfold dirichletPdf ProbabilityTheory.betaPDFReal ProbabilityTheory.beta
  rw [if_pos (show 0 < b ∧ b < 1 from hb)]
  simp only [Fin.sum_univ_two, Fin.prod_univ_two, Matrix.cons_val_zero, Matrix.cons_val_one]
  rw [one_div_div]; ring

theorem betaPDFReal_lintegral {α β : ℝ} (hα : 0 < α) (hβ : 0 < β) :
    ∫⁻ b in Set.Ioo (0:ℝ) 1, ENNReal.ofReal (ProbabilityTheory.betaPDFReal α β b) = 1 := by
  rw [← ProbabilityTheory.lintegral_betaPDF_eq_one hα hβ, ProbabilityTheory.lintegral_betaPDF]
  refine setLIntegral_congr_fun measurableSet_Ioo fun b hb => ?_
  try simp only
  rw [ProbabilityTheory.betaPDFReal, if_pos (show 0 < b ∧ b < 1 from hb)]

/-- The Dirichlet move in relative weights: from `a`, the reported densities. -/
theorem alterPair_q {prec : ℝ} {v : Fin C → ℝ} {i j : Fin C} (h : i ≠ j) (hm : 0 < v i + v j) (a b : ℝ) :
    (alterPair prec (along v i j a) i j ![b, 1 - b]).q =
        dirichletPdf Finset.univ (fun k => 1 + prec * (![a, 1 - a] : Fin 2 → ℝ) k) ![b, 1 - b] ∧
      (alterPair prec (along v i j a) i j ![b, 1 - b]).qBack =
        dirichletPdf Finset.univ (fun k => 1 + prec * (![b, 1 - b] : Fin 2 → ℝ) k) ![a, 1 - a] ∧
      (alterPair prec (along v i j a) i j ![b, 1 - b]).new = along v i j b := by
  have hs : along v i j a i + along v i j a j = v i + v j := by
    rw [along_left v h, along_right]; ring
  have hc : (fun k => (![along v i j a i, along v i j a j] : Fin 2 → ℝ) k /
      ∑ k, (![along v i j a i, along v i j a j] : Fin 2 → ℝ) k) = ![a, 1 - a] := by
    funext k
    simp only [Fin.sum_univ_two, Matrix.cons_val_zero, Matrix.cons_val_one]
    rw [hs, along_left v h, along_right]
    fin_cases k <;> simp <;> field_simp
  refine ⟨?_, ?_, ?_⟩
  · simp only [alterPair, dirichletProposal]
    congr 1; funext k; rw [← hc]
  · simp only [alterPair, dirichletProposal]
    rw [← hc]
  · rw [alterPair_new]
    exact along_along v h a b

end SBayes.Effects
