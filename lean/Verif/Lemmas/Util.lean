import Verif.Model.Util
import Mathlib.Algebra.BigOperators.Fin
import Mathlib.Analysis.MeanInequalities
import Mathlib.Tactic.Ring
import Mathlib.Tactic.Linarith
import Mathlib.Tactic.Positivity
import Mathlib.Tactic.FieldSimp
/- Lemmas for Props/Util.lean. -/
namespace SBayes.Util
open scoped BigOperators

/-! ### Maximum likelihood -/

/-- Gibbs' inequality in product form. -/
theorem prod_pow_le {β : Type} [Fintype β] (c : β → ℕ) (p : β → ℝ) (hp : ∀ b, 0 ≤ p b) (hs : ∑ b, p b = 1)
    (hn : 0 < ∑ b, c b) :
    ∏ b, p b ^ c b ≤ ∏ b, ((c b : ℝ) / ∑ b', (c b' : ℝ)) ^ c b := by
  set n : ℝ := ∑ b', (c b' : ℝ) with hndef
  have hn' : 0 < n := by
    rw [hndef, ← Nat.cast_sum]; exact_mod_cast hn
  have hw : ∀ b, 0 ≤ (c b : ℝ) / n := fun b => div_nonneg (Nat.cast_nonneg _) hn'.le
  have hw1 : ∑ b, (c b : ℝ) / n = 1 := by
    rw [← Finset.sum_div]; exact div_self hn'.ne'
  -- the ratios
  have key := Real.geom_mean_le_arith_mean_weighted Finset.univ (fun b => (c b : ℝ) / n)
    (fun b => if c b = 0 then 0 else p b / ((c b : ℝ) / n)) (fun b _ => hw b) hw1
    (fun b _ => by
      split_ifs
      · exact le_rfl
      · exact div_nonneg (hp b) (hw b))
  have hle : ∑ b, (c b : ℝ) / n * (if c b = 0 then 0 else p b / ((c b : ℝ) / n)) ≤ 1 := by
    rw [← hs]
    apply Finset.sum_le_sum
    intro b _
    split_ifs with h
    · rw [mul_zero]; exact hp b
    · have : (c b : ℝ) / n ≠ 0 := div_ne_zero (Nat.cast_ne_zero.mpr h) hn'.ne'
      rw [mul_div_cancel₀ _ this]
  have h1 := key.trans hle
  -- raise to the n-th power
  have h2 : ∏ b, (if c b = 0 then (1 : ℝ) else (p b / ((c b : ℝ) / n)) ^ c b) ≤ 1 := by
    have h3 : (∏ b, (if c b = 0 then (0:ℝ) else p b / ((c b : ℝ) / n)) ^ ((c b : ℝ) / n)) ^ n ≤ 1 := by
      apply Real.rpow_le_one _ h1 hn'.le
      apply Finset.prod_nonneg
      intro b _
      apply Real.rpow_nonneg
      split_ifs
      · exact le_rfl
      · exact div_nonneg (hp b) (hw b)
    rw [← Real.finsetProd_rpow _ _ (fun b _ => by
      apply Real.rpow_nonneg
      split_ifs
      · exact le_rfl
      · exact div_nonneg (hp b) (hw b))] at h3
    refine le_trans (le_of_eq ?_) h3
    apply Finset.prod_congr rfl
    intro b _
    split_ifs with h
    · simp [h]
    · rw [← Real.rpow_mul (div_nonneg (hp b) (hw b)), div_mul_cancel₀ _ hn'.ne', Real.rpow_natCast]
  have h4 : ∏ b, p b ^ c b =
      (∏ b, (if c b = 0 then (1 : ℝ) else (p b / ((c b : ℝ) / n)) ^ c b)) * ∏ b, ((c b : ℝ) / n) ^ c b := by
    rw [← Finset.prod_mul_distrib]
    apply Finset.prod_congr rfl
    intro b _
    split_ifs with h
    · simp [h]
    · have : (c b : ℝ) / n ≠ 0 := div_ne_zero (Nat.cast_ne_zero.mpr h) hn'.ne'
      rw [← mul_pow, div_mul_cancel₀ _ this]
  rw [h4]
  calc _ ≤ 1 * ∏ b, ((c b : ℝ) / n) ^ c b :=
        mul_le_mul_of_nonneg_right h2 (Finset.prod_nonneg fun b _ => pow_nonneg (hw b) _)
    _ = _ := one_mul _

/-! ### Digits -/

theorem nDigitsNat_pos (m : ℕ) : 0 < nDigitsNat m := by
  unfold nDigitsNat
  exact List.length_pos_iff.mpr (Nat.toDigits_ne_nil)

theorem convertor_pos (offset : ℕ) : 0 < convertor offset := by unfold convertor; positivity

theorem nDigits_pos {n : ℤ} (h : n ≠ 0) : nDigits n = nDigitsNat n.natAbs := by
  unfold nDigits lenStr
  rcases lt_trichotomy n 0 with h1 | h1 | h1
  · rw [if_neg (by omega), if_pos h1]; omega
  · exact absurd h1 h
  · rw [if_pos h1, if_neg (by omega)]

theorem nDigits_zero : nDigits 0 = 0 := by decide

/-! ### Rounding -/

/-- The common form of all branches of `round_single_int`. -/
theorem roundSingleInt_form (n : ℤ) (mode : Mode) (position offset : ℤ) (h1 : 1 ≤ position) :
    roundSingleInt n mode position offset =
      if position > nDigits n then none
      else if position = nDigits n then some (if mode = .down then n - offset else n + offset)
      else
        let g : ℤ := 10 ^ (nDigits n - position).toNat
        some (if mode = .down then n / g * g - offset * g else n / g * g + (offset + 1) * g) := by
  unfold roundSingleInt
  dsimp only
  by_cases hp : position > nDigits n
  · rw [if_pos hp, if_pos hp]
  · rw [if_neg hp, if_neg hp]
    by_cases hd1 : nDigits n = 1
    · have : position = nDigits n := by omega
      rw [if_pos hd1, if_pos this]
    · rw [if_neg hd1]
      by_cases hd2 : nDigits n = 2
      · rw [if_pos hd2]
        rcases (by omega : position = 1 ∨ position = 2) with h | h
        · rw [if_pos h, if_neg (show ¬ position = (nDigits n : ℤ) by omega)]
          have : ((nDigits n : ℤ) - position).toNat = 1 := by omega
          rw [this, pow_one]
        · rw [if_neg (show ¬ position = 1 by omega), if_pos h, if_pos (show position = (nDigits n : ℤ) by omega)]
      · rw [if_neg hd2]
        by_cases hpd : position = nDigits n
        · rw [if_neg (by simpa using hpd), if_pos hpd]
        · rw [if_pos hpd, if_neg hpd]

theorem foldl_min_le (l : List ℤ) (x : ℤ) : l.foldl min x ≤ x ∧ ∀ y ∈ l, l.foldl min x ≤ y := by
  induction l generalizing x with
  | nil => simp
  | cons z l ih =>
    rw [List.foldl_cons]
    obtain ⟨h1, h2⟩ := ih (min x z)
    refine ⟨h1.trans (min_le_left _ _), ?_⟩
    intro y hy
    rcases List.mem_cons.mp hy with rfl | hy
    · exact h1.trans (min_le_right _ _)
    · exact h2 y hy

theorem foldl_min_mem (l : List ℤ) (x : ℤ) : l.foldl min x ∈ x :: l := by
  induction l generalizing x with
  | nil => simp
  | cons z l ih =>
    rw [List.foldl_cons]
    have := ih (min x z)
    rcases List.mem_cons.mp this with h | h
    · rw [h]
      rcases min_choice x z with e | e <;> rw [e] <;> simp
    · exact List.mem_cons_of_mem _ (List.mem_cons_of_mem _ h)

theorem foldl_max_real (l : List ℝ) (x : ℝ) : (x ≤ l.foldl max x ∧ ∀ y ∈ l, y ≤ l.foldl max x) ∧ l.foldl max x ∈ x :: l := by
  induction l generalizing x with
  | nil => simp
  | cons z l ih =>
    rw [List.foldl_cons]
    obtain ⟨⟨h1, h2⟩, h3⟩ := ih (max x z)
    refine ⟨⟨(le_max_left _ _).trans h1, ?_⟩, ?_⟩
    · intro y hy
      rcases List.mem_cons.mp hy with rfl | hy
      · exact (le_max_right _ _).trans h1
      · exact h2 y hy
    · rcases List.mem_cons.mp h3 with h | h
      · rw [h]
        rcases max_choice x z with e | e <;> rw [e] <;> simp
      · exact List.mem_cons_of_mem _ (List.mem_cons_of_mem _ h)

theorem foldl_min_real (l : List ℝ) (x : ℝ) : (l.foldl min x ≤ x ∧ ∀ y ∈ l, l.foldl min x ≤ y) ∧ l.foldl min x ∈ x :: l := by
  induction l generalizing x with
  | nil => simp
  | cons z l ih =>
    rw [List.foldl_cons]
    obtain ⟨⟨h1, h2⟩, h3⟩ := ih (min x z)
    refine ⟨⟨h1.trans (min_le_left _ _), ?_⟩, ?_⟩
    · intro y hy
      rcases List.mem_cons.mp hy with rfl | hy
      · exact h1.trans (min_le_right _ _)
      · exact h2 y hy
    · rcases List.mem_cons.mp h3 with h | h
      · rw [h]
        rcases min_choice x z with e | e <;> rw [e] <;> simp
      · exact List.mem_cons_of_mem _ (List.mem_cons_of_mem _ h)

theorem toDigits_length_mono {a b : ℕ} (h : a ≤ b) : nDigitsNat a ≤ nDigitsNat b := by
  unfold nDigitsNat
  induction b using Nat.strongRecOn generalizing a with
  | ind b ih =>
    by_cases hb : b < 10
    · rw [Nat.toDigits_of_lt_base hb, Nat.toDigits_of_lt_base (by omega)]; simp
    · by_cases ha : a < 10
      · rw [Nat.toDigits_of_lt_base ha]
        exact List.length_pos_iff.mpr Nat.toDigits_ne_nil
      · rw [Nat.toDigits_of_base_le (b := 10) (n := a) (by norm_num) (by omega),
          Nat.toDigits_of_base_le (b := 10) (n := b) (by norm_num) (by omega)]
        simp only [List.length_append, List.length_singleton]
        have := ih (b / 10) (by omega) (a := a / 10) (Nat.div_le_div_right h)
        omega

/-! ### The list of sizes -/

theorem flatMap_replicate_getElem? {α : Type} (l : List α) (m : ℕ) (i : ℕ) :
    (l.flatMap (fun x => List.replicate m x))[i]? = if m = 0 then none else l[i / m]? := by
  induction l generalizing i with
  | nil => simp
  | cons x l ih =>
    rw [List.flatMap_cons, List.getElem?_append, List.length_replicate]
    by_cases hm : m = 0
    · subst hm
      simp
    · rw [if_neg hm]
      by_cases hi : i < m
      · rw [if_pos hi, Nat.div_eq_of_lt hi, List.getElem?_replicate, if_pos hi]; rfl
      · rw [if_neg hi, ih, if_neg hm]
        have : i / m = (i - m) / m + 1 := by
          rw [Nat.div_eq_sub_div (by omega) (by omega)]
        rw [this, List.getElem?_cons_succ]

/-! ### Smallest distances -/

theorem mergeSort_real_sorted (l : List ℝ) : (l.mergeSort (fun x y => x ≤ y)).Pairwise (· ≤ ·) := by
  have := List.pairwise_mergeSort (le := fun x y : ℝ => decide (x ≤ y))
    (fun a b c h1 h2 => by simp only [decide_eq_true_eq] at *; linarith)
    (fun a b => by
      simp only [Bool.or_eq_true, decide_eq_true_eq]
      exact le_total a b) l
  exact this.imp (by simp)

end SBayes.Util
