import Verif.Lemmas.Rounding
import Verif.Spec.RoundingDraw
import Mathlib.Tactic.NormNum
import Mathlib.Tactic.FieldSimp
/- Lemmas about draws from rounded distributions. -/
namespace SBayes.Rounding
open SBayes.Lik
open scoped BigOperators

variable {u v : ℝ} {N F S G C K M : ℕ}

theorem cumsum_zero (A : Arith u v) (p : Fin (M + 1) → ℝ) : cumsum A p 0 = p 0 := rfl

theorem cumsum_succ (A : Arith u v) (p : Fin (M + 1) → ℝ) (k : Fin M) :
    cumsum A p k.succ = A.add (cumsum A p k.castSucc) (p k.succ) := rfl

theorem exact_zero (p : Fin (M + 1) → ℝ) : Source.cumsum p 0 = p 0 := by
  unfold Source.cumsum
  rw [show (Finset.Iic (0 : Fin (M + 1))) = {0} from by
    ext a; simp]
  simp

theorem exact_succ (p : Fin (M + 1) → ℝ) (k : Fin M) :
    Source.cumsum p k.succ = Source.cumsum p k.castSucc + p k.succ := by
  unfold Source.cumsum
  have : (Finset.Iic k.succ) = insert k.succ (Finset.Iic k.castSucc) := by
    ext a
    simp only [Finset.mem_Iic, Finset.mem_insert, Fin.le_def, Fin.ext_iff, Fin.val_succ, Fin.val_castSucc]
    omega
  rw [this, Finset.sum_insert, add_comm]
  simp [Fin.le_def]

theorem cumsum_within (A : Arith u v) (hu : 0 ≤ u) (hu1 : u < 1) {j : ℕ} {p p' : Fin (M + 1) → ℝ}
    (h : ∀ k, Within u j (p k) (p' k)) (k : Fin (M + 1)) :
    Within u (j + k) (Source.cumsum p k) (cumsum A p' k) := by
  induction k using Fin.induction with
  | zero => rw [exact_zero, cumsum_zero]; simpa using h 0
  | succ k ih =>
    rw [exact_succ, cumsum_succ]
    have h1 : Within u (j + k.castSucc) (p k.succ) (p' k.succ) := (h k.succ).mono hu hu1 (by omega)
    have h2 := ih.add h1
    have h3 := h2.trans hu1 (Within.of_err hu hu1 h2.2.1 (A.add_err _ _))
    simpa [Nat.add_assoc] using h3

theorem argmaxBool_eq {b : Fin (M + 1) → Bool} {k : Fin (M + 1)} (hk : b k = true)
    (h : ∀ j < k, b j = false) : Source.argmaxBool b = k := by
  unfold Source.argmaxBool
  have : (List.finRange (M + 1)).find? b = some k := by
    rw [List.find?_eq_some_iff_getElem]
    refine ⟨hk, k, by simp; omega, by simp, fun j hj => ?_⟩
    simp only [List.getElem_finRange, Bool.not_eq_eq_eq_not, Bool.not_true]
    exact h _ (by simp [Fin.lt_def]; exact hj)
  rw [this]; rfl

theorem argmaxBool_none {b : Fin (M + 1) → Bool} (h : ∀ j, b j = false) : Source.argmaxBool b = 0 := by
  unfold Source.argmaxBool
  have : (List.finRange (M + 1)).find? b = none := by
    rw [List.find?_eq_none]; intro x _; simp [h x]
  rw [this]; rfl

theorem argmaxBool_spec (b : Fin (M + 1) → Bool) :
    (b (Source.argmaxBool b) = true ∧ ∀ j < Source.argmaxBool b, b j = false) ∨
      (Source.argmaxBool b = 0 ∧ ∀ j, b j = false) := by
  by_cases h : ∃ k, b k = true
  · left
    classical
    let k := Fin.find (fun k => b k = true) h
    have hk : b k = true := Fin.find_spec h
    have hm : ∀ j < k, b j = false := fun j hj => by
      rw [Bool.eq_false_iff]; exact Fin.find_min h hj
    rw [argmaxBool_eq hk hm]; exact ⟨hk, hm⟩
  · right
    have : ∀ j, b j = false := fun j => by rw [Bool.eq_false_iff]; exact fun hj => h ⟨j, hj⟩
    exact ⟨argmaxBool_none this, this⟩

theorem sourceLaw_within (A : Machine u v) (hu : 0 ≤ u) (hu1 : u < 1)
    {w w' lh : Fin N → Fin F → Fin (M + 1) → ℝ} {k : ℕ}
    (hw : ∀ n f c, Within u k (w n f c) (w' n f c)) (hl : ∀ n f c, 0 ≤ lh n f c) (n : Fin N) (f : Fin F)
    (c : Fin (M + 1)) :
    Within u (2 * k + M + 3) (Source.sourceLaw lh w n f c) (sourceLaw A lh w' n f c) := by
  unfold Source.sourceLaw sourceLaw
  have h0 : ∀ c, Within u (k + 1) (lh n f c * w n f c) (A.mul (lh n f c) (w' n f c)) := fun c => by
    have := (Within.refl (u := u) _ (hl n f c)).mul hu1 (hw n f c)
    have := this.trans hu1 (Within.of_err hu hu1 this.2.1 (A.mul_err _ _))
    simpa using this
  have h1 := (A.sum_ok .sourceLaw (List.ofFn fun c => A.mul (lh n f c) (w' n f c))).within hu hu1
    (by intro x hx; rw [List.mem_ofFn] at hx; obtain ⟨i, rfl⟩ := hx; exact (h0 i).2.1)
  rw [List.length_ofFn, Nat.add_sub_cancel] at h1
  have h2 : Within u (k + 1) (List.ofFn fun c => lh n f c * w n f c).sum
      (List.ofFn fun c => A.mul (lh n f c) (w' n f c)).sum := by
    apply Within.list_sum
    rw [List.ofFn_eq_map, List.ofFn_eq_map, List.forall₂_map_left_iff, List.forall₂_map_right_iff, List.forall₂_same]
    exact fun c _ => h0 c
  rw [sum_ofFn'] at h2
  have h3 := (h0 c).div hu1 (h2.trans hu1 h1)
  have h4 := h3.trans hu1 (Within.of_err hu hu1 h3.2.1 (A.div_err _ _))
  refine h4.mono hu hu1 (by omega)

/-- Doubles between `2^(a-1)` and `2^a` are multiples of `2^(a-53)`. -/
theorem IsDouble.multiple {y : ℝ} (h : IsDouble y) {a : ℤ} (h1 : (2:ℝ) ^ (a - 1) ≤ y) :
    ∃ k : ℤ, y = k * (2:ℝ) ^ (a - 53) := by
  obtain ⟨m, e, hm, rfl⟩ := h
  have h2 : (0:ℝ) < 2 ^ e := by positivity
  have hm' : (m : ℝ) < 2 ^ 53 := by exact_mod_cast (abs_lt.mp hm).2
  have h3 : (2:ℝ) ^ (a - 1) < 2 ^ (53 + e) := by
    rw [zpow_add₀ (by norm_num)]
    refine lt_of_le_of_lt h1 ?_
    exact mul_lt_mul_of_pos_right (by exact_mod_cast hm') h2
  have h4 : a - 1 < 53 + e := (zpow_lt_zpow_iff_right₀ (by norm_num)).mp h3
  obtain ⟨j, hj⟩ := Int.eq_ofNat_of_zero_le (show 0 ≤ e - (a - 53) by omega)
  refine ⟨m * 2 ^ j, ?_⟩
  have : e = j + (a - 53) := by omega
  rw [this, zpow_add₀ (by norm_num)]
  push_cast
  rw [zpow_natCast]; ring

/-- Rounding to a multiple of `2^(a-53)` at distance at most half of that is rounding to nearest, for
numbers between `2^(a-1)` and `2^a`. -/
theorem nearest_of {x : ℝ} {a k : ℤ} (hk : |k| < 2 ^ 53)
    (h1 : (2:ℝ) ^ (a - 1) + 2 ^ (a - 54) ≤ x) (hx : |x - k * (2:ℝ) ^ (a - 53)| ≤ 2 ^ (a - 54)) :
    Nearest x (k * (2:ℝ) ^ (a - 53)) := by
  refine ⟨⟨k, a - 53, hk, rfl⟩, fun y hy => ?_⟩
  by_cases hy1 : (2:ℝ) ^ (a - 1) ≤ y
  · obtain ⟨j, rfl⟩ := hy.multiple hy1
    by_cases hjk : j = k
    · rw [hjk]
    · have hne : (1:ℝ) ≤ |(k:ℝ) - j| := by
        have : (1:ℤ) ≤ |k - j| := Int.one_le_abs (by omega)
        exact_mod_cast this
      have hp : (0:ℝ) < 2 ^ (a - 53) := by positivity
      have hd : (2:ℝ) ^ (a - 53) = 2 * 2 ^ (a - 54) := by
        rw [show a - 53 = 1 + (a - 54) by ring, zpow_add₀ (by norm_num)]; norm_num
      have e1 : |(k:ℝ) * 2 ^ (a - 53) - j * 2 ^ (a - 53)| = |(k:ℝ) - j| * 2 ^ (a - 53) := by
        rw [← sub_mul, abs_mul, abs_of_pos hp]
      have e2 := abs_sub_abs_le_abs_sub ((k:ℝ) * 2 ^ (a - 53) - j * 2 ^ (a - 53)) ((k:ℝ) * 2 ^ (a - 53) - x)
      rw [sub_sub_sub_cancel_left, abs_sub_comm ((k:ℝ) * 2 ^ (a - 53)) x, e1] at e2
      have e3 : (2:ℝ) ^ (a - 53) ≤ |(k:ℝ) - j| * 2 ^ (a - 53) := le_mul_of_one_le_left hp.le hne
      linarith
  · rw [not_le] at hy1
    refine hx.trans ?_
    rw [abs_of_nonneg (by have : (0:ℝ) < 2 ^ (a - 54) := by positivity
                          linarith)]
    linarith

end SBayes.Rounding
