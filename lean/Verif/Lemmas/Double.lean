import Verif.Model.Double
import Mathlib.Tactic.Linarith
import Mathlib.Tactic.Positivity
import Mathlib.Tactic.NormNum
import Mathlib.Algebra.Order.Archimedean.Basic
import Mathlib.Algebra.Order.Round
import Mathlib.Algebra.Order.Floor.Ring
import Mathlib.Data.Set.Finite.Basic
import Mathlib.Order.Interval.Finset.Defs
import Mathlib.Data.Int.Interval
/- Lemmas about doubles. -/
namespace SBayes.Double

theorem isDouble_zero : IsDouble 0 := ⟨0, 0, by norm_num, by norm_num, by simp⟩

theorem isDouble_pow {k : ℕ} (hk : k ≤ 1074) : IsDouble ((1 / 2 : ℝ) ^ k) :=
  ⟨1, -k, by norm_num, by omega, by rw [zpow_neg, zpow_natCast]; simp⟩

theorem isDouble_one : IsDouble 1 := by simpa using isDouble_pow (k := 0) (by omega)

theorem isDouble_half : IsDouble (1 / 2) := by simpa using isDouble_pow (k := 1) (by omega)

variable (D : Rounding)

theorem fl_double {x : ℝ} (h : IsDouble x) : D.fl x = x := by
  have := D.nearest x x h
  rw [sub_self, abs_zero] at this
  have := abs_nonpos_iff.mp this
  linarith

theorem le_fl {x y : ℝ} (h : IsDouble y) (hy : y ≤ x) : y ≤ D.fl x := by
  have := D.nearest x y h
  rw [abs_of_nonneg (show 0 ≤ x - y by linarith)] at this
  have := (abs_le.mp this).2
  linarith

theorem fl_le {x y : ℝ} (h : IsDouble y) (hy : x ≤ y) : D.fl x ≤ y := by
  have := D.nearest x y h
  rw [abs_of_nonpos (show x - y ≤ 0 by linarith)] at this
  have := (abs_le.mp this).1
  linarith

theorem fl_nonneg {x : ℝ} (h : 0 ≤ x) : 0 ≤ D.fl x := le_fl D isDouble_zero h

/-- Doubles from `2^(a-1)` on are multiples of `2^(a-53)`. -/
theorem IsDouble.multiple {y : ℝ} (h : IsDouble y) {a : ℤ} (h1 : (2:ℝ) ^ (a - 1) ≤ y) :
    ∃ k : ℤ, y = k * (2:ℝ) ^ (a - 53) := by
  obtain ⟨m, e, hm, _, rfl⟩ := h
  have h2 : (0:ℝ) < 2 ^ e := by positivity
  have hm' : (m : ℝ) < 2 ^ 53 := by exact_mod_cast (abs_lt.mp hm).2
  have h3 : (2:ℝ) ^ (a - 1) < 2 ^ (53 + e) := by
    rw [zpow_add₀ (by norm_num)]
    refine lt_of_le_of_lt h1 ?_
    exact mul_lt_mul_of_pos_right (by exact_mod_cast hm') h2
  have h4 : a - 1 < 53 + e := (zpow_lt_zpow_iff_right₀ (by norm_num)).mp h3
  obtain ⟨j, hj⟩ := Int.eq_ofNat_of_zero_le (show 0 ≤ e - (a - 53) by omega)
  refine ⟨m * 2 ^ j, ?_⟩
  have : e = j + (a - 53) := by omega
  rw [this, zpow_add₀ (by norm_num)]
  push_cast
  rw [zpow_natCast]; ring

/-- A positive double is at least a relative distance of 2^-54 away from any other one. -/
theorem IsDouble.gap {y y' : ℝ} (h : IsDouble y) (h' : IsDouble y') (hy : 0 < y) (hne : y ≠ y') :
    y / 2 ^ 54 ≤ |y - y'| := by
  obtain ⟨a, ha1, ha2⟩ := exists_mem_Ico_zpow (K := ℝ) hy (y := 2) (by norm_num)
  -- `2^a ≤ y < 2^(a+1)`
  have e1 : (2:ℝ) ^ (a + 1) = 2 * 2 ^ a := by rw [zpow_add₀ (by norm_num)]; norm_num; ring
  by_cases hc : (2:ℝ) ^ (a - 1) ≤ y'
  · obtain ⟨k, hk⟩ := h.multiple (a := a) (le_trans (by
      rw [zpow_le_zpow_iff_right₀ (by norm_num)]; omega) ha1)
    obtain ⟨k', hk'⟩ := h'.multiple (a := a) hc
    have hkk : k ≠ k' := by rintro rfl; exact hne (hk.trans hk'.symm)
    have h1 : (1:ℝ) ≤ |(k:ℝ) - k'| := by
      have : (1:ℤ) ≤ |k - k'| := Int.one_le_abs (by omega)
      exact_mod_cast this
    have hp : (0:ℝ) < 2 ^ (a - 53) := by positivity
    have h2 : |y - y'| = |(k:ℝ) - k'| * 2 ^ (a - 53) := by
      rw [hk, hk', ← sub_mul, abs_mul, abs_of_pos hp]
    have h3 : (2:ℝ) ^ (a - 53) ≤ |y - y'| := by rw [h2]; exact le_mul_of_one_le_left hp.le h1
    have h4 : (2:ℝ) ^ (a - 53) = 2 * 2 ^ a / 2 ^ 54 := by
      rw [← e1, show a - 53 = (a + 1) - 54 by ring, zpow_sub₀ (by norm_num)]; norm_num
    rw [h4] at h3
    refine le_trans ?_ h3
    exact div_le_div_of_nonneg_right (by rw [← e1]; exact ha2.le) (by norm_num)
  · rw [not_le] at hc
    have e2 : (2:ℝ) ^ (a - 1) = 2 ^ a / 2 := by rw [zpow_sub₀ (by norm_num)]; norm_num
    rw [e2] at hc
    have h5 : y / 2 ≤ y - y' := by linarith
    have h6 : y / 2 ^ 54 ≤ y / 2 := div_le_div_of_nonneg_left hy.le (by norm_num) (by norm_num)
    exact h6.trans (h5.trans (le_abs_self _))

/-- Adding something much smaller does not change a positive double. -/
theorem fl_absorb {y t : ℝ} (h : IsDouble y) (hy : 0 < y) (ht : |t| < y / 2 ^ 55) : D.fl (y + t) = y := by
  by_contra hne
  have h1 := h.gap (D.isDouble (y + t)) hy (Ne.symm hne)
  have h2 := D.nearest (y + t) y h
  have h3 := abs_sub_abs_le_abs_sub (y - D.fl (y + t)) (-t)
  rw [show y - D.fl (y + t) - -t = y + t - D.fl (y + t) by ring, abs_neg] at h3
  rw [show y + t - y = t by ring] at h2
  have : y / 2 ^ 54 = 2 * (y / 2 ^ 55) := by ring
  linarith

/-- Numbers below 2^-1075 are flushed to 0. -/
theorem fl_underflow {x : ℝ} (hx : |x| < (2:ℝ) ^ (-1075 : ℤ)) : D.fl x = 0 := by
  by_contra hne
  have h1 := D.nearest x 0 isDouble_zero
  rw [sub_zero] at h1
  have h2 : |D.fl x| ≤ 2 * |x| := by
    have := abs_sub_abs_le_abs_sub (D.fl x) x
    rw [abs_sub_comm] at this; linarith
  obtain ⟨m, e, _, he, hxe⟩ := D.isDouble x
  have hm : m ≠ 0 := by rintro rfl; exact hne (by rw [hxe]; simp)
  have h3 : (1:ℝ) ≤ |(m:ℝ)| := by
    have : (1:ℤ) ≤ |m| := Int.one_le_abs hm
    exact_mod_cast this
  have h4 : (2:ℝ) ^ (-1074 : ℤ) ≤ 2 ^ e := by rw [zpow_le_zpow_iff_right₀ (by norm_num)]; exact he
  have hp : (0:ℝ) < 2 ^ e := by positivity
  have h5 : (2:ℝ) ^ e ≤ |D.fl x| := by
    rw [hxe, abs_mul, abs_of_pos hp]; exact le_mul_of_one_le_left hp.le h3
  have h6 : (2:ℝ) ^ (-1074 : ℤ) = 2 * 2 ^ (-1075 : ℤ) := by
    rw [show (-1074 : ℤ) = 1 + -1075 by norm_num, zpow_add₀ (by norm_num)]; norm_num
  linarith

/-- Relative error in the normal range. -/
theorem fl_err {x : ℝ} (hx : (2:ℝ) ^ (-1022 : ℤ) ≤ x) : |D.fl x - x| ≤ 1 / 2 ^ 53 * x := by
  have hx0 : 0 < x := lt_of_lt_of_le (by positivity) hx
  obtain ⟨a, ha1, ha2⟩ := exists_mem_Ico_zpow (K := ℝ) hx0 (y := 2) (by norm_num)
  have ha : -1022 ≤ a := by
    have : (2:ℝ) ^ (-1022 : ℤ) < 2 ^ (a + 1) := lt_of_le_of_lt hx ha2
    have := (zpow_lt_zpow_iff_right₀ (by norm_num : (1:ℝ) < 2)).mp this
    omega
  have hp : (0:ℝ) < 2 ^ (a - 52) := by positivity
  set m := round (x / 2 ^ (a - 52)) with hm
  have hr := abs_sub_round (x / (2:ℝ) ^ (a - 52))
  rw [← hm] at hr
  have hr' : |x - m * (2:ℝ) ^ (a - 52)| ≤ 1 / 2 * 2 ^ (a - 52) := by
    have : x - m * (2:ℝ) ^ (a - 52) = (x / 2 ^ (a - 52) - m) * 2 ^ (a - 52) := by field_simp
    rw [this, abs_mul, abs_of_pos hp]
    exact mul_le_mul_of_nonneg_right hr hp.le
  have e1 : (2:ℝ) ^ (a + 1) = 2 ^ 53 * 2 ^ (a - 52) := by
    rw [show a + 1 = 53 + (a - 52) by ring, zpow_add₀ (by norm_num)]; norm_num
  have e2 : (2:ℝ) ^ a = 2 ^ 52 * 2 ^ (a - 52) := by
    rw [show (2:ℝ) ^ a = 2 ^ (52 + (a - 52)) by congr 1; ring, zpow_add₀ (by norm_num)]; norm_num
  have hm1 : m ≤ 2 ^ 53 := by
    have hlt : x / (2:ℝ) ^ (a - 52) < 2 ^ 53 := by rw [div_lt_iff₀ hp, ← e1]; exact ha2
    have := (abs_le.mp hr).1
    have h2 : (m:ℝ) < 2 ^ 53 + 1 := by linarith
    have : m < 2 ^ 53 + 1 := by exact_mod_cast h2
    omega
  have hm0 : 0 ≤ m := by
    have hlt : 0 ≤ x / (2:ℝ) ^ (a - 52) := by positivity
    have := (abs_le.mp hr).2
    have h2 : (-1:ℝ) < m := by linarith
    have : -1 < m := by exact_mod_cast h2
    omega
  have hd : IsDouble (m * (2:ℝ) ^ (a - 52)) := by
    by_cases hc : m = 2 ^ 53
    · refine ⟨2 ^ 52, a - 51, by norm_num, by omega, ?_⟩
      rw [hc, show a - 51 = 1 + (a - 52) by ring, zpow_add₀ (by norm_num)]; norm_num; ring
    · refine ⟨m, a - 52, ?_, by omega, rfl⟩
      rw [abs_of_nonneg hm0]; omega
  have := D.nearest x _ hd
  rw [abs_sub_comm]
  refine this.trans (hr'.trans ?_)
  rw [e2] at ha1
  have : (2:ℝ) ^ (a - 52) ≤ x / 2 ^ 52 := by rw [le_div_iff₀ (by norm_num)]; linarith
  calc 1 / 2 * (2:ℝ) ^ (a - 52) ≤ 1 / 2 * (x / 2 ^ 52) := by linarith
    _ = 1 / 2 ^ 53 * x := by ring

/-- There is a rounding to nearest. -/
theorem rounding_exists : Nonempty Rounding := by
  have key : ∀ x : ℝ, ∃ r, IsDouble r ∧ ∀ y, IsDouble y → |x - r| ≤ |x - y| := by
    intro x
    let T : Set ℝ := {y | IsDouble y ∧ |x - y| ≤ |x|}
    have hne : T.Nonempty := ⟨0, isDouble_zero, by simp⟩
    have hp : (0:ℝ) < 2 ^ (-1074 : ℤ) := by positivity
    have hfin : T.Finite := by
      let B := ⌈2 * |x| / (2:ℝ) ^ (-1074 : ℤ)⌉
      refine Set.Finite.subset ((Set.finite_Icc (-B) B).image fun k : ℤ => (k:ℝ) * 2 ^ (-1074 : ℤ)) ?_
      rintro y ⟨⟨m, e, _, he, rfl⟩, hy⟩
      obtain ⟨j, hj⟩ := Int.eq_ofNat_of_zero_le (show 0 ≤ e - -1074 by omega)
      have hje : e = j + -1074 := by omega
      have hyk : (m:ℝ) * 2 ^ e = ((m * 2 ^ j : ℤ) : ℝ) * 2 ^ (-1074 : ℤ) := by
        rw [hje, zpow_add₀ (by norm_num)]; push_cast; rw [zpow_natCast]; ring
      refine ⟨m * 2 ^ j, ?_, hyk.symm⟩
      have h1 : |(m:ℝ) * 2 ^ e| ≤ 2 * |x| := by
        have := abs_sub_abs_le_abs_sub ((m:ℝ) * 2 ^ e) x
        rw [abs_sub_comm] at this; linarith
      rw [hyk, abs_mul, abs_of_pos hp, ← le_div_iff₀ hp] at h1
      have h2 : |((m * 2 ^ j : ℤ) : ℝ)| ≤ (B:ℝ) := h1.trans (Int.le_ceil _)
      have h3 : |m * 2 ^ j| ≤ B := by exact_mod_cast h2
      exact abs_le.mp h3
    obtain ⟨r, hr, hmin⟩ := Set.exists_min_image T (fun y => |x - y|) hfin hne
    refine ⟨r, hr.1, fun y hy => ?_⟩
    by_cases hc : |x - y| ≤ |x|
    · exact hmin y ⟨hy, hc⟩
    · exact hr.2.trans (not_le.mp hc).le
  choose f h1 h2 using key
  exact ⟨⟨f, h1, h2⟩⟩

end SBayes.Double
