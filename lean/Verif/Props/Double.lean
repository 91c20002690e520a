import Verif.Lemmas.Double
import Verif.Lemmas.ClusterSource
import Mathlib.Analysis.SpecialFunctions.Exp
/- Property C105: the cluster operators in double arithmetic. -/
namespace SBayes.Double
open SBayes.Lik SBayes.Clusters
open scoped BigOperators

variable {K N F S M C : ℕ} {nG : Fin M → ℕ} (D : Rounding)
  (d : ModelData N F S M nG) (w : Fin F → Fin (M + 1) → ℝ) (ce : Fin K → Fin F → Fin S → ℝ)
  (cf : (c : Fin M) → Fin (nG c) → Fin F → Fin S → ℝ) (cl : Clus K N)

theorem prod_isDouble (l : List ℝ) : IsDouble (prod D l) := by
  unfold prod
  rcases List.eq_nil_or_concat l with rfl | ⟨l, x, rfl⟩
  · exact isDouble_one
  · rw [List.concat_eq_append, List.foldl_append]; exact D.isDouble _

theorem memberLh_isDouble (z : Fin K) (n : Fin N) (b : Bool) : IsDouble (memberLh D d w ce cf cl z n b) :=
  prod_isDouble D _

/-- **C105.** An object whose observations are 2^55 times more likely inside of the cluster gets membership
probability exactly 1. -/
theorem C105_certain_member_has_probability_one (z : Fin K) (n : Fin N)
    (h0 : 0 ≤ memberLh D d w ce cf cl z n false) (h1 : 0 < memberLh D d w ce cf cl z n true)
    (h : memberLh D d w ce cf cl z n false < memberLh D d w ce cf cl z n true / 2 ^ 55) :
    clusterPosterior D d w ce cf cl z n = some 1 := by
  unfold clusterPosterior div
  dsimp only
  have := fl_absorb D (memberLh_isDouble D d w ce cf cl z n true) h1 (by rw [abs_of_nonneg h0]; exact h)
  rw [add_comm, this, if_neg h1.ne', div_self h1.ne', fl_double D isDouble_one]

theorem sum_zeros {l : List ℝ} (h : ∀ x ∈ l, x = 0) : sum D l = 0 := by
  unfold sum
  induction l with
  | nil => rfl
  | cons x l ih =>
    rw [List.foldl_cons, h x (by simp), add_zero, fl_double D isDouble_zero]
    exact ih fun y hy => h y (by simp [hy])

/-- **C105**, finding: if this holds for all members of the cluster, removing one of them ends the run with a
ValueError: all removal weights `1 - p` are 0 and their normalisation is not a number. -/
theorem C105_shrinking_a_certain_cluster_raises (minSize : ℕ) (z : Fin K) (hs : count (cl z) ≠ minSize)
    (h : ∀ n, cl z n = true → 0 ≤ memberLh D d w ce cf cl z n false ∧ 0 < memberLh D d w ce cf cl z n true ∧
      memberLh D d w ce cf cl z n false < memberLh D d w ce cf cl z n true / 2 ^ 55) :
    shrink D d w ce cf cl minSize z = .valueError := by
  unfold shrink
  rw [if_neg hs]
  have : pRemove D (clusterPosterior D d w ce cf cl z) (cl z) = none := by
    unfold pRemove
    split
    · unfold normalizeVec
      dsimp only
      rw [if_pos]
      refine sum_zeros D fun x hx => ?_
      rw [List.mem_ofFn] at hx
      obtain ⟨n, rfl⟩ := hx
      cases hc : cl z n with
      | false => simp [b2n, fl_double D isDouble_zero]
      | true =>
        obtain ⟨h0, h1, h2⟩ := h n hc
        rw [C105_certain_member_has_probability_one D d w ce cf cl z n h0 h1 h2]
        simp [fl_double D isDouble_zero]
    · rfl
  rw [this]

/-- **C105**, finding: if the likelihood of the observations of one object underflows to 0 with and without
the cluster, both growing and shrinking end the run with a ValueError. -/
theorem C105_underflow_raises (minSize maxSize : ℕ) (z : Fin K) (hs : count (cl z) ≠ minSize)
    (hl : count (cl z) ≠ maxSize) (hf : count (free cl) ≠ 0) (n : Fin N)
    (h : ∀ b, memberLh D d w ce cf cl z n b = 0) :
    shrink D d w ce cf cl minSize z = .valueError ∧ grow D d w ce cf cl maxSize z = .valueError := by
  have hnan : clusterPosterior D d w ce cf cl z n = none := by
    unfold clusterPosterior div
    dsimp only
    rw [h, h, add_zero, fl_double D isDouble_zero, if_pos rfl]
  have hall : ((List.finRange N).all fun n => (clusterPosterior D d w ce cf cl z n).isSome) = false := by
    rw [List.all_eq_false]
    exact ⟨n, List.mem_finRange n, by rw [hnan]; simp⟩
  constructor
  · unfold shrink pRemove
    rw [if_neg hs, hall]; rfl
  · unfold grow pAdd
    rw [if_neg hf, if_neg hl, hall]; rfl

/-- Computed membership probabilities lie between 0 and 1. -/
theorem clusterPosterior_mem {z : Fin K} {n : Fin N} {p : ℝ} (h0 : 0 ≤ memberLh D d w ce cf cl z n false)
    (h1 : 0 ≤ memberLh D d w ce cf cl z n true) (h : clusterPosterior D d w ce cf cl z n = some p) :
    IsDouble p ∧ 0 ≤ p ∧ p ≤ 1 := by
  unfold clusterPosterior div at h
  dsimp only at h
  split at h
  · cases h
  · have hle := le_fl D (memberLh_isDouble D d w ce cf cl z n true) (x := memberLh D d w ce cf cl z n false +
      memberLh D d w ce cf cl z n true) (by linarith)
    cases h
    refine ⟨D.isDouble _, fl_nonneg D (div_nonneg h1 (h1.trans hle)), fl_le D isDouble_one ?_⟩
    exact div_le_one_of_le₀ hle (h1.trans hle)

/-- **C105.** As long as the observations of an object are at least 2^-50 times as likely outside of the
cluster (and the likelihood inside is above 2^-1000), its computed membership probability stays below 1. -/
theorem C105_doubtful_member_has_probability_below_one (z : Fin K) (n : Fin N)
    (h1 : (2:ℝ) ^ (-1000 : ℤ) ≤ memberLh D d w ce cf cl z n true)
    (h : memberLh D d w ce cf cl z n true / 2 ^ 50 ≤ memberLh D d w ce cf cl z n false) :
    ∃ p, clusterPosterior D d w ce cf cl z n = some p ∧ p < 1 := by
  unfold clusterPosterior div
  dsimp only
  set a := memberLh D d w ce cf cl z n true
  set b := memberLh D d w ce cf cl z n false
  have ha : 0 < a := lt_of_lt_of_le (by positivity) h1
  have hb : 0 < b := lt_of_lt_of_le (by positivity) h
  have hn : (2:ℝ) ^ (-1022 : ℤ) ≤ b + a := by
    refine le_trans ?_ (h1.trans (by linarith))
    rw [zpow_le_zpow_iff_right₀ (by norm_num)]; norm_num
  have he := abs_le.mp (fl_err D hn)
  set t := D.fl (b + a)
  have ht : a * (1 + 4 / 2 ^ 53) < t := by
    have : (1 - 1 / 2 ^ 53) * (a / 2 ^ 50 + a) ≤ (1 - 1 / 2 ^ 53) * (b + a) :=
      mul_le_mul_of_nonneg_left (by linarith) (by norm_num)
    have h2 : a * (1 + 4 / 2 ^ 53) < (1 - 1 / 2 ^ 53) * (a / 2 ^ 50 + a) := by
      have : (1 - 1 / 2 ^ 53) * (a / 2 ^ 50 + a) = a * ((1 - 1 / 2 ^ 53) * (1 / 2 ^ 50 + 1)) := by ring
      rw [this]
      exact mul_lt_mul_of_pos_left (by norm_num) ha
    linarith [he.1]
  have ht0 : 0 < t := lt_trans (by positivity) ht
  rw [if_neg ht0.ne']
  refine ⟨_, rfl, ?_⟩
  have hq : a / t ≤ 1 - 1 / 2 ^ 52 := by
    rw [div_le_iff₀ ht0]
    have := mul_le_mul_of_nonneg_left ht.le (show (0:ℝ) ≤ 1 - 1 / 2 ^ 52 by norm_num)
    refine le_trans ?_ this
    have : (1 - 1 / 2 ^ 52) * (a * (1 + 4 / 2 ^ 53)) = a * ((1 - 1 / 2 ^ 52) * (1 + 4 / 2 ^ 53)) := by ring
    rw [this]
    exact le_mul_of_one_le_right ha.le (by norm_num)
  have hd : IsDouble (1 - 1 / 2 ^ 53) := ⟨2 ^ 53 - 1, -53, by norm_num, by norm_num, by norm_num⟩
  have := fl_le D hd (hq.trans (by norm_num))
  exact lt_of_le_of_lt this (by norm_num)

theorem isDouble_tiny : IsDouble (1 / 2 ^ 53) := ⟨1, -53, by norm_num, by norm_num, by norm_num⟩

theorem normal_of_tiny {x : ℝ} (h : 1 / 2 ^ 53 ≤ x) : (2:ℝ) ^ (-1022 : ℤ) ≤ x := by
  refine le_trans ?_ h
  rw [show (1 / 2 ^ 53 : ℝ) = 2 ^ (-53 : ℤ) by norm_num, zpow_le_zpow_iff_right₀ (by norm_num)]; norm_num

/-- Sums of numbers that are 0 or at least 2^-53. -/
theorem foldl_bounds (l : List ℝ) (a : ℝ) (ha : a = 0 ∨ 1 / 2 ^ 53 ≤ a) (hl : ∀ x ∈ l, x = 0 ∨ 1 / 2 ^ 53 ≤ x) :
    (1 - 1 / 2 ^ 53) ^ l.length * (a + l.sum) ≤ l.foldl (fun a x => D.fl (a + x)) a ∧
      l.foldl (fun a x => D.fl (a + x)) a ≤ (1 + 1 / 2 ^ 53) ^ l.length * (a + l.sum) := by
  induction l generalizing a with
  | nil => simp
  | cons x l ih =>
    have hx := hl x (by simp)
    have hl' : ∀ y ∈ l, y = 0 ∨ 1 / 2 ^ 53 ≤ y := fun y hy => hl y (by simp [hy])
    have hsum : 0 ≤ l.sum := List.sum_nonneg fun y hy => by
      rcases hl' y hy with h | h
      · exact h.ge
      · exact le_trans (by norm_num) h
    have key : (D.fl (a + x) = 0 ∨ 1 / 2 ^ 53 ≤ D.fl (a + x)) ∧
        (1 - 1 / 2 ^ 53) * (a + x) ≤ D.fl (a + x) ∧ D.fl (a + x) ≤ (1 + 1 / 2 ^ 53) * (a + x) := by
      by_cases h0 : a + x = 0
      · rw [h0, fl_double D isDouble_zero]; simp
      · have hp : 1 / 2 ^ 53 ≤ a + x := by
          rcases ha with rfl | ha
          · rcases hx with rfl | hx
            · exact absurd (by simp) h0
            · simpa using hx
          · rcases hx with rfl | hx
            · simpa using ha
            · have : (0:ℝ) < 1 / 2 ^ 53 := by norm_num
              linarith
        have he := abs_le.mp (fl_err D (normal_of_tiny hp))
        exact ⟨Or.inr (le_fl D isDouble_tiny hp), by linarith [he.1], by linarith [he.2]⟩
    obtain ⟨k1, k2, k3⟩ := key
    obtain ⟨i1, i2⟩ := ih _ k1 hl'
    rw [List.foldl_cons, List.sum_cons, List.length_cons]
    constructor
    · refine le_trans ?_ i1
      rw [pow_succ _ l.length, mul_assoc]
      refine mul_le_mul_of_nonneg_left ?_ (pow_nonneg (by norm_num) _)
      nlinarith
    · refine i2.trans ?_
      rw [pow_succ _ l.length, mul_assoc]
      refine mul_le_mul_of_nonneg_left ?_ (pow_nonneg (by norm_num) _)
      nlinarith

theorem pow_up {n : ℕ} (hn : n ≤ 10 ^ 6) : (1 + 1 / 2 ^ 53 : ℝ) ^ n ≤ 1 + 2 / 10 ^ 10 := by
  have hn' : (n:ℝ) ≤ 10 ^ 6 := by exact_mod_cast hn
  have e1 : (1 + 1 / 2 ^ 53 : ℝ) ≤ Real.exp (1 / 2 ^ 53) := by
    have := Real.add_one_le_exp (1 / 2 ^ 53 : ℝ); linarith
  have e2 : (1 + 1 / 2 ^ 53 : ℝ) ^ n ≤ Real.exp (10 ^ 6 * (1 / 2 ^ 53)) := by
    refine (pow_le_pow_left₀ (by positivity) e1 _).trans ?_
    rw [← Real.exp_nat_mul]
    exact Real.exp_le_exp.mpr (mul_le_mul_of_nonneg_right hn' (by norm_num))
  refine e2.trans ?_
  have e3 := Real.one_sub_le_exp_neg (10 ^ 6 * (1 / 2 ^ 53) : ℝ)
  rw [Real.exp_neg] at e3
  have e5 := inv_anti₀ (by norm_num : (0:ℝ) < 1 - 10 ^ 6 * (1 / 2 ^ 53)) e3
  rw [inv_inv] at e5
  exact e5.trans (by norm_num)

theorem pow_down {n : ℕ} (hn : n ≤ 10 ^ 6) : 1 - 2 / 10 ^ 10 ≤ (1 - 1 / 2 ^ 53 : ℝ) ^ n := by
  have hn' : (n:ℝ) ≤ 10 ^ 6 := by exact_mod_cast hn
  have := one_add_mul_le_pow (show (-2:ℝ) ≤ -(1 / 2 ^ 53) by norm_num) n
  rw [← sub_eq_add_neg] at this
  refine le_trans ?_ this
  have : (n:ℝ) * (1 / 2 ^ 53) ≤ 10 ^ 6 * (1 / 2 ^ 53) := mul_le_mul_of_nonneg_right hn' (by norm_num)
  have : (10:ℝ) ^ 6 * (1 / 2 ^ 53) ≤ 2 / 10 ^ 10 := by norm_num
  linarith

/-- Normalising numbers that are 0 or between 2^-53 and 1, not all 0. -/
theorem normalizeVec_ok (hN : N ≤ 10 ^ 6) {x : Fin N → ℝ} (hx : ∀ n, x n = 0 ∨ 1 / 2 ^ 53 ≤ x n) (hx1 : ∀ n, x n ≤ 1)
    {o : Fin N} (ho : x o ≠ 0) :
    ∃ p, normalizeVec D x = some p ∧ (∀ n, 0 ≤ p n) ∧ (∀ n, x n = 0 → p n = 0) ∧ |∑ n, p n - 1| ≤ 1 / 10 ^ 9 ∧
      ∀ n, x n ≠ 0 → 0 < p n := by
  have hx0 : ∀ n, 0 ≤ x n := fun n => by
    rcases hx n with h | h
    · exact h.ge
    · exact le_trans (by norm_num) h
  have hb := foldl_bounds D (List.ofFn x) 0 (Or.inl rfl) (by
    intro y hy; rw [List.mem_ofFn] at hy; obtain ⟨n, rfl⟩ := hy; exact hx n)
  rw [List.length_ofFn, List.sum_ofFn, zero_add] at hb
  have hs : 1 / 2 ^ 53 ≤ ∑ n, x n :=
    ((hx o).resolve_left ho).trans (Finset.single_le_sum (fun n _ => hx0 n) (Finset.mem_univ o))
  have hs' : ∑ n, x n ≤ 10 ^ 6 := by
    refine (Finset.sum_le_sum fun n _ => hx1 n).trans ?_
    simp; exact_mod_cast hN
  have hdn := pow_down hN
  have hup := pow_up hN
  have ht : (List.ofFn x).foldl (fun a x => D.fl (a + x)) 0 = sum D (List.ofFn x) := rfl
  rw [ht] at hb
  set t := sum D (List.ofFn x) with htd
  set s := ∑ n, x n with hsd
  have hs0 : 0 < s := lt_of_lt_of_le (by norm_num) hs
  have hlo : (1 - 2 / 10 ^ 10) * s ≤ t := (mul_le_mul_of_nonneg_right hdn hs0.le).trans hb.1
  have hhi : t ≤ (1 + 2 / 10 ^ 10) * s := hb.2.trans (mul_le_mul_of_nonneg_right hup hs0.le)
  have ht0 : 0 < t := lt_of_lt_of_le (mul_pos (by norm_num) hs0) hlo
  unfold normalizeVec
  dsimp only
  rw [← htd, if_neg ht0.ne']
  refine ⟨_, rfl, fun n => fl_nonneg D (div_nonneg (hx0 n) ht0.le), fun n h => by
    rw [h, zero_div, fl_double D isDouble_zero], ?_⟩
  have hp : ∀ n, (1 - 1 / 2 ^ 53) * (x n / t) ≤ D.fl (x n / t) ∧ D.fl (x n / t) ≤ (1 + 1 / 2 ^ 53) * (x n / t) := by
    intro n
    rcases hx n with h | h
    · rw [h, zero_div, fl_double D isDouble_zero]; simp
    · have hn : (2:ℝ) ^ (-1022 : ℤ) ≤ x n / t := by
        rw [le_div_iff₀ ht0]
        have h1 : t ≤ 2 ^ 21 := by
          refine hhi.trans ?_
          have := mul_le_mul_of_nonneg_left hs' (show (0:ℝ) ≤ 1 + 2 / 10 ^ 10 by norm_num)
          exact this.trans (by norm_num)
        have h2 : (2:ℝ) ^ (-1022 : ℤ) * t ≤ 2 ^ (-1022 : ℤ) * 2 ^ 21 := mul_le_mul_of_nonneg_left h1 (by positivity)
        refine h2.trans (le_trans ?_ h)
        rw [show (2:ℝ) ^ (-1022 : ℤ) * 2 ^ 21 = 2 ^ (-1001 : ℤ) by
          rw [show (-1001 : ℤ) = -1022 + 21 by norm_num, zpow_add₀ (by norm_num)]; norm_num,
          show (1 / 2 ^ 53 : ℝ) = 2 ^ (-53 : ℤ) by norm_num, zpow_le_zpow_iff_right₀ (by norm_num)]
        norm_num
      have he := abs_le.mp (fl_err D hn)
      exact ⟨by linarith [he.1], by linarith [he.2]⟩
  have hsum : ∑ n, x n / t = s / t := by rw [← Finset.sum_div]
  have l1 : (1 - 1 / 2 ^ 53) * (s / t) ≤ ∑ n, D.fl (x n / t) := by
    rw [← hsum, Finset.mul_sum]; exact Finset.sum_le_sum fun n _ => (hp n).1
  have l2 : ∑ n, D.fl (x n / t) ≤ (1 + 1 / 2 ^ 53) * (s / t) := by
    rw [← hsum, Finset.mul_sum]; exact Finset.sum_le_sum fun n _ => (hp n).2
  have q1 : s / t ≤ 1 + 3 / 10 ^ 10 := by
    rw [div_le_iff₀ ht0]
    have := mul_le_mul_of_nonneg_left hlo (show (0:ℝ) ≤ 1 + 3 / 10 ^ 10 by norm_num)
    refine le_trans ?_ this
    rw [← mul_assoc]
    exact le_mul_of_one_le_left hs0.le (by norm_num)
  have q2 : 1 - 3 / 10 ^ 10 ≤ s / t := by
    rw [le_div_iff₀ ht0]
    have := mul_le_mul_of_nonneg_left hhi (show (0:ℝ) ≤ 1 - 3 / 10 ^ 10 by norm_num)
    refine this.trans ?_
    rw [← mul_assoc]
    exact mul_le_of_le_one_left hs0.le (by norm_num)
  refine ⟨?_, fun n hn => lt_of_lt_of_le (mul_pos (by norm_num) (div_pos (lt_of_le_of_ne (hx0 n) hn.symm) ht0)) (hp n).1⟩
  rw [abs_le]
  constructor
  · have := mul_le_mul_of_nonneg_left q2 (show (0:ℝ) ≤ 1 - 1 / 2 ^ 53 by norm_num)
    have : (1 - 1 / 2 ^ 53 : ℝ) * (1 - 3 / 10 ^ 10) ≥ 1 - 1 / 10 ^ 9 := by norm_num
    linarith
  · have := mul_le_mul_of_nonneg_left q1 (show (0:ℝ) ≤ 1 + 1 / 2 ^ 53 by norm_num)
    have : (1 + 1 / 2 ^ 53 : ℝ) * (1 + 3 / 10 ^ 10) ≤ 1 + 1 / 10 ^ 9 := by norm_num
    linarith

/-- The probabilities of removal, if there is a candidate whose observations are at least 2^-50 times as likely
outside of the cluster. -/
theorem pRemove_ok (hN : N ≤ 10 ^ 6) (z : Fin K) (cand : Fin N → Bool)
    (hpos : ∀ n, 0 ≤ memberLh D d w ce cf cl z n false ∧ 0 < memberLh D d w ce cf cl z n true)
    (o : Fin N) (ho : cand o = true) (h1 : (2:ℝ) ^ (-1000 : ℤ) ≤ memberLh D d w ce cf cl z o true)
    (h : memberLh D d w ce cf cl z o true / 2 ^ 50 ≤ memberLh D d w ce cf cl z o false) :
    ∃ p, pRemove D (clusterPosterior D d w ce cf cl z) cand = some p ∧ (∀ n, 0 ≤ p n) ∧ (∀ n, cand n = false → p n = 0) ∧
      |∑ n, p n - 1| ≤ 1 / 10 ^ 9 ∧ 0 < p o := by
  have hsome : ∀ n, ∃ q, clusterPosterior D d w ce cf cl z n = some q := by
    intro n
    unfold clusterPosterior div
    dsimp only
    obtain ⟨h0, h1⟩ := hpos n
    have hle := le_fl D (memberLh_isDouble D d w ce cf cl z n true) (x := memberLh D d w ce cf cl z n false +
      memberLh D d w ce cf cl z n true) (by linarith)
    rw [if_neg (by linarith)]
    exact ⟨_, rfl⟩
  choose q hq using hsome
  have hmem := fun n => clusterPosterior_mem D d w ce cf cl (hpos n).1 (hpos n).2.le (hq n)
  have hx : ∀ n, D.fl (1 - q n) = 0 ∨ 1 / 2 ^ 53 ≤ D.fl (1 - q n) := by
    intro n
    by_cases hc : q n = 1
    · left; rw [hc, sub_self, fl_double D isDouble_zero]
    · right
      refine le_fl D isDouble_tiny ?_
      by_contra hlt
      have hd : IsDouble (1 - 1 / 2 ^ 53) := ⟨2 ^ 53 - 1, -53, by norm_num, by norm_num, by norm_num⟩
      -- a double strictly between 1 - 2^-53 and 1
      obtain ⟨k, hk⟩ := (hmem n).1.multiple (a := 0) (by
        have : (2:ℝ) ^ (0 - 1 : ℤ) = 1 / 2 := by norm_num
        rw [this]; have : (1:ℝ) / 2 ^ 53 ≤ 1 / 2 := by norm_num
        linarith)
      have hk' : (k:ℝ) = q n * 2 ^ 53 := by rw [hk]; norm_num; ring
      have b1 : (2:ℝ) ^ 53 - 1 < k := by rw [hk']; linarith
      have b2 : (k:ℝ) < 2 ^ 53 := by
        rw [hk']; have := lt_of_le_of_ne (hmem n).2.2 hc; linarith
      have c1 : (2:ℤ) ^ 53 - 1 < k := by exact_mod_cast b1
      have c2 : k < (2:ℤ) ^ 53 := by exact_mod_cast b2
      omega
  have hx1 : ∀ n, D.fl (1 - q n) ≤ 1 := fun n => fl_le D isDouble_one (by linarith [(hmem n).2.1])
  have hxo : D.fl (1 - q o) ≠ 0 := by
    obtain ⟨p, hp, hlt⟩ := C105_doubtful_member_has_probability_below_one D d w ce cf cl z o h1 h
    rw [hq o, Option.some.injEq] at hp
    intro h0
    have hle := D.nearest (1 - q o) (1 / 2 ^ 53) isDouble_tiny
    have hgap := isDouble_one.gap (hmem o).1 (by norm_num) (by rw [hp]; exact hlt.ne')
    rw [h0, sub_zero, abs_of_nonneg (show 0 ≤ 1 - q o by linarith [(hmem o).2.2])] at hle
    rw [abs_of_nonneg (show 0 ≤ 1 - q o by linarith [(hmem o).2.2])] at hgap
    have hbig := le_fl D (y := 1 / 2 ^ 54) ⟨1, -54, by norm_num, by norm_num, by norm_num⟩ hgap
    rw [h0] at hbig
    norm_num at hbig
  have hmul : ∀ n, D.fl (D.fl (1 - (clusterPosterior D d w ce cf cl z n).getD 0) * b2n ℝ (cand n)) =
      if cand n then D.fl (1 - q n) else 0 := by
    intro n
    rw [hq n, Option.getD_some]
    cases cand n
    · simp [b2n, fl_double D isDouble_zero]
    · simp [b2n, fl_double D (D.isDouble _)]
  obtain ⟨p, hp, p1, p2, p3, p4⟩ := normalizeVec_ok D hN (x := fun n => if cand n then D.fl (1 - q n) else 0)
    (fun n => by cases hc : cand n with
      | true => simpa [hc] using hx n
      | false => simp)
    (fun n => by cases hc : cand n with
      | true => simpa [hc] using hx1 n
      | false => simp) (o := o) (by simpa [ho] using hxo)
  refine ⟨p, ?_, p1, fun n hn => p2 n (by simp [hn]), p3, p4 o (by simpa [ho] using hxo)⟩
  unfold pRemove
  rw [if_pos]
  · simp only [hmul]; rw [hp]
  · rw [List.all_eq_true]; intro n _; rw [hq n]; rfl

/-- **C105**, the part that holds: if no likelihood underflows and there is a member whose observations are at
least 2^-50 times as likely outside of the cluster, an object is drawn: the probabilities are nonnegative,
0 for objects that are not members, and add up to 1 up to 10^-9 (`np.random.choice` accepts 10^-8). -/
theorem C105_shrink_draws_partial (hN : N ≤ 10 ^ 6) (minSize : ℕ) (z : Fin K) (hs : count (cl z) ≠ minSize)
    (hpos : ∀ n, 0 ≤ memberLh D d w ce cf cl z n false ∧ 0 < memberLh D d w ce cf cl z n true)
    (o : Fin N) (ho : cl z o = true) (h1 : (2:ℝ) ^ (-1000 : ℤ) ≤ memberLh D d w ce cf cl z o true)
    (h : memberLh D d w ce cf cl z o true / 2 ^ 50 ≤ memberLh D d w ce cf cl z o false) :
    ∃ p, shrink D d w ce cf cl minSize z = .draw p ∧ (∀ n, 0 ≤ p n) ∧ (∀ n, cl z n = false → p n = 0) ∧
      |∑ n, p n - 1| ≤ 1 / 10 ^ 9 := by
  obtain ⟨p, hp, p1, p2, p3, _⟩ := pRemove_ok D d w ce cf cl hN z (cl z) hpos o ho h1 h
  refine ⟨p, ?_, p1, p2, p3⟩
  unfold shrink
  rw [if_neg hs, hp]

/-! ### A concrete sample -/

theorem isDouble_dyadic (m : ℤ) (k : ℕ) (hm : |m| < 2 ^ 53) (hk : k ≤ 1074) : IsDouble (m / 2 ^ k) :=
  ⟨m, -k, hm, by omega, by rw [zpow_neg, zpow_natCast]; field_simp⟩

/-- All objects have state 0 of every feature, and there is one confounder with one group of all objects. -/
def exData (N F : ℕ) : ModelData N F 2 1 (fun _ => 1) := ⟨fun _ _ s => s == 0, fun _ _ _ => true⟩

noncomputable def exWeights (F : ℕ) : Fin F → Fin 2 → ℝ := fun _ _ => 1 / 2

/-- Cluster effect: state 0 has probability `q`. -/
noncomputable def exCluster (F : ℕ) (q : ℝ) : Fin 1 → Fin F → Fin 2 → ℝ := fun _ _ s => if s = 0 then q else 1 - q

/-- Confounding effect: state 0 has probability 1/4. -/
noncomputable def exConf (F : ℕ) : (c : Fin 1) → Fin 1 → Fin F → Fin 2 → ℝ :=
  fun _ _ _ s => if s = 0 then 1 / 4 else 3 / 4

theorem ex_positive (N F : ℕ) {q : ℝ} (hq : 0 < q ∧ q < 1) :
    PositiveModel (exData N F) (exWeights F) (exCluster F q) (exConf F) where
  weights _ _ := by norm_num [exWeights]
  onehot _ _ := Or.inr ⟨0, fun s => by simp [exData]⟩
  cluster _ _ _ s _ := by unfold exCluster; split <;> linarith [hq.1, hq.2]
  conf _ _ _ _ s _ _ := by unfold exConf; split <;> norm_num
  disjoint _ i j _ _ _ := Subsingleton.elim i j
  covered _ := ⟨0, 0, rfl⟩

theorem prod_const {x : ℝ} {F : ℕ} (h : ∀ k ≤ F, D.fl (x ^ k) = x ^ k) :
    prod D ((List.finRange F).map fun _ => x) = x ^ F := by
  have : ∀ (l : List (Fin F)) (a : ℕ), a + l.length ≤ F →
      (l.map fun _ => x).foldl (fun a x => D.fl (a * x)) (x ^ a) = x ^ (a + l.length) := by
    intro l
    induction l with
    | nil => intro a _; simp
    | cons y l ih =>
      intro a ha
      rw [List.length_cons] at ha
      rw [List.map_cons, List.foldl_cons, ← pow_succ, h _ (by omega), ih _ (by omega), List.length_cons]
      congr 1; omega
  have := this (List.finRange F) 0 (by simp)
  simpa [prod] using this

theorem sum_two (g : Fin 2 → ℝ) : sum D (List.ofFn g) = D.fl (D.fl (0 + g 0) + g 1) := by
  simp [sum, List.ofFn_succ]

theorem ex_lh (N F : ℕ) {q : ℝ} (hq1 : IsDouble (q / 2)) (hq2 : IsDouble (q / 2 + 1 / 8)) (cl : Clus 1 N) (n : Fin N)
    (b : Bool) : memberLh D (exData N F) (exWeights F) (exCluster F q) (exConf F) cl 0 n b =
      prod D ((List.finRange F).map fun _ => if b then q / 2 + 1 / 8 else 1 / 4) := by
  have f0 := fl_double D isDouble_zero
  have f1 := fl_double D isDouble_one
  have f2 := fl_double D isDouble_half
  have f4 : D.fl (1 / 4) = 1 / 4 := fl_double D (by
    have := isDouble_dyadic 1 2 (by norm_num) (by omega); norm_num at this ⊢; exact this)
  have f8 : D.fl (1 / 8) = 1 / 8 := fl_double D (by
    have := isDouble_dyadic 1 3 (by norm_num) (by omega); norm_num at this ⊢; exact this)
  unfold memberLh
  dsimp only
  congr 1
  refine List.map_congr_left fun f _ => ?_
  have hc : hasComponents (exData N F) cl n = ![anyGroup cl n, true] := by
    funext c
    refine Fin.cases ?_ (fun j => ?_) c
    · rfl
    · have : j = 0 := Subsingleton.elim _ _
      subst this
      simp [hasComponents, exData, anyGroup, List.finRange]
  have hw : ∀ (has : Fin N → Fin 2 → Bool) (a : Bool), has n = ![a, true] →
      normalizeWeights D (exWeights F) has n f = if a then ![1 / 2, 1 / 2] else ![0, 1] := by
    intro has a h
    funext c
    unfold normalizeWeights
    rw [sum_two, h]
    cases a
    · have e0 : exWeights F f 0 * b2n ℝ (![false, true] 0) = 0 := by simp [b2n]
      have e1 : exWeights F f 1 * b2n ℝ (![false, true] 1) = 1 / 2 := by simp [b2n, exWeights]
      rw [e0, e1, f0, f2, add_zero, f0, zero_add, f2]
      refine Fin.cases ?_ (fun j => ?_) c
      · rw [e0, f0, zero_div, f0]; rfl
      · have : j = 0 := Subsingleton.elim _ _
        subst this
        rw [show (Fin.succ 0 : Fin 2) = 1 from rfl, e1, f2, div_self (by norm_num), f1]; rfl
    · have e0 : exWeights F f 0 * b2n ℝ (![true, true] 0) = 1 / 2 := by simp [b2n, exWeights]
      have e1 : exWeights F f 1 * b2n ℝ (![true, true] 1) = 1 / 2 := by simp [b2n, exWeights]
      rw [e0, e1, f2, zero_add, f2, add_halves, f1]
      refine Fin.cases ?_ (fun j => ?_) c
      · rw [e0, f2, div_one, f2]; rfl
      · have : j = 0 := Subsingleton.elim _ _
        subst this
        rw [show (Fin.succ 0 : Fin 2) = 1 from rfl, e1, f2, div_one, f2]; rfl
  have hflip : Function.update (hasComponents (exData N F) cl n) 0 (!hasComponents (exData N F) cl n 0) =
      ![!anyGroup cl n, true] := by
    rw [hc]
    funext c
    refine Fin.cases ?_ (fun j => ?_) c
    · simp
    · have : j = 0 := Subsingleton.elim _ _
      subst this
      simp
  have hcur := hw (hasComponents (exData N F) cl) _ hc
  have hfl := hw (fun n => Function.update (hasComponents (exData N F) cl n) 0 (!hasComponents (exData N F) cl n 0)) _ hflip
  have hl0 : Lik.stateProb (exData N F).features (exCluster F q 0) n f = q :=
    stateProb_observed (s := 0) (fun s => by simp [exData])
  have hl1 : confLh (exData N F) (exConf F) n f 0 = 1 / 4 := by
    have := (C09_component_likelihood_is_specified (exData N F).features (exConf F 0) ((exData N F).confGroups 0)
      (fun i j _ _ _ => Subsingleton.elim i j) (List.finRange 1) (fun g => List.mem_finRange g)
      (fun _ _ => 0)).member n f 0 0 (fun s => by simp [exData]) rfl
    unfold confLh
    rw [this]; simp [exConf]
  rw [sum_two]
  have h0 : (Fin.cons (Lik.stateProb (exData N F).features (exCluster F q 0) n f) (confLh (exData N F) (exConf F) n f) :
    Fin 2 → ℝ) 0 = q := hl0
  have h1 : (Fin.cons (Lik.stateProb (exData N F).features (exCluster F q 0) n f) (confLh (exData N F) (exConf F) n f) :
    Fin 2 → ℝ) 1 = 1 / 4 := hl1
  have fin : ∀ x : Fin 2 → ℝ, x = (if b then ![1 / 2, 1 / 2] else ![0, 1]) →
      D.fl (D.fl (0 + D.fl (q * x 0)) + D.fl (1 / 4 * x 1)) = if b then q / 2 + 1 / 8 else 1 / 4 := by
    intro x hx
    subst hx
    cases b
    · show D.fl (D.fl (0 + D.fl (q * 0)) + D.fl (1 / 4 * 1)) = 1 / 4
      rw [mul_zero, f0, add_zero, f0, mul_one, f4, zero_add, f4]
    · show D.fl (D.fl (0 + D.fl (q * (1 / 2))) + D.fl (1 / 4 * (1 / 2))) = q / 2 + 1 / 8
      rw [show (q * (1 / 2) : ℝ) = q / 2 by ring, show (1 / 4 * (1 / 2) : ℝ) = 1 / 8 by norm_num, fl_double D hq1, f8,
        zero_add, fl_double D hq1, fl_double D hq2]
  have := fin (fun c => if b = true then
      (if Function.update (hasComponents (exData N F) cl n) 0 (!hasComponents (exData N F) cl n 0) 0 = true then
        normalizeWeights D (exWeights F) (fun n => Function.update (hasComponents (exData N F) cl n) 0
          (!hasComponents (exData N F) cl n 0)) n else normalizeWeights D (exWeights F) (hasComponents (exData N F) cl) n) f c
    else (if Function.update (hasComponents (exData N F) cl n) 0 (!hasComponents (exData N F) cl n 0) 0 = true then
        normalizeWeights D (exWeights F) (hasComponents (exData N F) cl) n else
        normalizeWeights D (exWeights F) (fun n => Function.update (hasComponents (exData N F) cl n) 0
          (!hasComponents (exData N F) cl n 0)) n) f c) (by
    funext c
    rw [hflip]
    cases hb : b <;> cases ha : anyGroup cl n <;> simp [hcur, hfl, ha])
  simp only [h0, h1]
  exact this

/-- **C105**, finding in a sample: an exact computation would remove one of the members, which are all alike,
with probability `1/N` each; in doubles the run ends with a ValueError. Any number `N` of objects, all in the cluster,
with `F` features, 56 ≤ `F` ≤ 500, whose states have probability 3/4 in the cluster and 1/4 outside, and weights
1/2. Whatever the rounding of ties. -/
theorem C105_shrinking_raises_false (hF : 56 ≤ F) (hF' : F ≤ 500) (minSize : ℕ) (hN : N ≠ minSize) (hN0 : 0 < N) :
    PositiveModel (exData N F) (exWeights F) (exCluster F (3 / 4)) (exConf F) ∧
    MH.IsDist (MH.choice (List.finRange N) (Clusters.pRemove (Clusters.clusterPosterior (exData N F) (exWeights F)
      (exCluster F (3 / 4)) (exConf F)) (fun (_ : Fin 1) _ => true) 0)) ∧
    shrink D (exData N F) (exWeights F) (exCluster F (3 / 4)) (exConf F) (fun (_ : Fin 1) _ => true) minSize 0 = .valueError := by
  have hex := ex_positive N F (q := 3 / 4) (by norm_num)
  have hg := clusterPosterior_good hex
  refine ⟨hex, ?_, ?_⟩
  · refine isDist_normalize (o := ⟨0, hN0⟩) (fun n => ?_) ?_
    · have := hg.lt_one (fun (_ : Fin 1) _ => true) 0 n
      simp only [ind, if_true, mul_one]; linarith
    · have := hg.lt_one (fun (_ : Fin 1) _ => true) 0 ⟨0, hN0⟩
      simp only [ind, if_true, mul_one]; linarith
  · have hp1 : prod D ((List.finRange F).map fun _ => (1 / 2 : ℝ)) = (1 / 2) ^ F :=
      prod_const D fun k hk => fl_double D (isDouble_pow (by omega))
    have hp0 : prod D ((List.finRange F).map fun _ => (1 / 4 : ℝ)) = (1 / 4) ^ F :=
      prod_const D fun k hk => fl_double D (by
        rw [show (1 / 4 : ℝ) = (1 / 2) ^ 2 by norm_num, ← pow_mul]; exact isDouble_pow (by omega))
    refine C105_shrinking_a_certain_cluster_raises D _ _ _ _ _ minSize 0 (by simpa [count] using hN) fun n _ => ?_
    have q1 : IsDouble ((3 / 4 : ℝ) / 2) := by
      have := isDouble_dyadic 3 3 (by norm_num) (by omega); norm_num at this ⊢; exact this
    have q2 : IsDouble ((3 / 4 : ℝ) / 2 + 1 / 8) := by norm_num; simpa using isDouble_half
    rw [ex_lh D N F q1 q2, ex_lh D N F q1 q2]
    simp only [if_true, Bool.false_eq_true, if_false]
    rw [show (3 / 4 / 2 + 1 / 8 : ℝ) = 1 / 2 by norm_num, hp1, hp0]
    refine ⟨by positivity, by positivity, ?_⟩
    rw [show (1 / 4 : ℝ) = 1 / 2 * (1 / 2) by norm_num, mul_pow, div_eq_mul_inv]
    refine mul_lt_mul_of_pos_left ?_ (by positivity)
    have : (1 / 2 : ℝ) ^ F ≤ (1 / 2) ^ 56 := pow_le_pow_of_le_one (by norm_num) (by norm_num) hF
    refine lt_of_le_of_lt this (by norm_num)

/-- A product of at least 1075 factors below 1/2 is 0 in doubles. -/
theorem prod_underflow {l : List ℝ} (h : ∀ x ∈ l, 0 ≤ x ∧ x < 1 / 2) (hl : 1075 ≤ l.length) : prod D l = 0 := by
  have hz : ∀ l : List ℝ, l.foldl (fun a x => D.fl (a * x)) 0 = 0 := by
    intro l
    induction l with
    | nil => rfl
    | cons y l ih => rw [List.foldl_cons, zero_mul, fl_double D isDouble_zero]; exact ih
  have key : ∀ (l : List ℝ) (a : ℝ) (k : ℕ), (∀ x ∈ l, 0 ≤ x ∧ x < 1 / 2) → k ≤ 1074 → 0 ≤ a → a ≤ (1 / 2) ^ k →
      1075 ≤ k + l.length → l.foldl (fun a x => D.fl (a * x)) a = 0 := by
    intro l
    induction l with
    | nil => intro a k _ h1 _ _ h2; simp at h2; omega
    | cons x l ih =>
      intro a k hx hk ha hak hl
      rw [List.foldl_cons]
      rw [List.length_cons] at hl
      obtain ⟨x0, x1⟩ := hx x (by simp)
      have hm0 : 0 ≤ a * x := mul_nonneg ha x0
      have hm : a * x ≤ (1 / 2) ^ (k + 1) := by
        rw [pow_succ]; exact mul_le_mul hak x1.le x0 (by positivity)
      by_cases hk' : k + 1 ≤ 1074
      · exact ih _ (k + 1) (fun y hy => hx y (by simp [hy])) hk' (fl_nonneg D hm0) (fl_le D (isDouble_pow hk') hm)
          (by omega)
      · have hk2 : k = 1074 := by omega
        rw [fl_underflow D, hz l]
        rw [abs_of_nonneg hm0]
        have hlt : a * x < (1 / 2) ^ (k + 1) := by
          rcases ha.eq_or_lt with h0 | h0
          · rw [← h0, zero_mul]; positivity
          · rw [pow_succ]
            exact (mul_lt_mul_of_pos_left x1 h0).trans_le (mul_le_mul_of_nonneg_right hak (by norm_num))
        refine hlt.trans_le (le_of_eq ?_)
        rw [hk2, one_div, inv_pow, ← zpow_natCast, ← zpow_neg]; norm_num
  exact key l 1 0 h (by omega) (by norm_num) (by simp) (by omega)

/-- **C105**, finding in a sample with many features: `F ≥ 1075` features whose states have probability 1/4 in
and outside of the cluster. Exactly, all objects are members with probability 1/2; in doubles growing and
shrinking end the run with a ValueError. Any number of objects and any nonempty set of members, but not all objects. -/
theorem C105_many_features_raise_false (hF : 1075 ≤ F) (cl : Clus 1 N) (minSize maxSize : ℕ)
    (hs : count (cl 0) ≠ minSize) (hl : count (cl 0) ≠ maxSize) (hf : count (free cl) ≠ 0) :
    PositiveModel (exData N F) (exWeights F) (exCluster F (1 / 4)) (exConf F) ∧
    shrink D (exData N F) (exWeights F) (exCluster F (1 / 4)) (exConf F) cl minSize 0 = .valueError ∧
    grow D (exData N F) (exWeights F) (exCluster F (1 / 4)) (exConf F) cl maxSize 0 = .valueError := by
  have hN : ∃ n, free cl n = true := by
    by_contra hh; push Not at hh
    exact hf (count_eq_zero.mpr fun n => by simpa using hh n)
  obtain ⟨n, _⟩ := hN
  refine ⟨ex_positive N F (by norm_num), C105_underflow_raises D _ _ _ _ cl minSize maxSize 0 hs hl hf n fun b => ?_⟩
  have q1 : IsDouble ((1 / 4 : ℝ) / 2) := by
    have := isDouble_dyadic 1 3 (by norm_num) (by omega); norm_num at this ⊢; exact this
  have q2 : IsDouble ((1 / 4 : ℝ) / 2 + 1 / 8) := by
    have := isDouble_dyadic 1 2 (by norm_num) (by omega); norm_num at this ⊢; exact this
  rw [ex_lh D N F q1 q2]
  refine prod_underflow D (fun x hx => ?_) (by simpa using hF)
  rw [List.mem_map] at hx
  obtain ⟨_, _, rfl⟩ := hx
  cases b <;> norm_num

/-! Non-vacuity: there is a rounding; 100 objects with 100 features, and with 2000 features. -/

noncomputable def someRounding : Rounding := rounding_exists.some

example := C105_shrinking_raises_false someRounding (N := 100) (F := 100) (by norm_num) (by norm_num) 3 (by norm_num) (by norm_num)

example := C105_many_features_raise_false someRounding (N := 3) (F := 2000) (by norm_num) (fun _ n => n != 0) 1 3
  (by decide) (by decide) (by decide)

/-- The hypotheses of the positive statement hold in the same sample with 10 features. -/
example := C105_shrink_draws_partial someRounding (exData 5 10) (exWeights 10) (exCluster 10 (3 / 4)) (exConf 10)
  (fun (_ : Fin 1) (_ : Fin 5) => true) (by norm_num) 1 0 (by decide)
  (by
    intro n
    have q1 : IsDouble ((3 / 4 : ℝ) / 2) := by
      have := isDouble_dyadic 3 3 (by norm_num) (by omega); norm_num at this ⊢; exact this
    have q2 : IsDouble ((3 / 4 : ℝ) / 2 + 1 / 8) := by norm_num; simpa using isDouble_half
    rw [ex_lh _ _ _ q1 q2, ex_lh _ _ _ q1 q2]
    simp only [if_true, Bool.false_eq_true, if_false]
    rw [show (3 / 4 / 2 + 1 / 8 : ℝ) = 1 / 2 by norm_num,
      prod_const someRounding fun k hk => fl_double someRounding (isDouble_pow (by omega)),
      prod_const someRounding fun k hk => fl_double someRounding (by
        rw [show (1 / 4 : ℝ) = (1 / 2) ^ 2 by norm_num, ← pow_mul]; exact isDouble_pow (by omega))]
    norm_num) 0 rfl
  (by
    have q1 : IsDouble ((3 / 4 : ℝ) / 2) := by
      have := isDouble_dyadic 3 3 (by norm_num) (by omega); norm_num at this ⊢; exact this
    have q2 : IsDouble ((3 / 4 : ℝ) / 2 + 1 / 8) := by norm_num; simpa using isDouble_half
    rw [ex_lh _ _ _ q1 q2]
    simp only [if_true]
    rw [show (3 / 4 / 2 + 1 / 8 : ℝ) = 1 / 2 by norm_num,
      prod_const someRounding fun k hk => fl_double someRounding (isDouble_pow (by omega)),
      show (1 / 2 : ℝ) ^ 10 = 2 ^ (-10 : ℤ) by norm_num, zpow_le_zpow_iff_right₀ (by norm_num)]
    norm_num)
  (by
    have q1 : IsDouble ((3 / 4 : ℝ) / 2) := by
      have := isDouble_dyadic 3 3 (by norm_num) (by omega); norm_num at this ⊢; exact this
    have q2 : IsDouble ((3 / 4 : ℝ) / 2 + 1 / 8) := by norm_num; simpa using isDouble_half
    rw [ex_lh _ _ _ q1 q2, ex_lh _ _ _ q1 q2]
    simp only [if_true, Bool.false_eq_true, if_false]
    rw [show (3 / 4 / 2 + 1 / 8 : ℝ) = 1 / 2 by norm_num,
      prod_const someRounding fun k hk => fl_double someRounding (isDouble_pow (by omega)),
      prod_const someRounding fun k hk => fl_double someRounding (by
        rw [show (1 / 4 : ℝ) = (1 / 2) ^ 2 by norm_num, ← pow_mul]; exact isDouble_pow (by omega))]
    norm_num)

end SBayes.Double
