import Verif.Props.DoubleStep
/- Property C105 for the growing step: sums of doubles that may be arbitrarily small. -/
namespace SBayes.Double
open SBayes.Lik SBayes.Clusters
open scoped BigOperators

variable {K N F S M C : ℕ} {nG : Fin M → ℕ} (D : Rounding)
  (d : ModelData N F S M nG) (w : Fin F → Fin (M + 1) → ℝ) (ce : Fin K → Fin F → Fin S → ℝ)
  (cf : (c : Fin M) → Fin (nG c) → Fin F → Fin S → ℝ) (cl : Clus K N)

/-- All doubles are multiples of the smallest one. -/
theorem IsDouble.grid {x : ℝ} (h : IsDouble x) : ∃ k : ℤ, x = k * (2:ℝ) ^ (-1074 : ℤ) := by
  obtain ⟨m, e, _, he, rfl⟩ := h
  obtain ⟨j, hj⟩ := Int.eq_ofNat_of_zero_le (show 0 ≤ e + 1074 by omega)
  refine ⟨m * 2 ^ j, ?_⟩
  push_cast
  rw [mul_assoc, ← zpow_natCast, ← zpow_add₀ (by norm_num)]
  congr 2
  omega

/-- Small multiples of the smallest double are doubles. -/
theorem isDouble_grid {k : ℤ} (h : |k * (2:ℝ) ^ (-1074 : ℤ)| < 2 ^ (-1022 : ℤ)) : IsDouble (k * (2:ℝ) ^ (-1074 : ℤ)) := by
  refine ⟨k, -1074, ?_, le_refl _, rfl⟩
  rw [abs_mul, abs_of_pos (show (0:ℝ) < 2 ^ (-1074 : ℤ) by positivity),
    show (2:ℝ) ^ (-1022 : ℤ) = 2 ^ 52 * 2 ^ (-1074 : ℤ) by
      rw [← zpow_natCast, ← zpow_add₀ (by norm_num)]; norm_num] at h
  have := lt_of_mul_lt_mul_right h (by positivity)
  have h' : |k| < 2 ^ 52 := by exact_mod_cast this
  exact h'.trans (by norm_num)

/-- Addition of doubles has a small relative error also below the normal numbers. -/
theorem fl_add {a x : ℝ} (ha : IsDouble a) (hx : IsDouble x) (h : 0 ≤ a + x) :
    (1 - 1 / 2 ^ 53) * (a + x) ≤ D.fl (a + x) ∧ D.fl (a + x) ≤ (1 + 1 / 2 ^ 53) * (a + x) := by
  by_cases hn : (2:ℝ) ^ (-1022 : ℤ) ≤ a + x
  · have he := abs_le.mp (fl_err D hn)
    exact ⟨by linarith [he.1], by linarith [he.2]⟩
  · obtain ⟨k, hk⟩ := ha.grid
    obtain ⟨j, hj⟩ := hx.grid
    have hs : a + x = ((k + j : ℤ) : ℝ) * 2 ^ (-1074 : ℤ) := by rw [hk, hj]; push_cast; ring
    have hd : IsDouble (a + x) := by
      rw [hs]; refine isDouble_grid ?_
      rw [← hs, abs_of_nonneg h]; exact not_le.mp hn
    rw [fl_double D hd]
    have : (0:ℝ) ≤ 1 / 2 ^ 53 * (a + x) := mul_nonneg (by norm_num) h
    constructor <;> linarith

/-- Rounding in general. -/
theorem fl_abs_err {y : ℝ} (hy : 0 ≤ y) : |D.fl y - y| ≤ 1 / 2 ^ 53 * y + 2 ^ (-1074 : ℤ) := by
  have hp : (0:ℝ) < 2 ^ (-1074 : ℤ) := by positivity
  by_cases hn : (2:ℝ) ^ (-1022 : ℤ) ≤ y
  · exact (fl_err D hn).trans (by linarith)
  · set k : ℤ := ⌊y / 2 ^ (-1074 : ℤ)⌋ with hk
    have h1 : (k:ℝ) * 2 ^ (-1074 : ℤ) ≤ y := by
      have := Int.floor_le (y / 2 ^ (-1074 : ℤ)); rw [le_div_iff₀ hp] at this; exact this
    have h2 : y < (k + 1) * 2 ^ (-1074 : ℤ) := by
      have := Int.lt_floor_add_one (y / 2 ^ (-1074 : ℤ)); rw [div_lt_iff₀ hp] at this; exact this
    have hk0 : 0 ≤ (k:ℝ) := by
      have : 0 ≤ k := Int.floor_nonneg.mpr (div_nonneg hy hp.le)
      exact_mod_cast this
    have hd : IsDouble ((k:ℝ) * 2 ^ (-1074 : ℤ)) := by
      refine isDouble_grid ?_
      rw [abs_of_nonneg (mul_nonneg hk0 hp.le)]
      exact lt_of_le_of_lt h1 (not_le.mp hn)
    have h3 := D.nearest y _ hd
    rw [abs_of_nonneg (show 0 ≤ y - k * 2 ^ (-1074 : ℤ) by linarith)] at h3
    rw [abs_sub_comm]
    have : (0:ℝ) ≤ 1 / 2 ^ 53 * y := mul_nonneg (by norm_num) hy
    linarith

/-- Sums of nonnegative doubles. -/
theorem foldl_bounds_all (l : List ℝ) (a : ℝ) (ha : IsDouble a) (ha0 : 0 ≤ a) (hl : ∀ x ∈ l, IsDouble x ∧ 0 ≤ x) :
    (1 - 1 / 2 ^ 53) ^ l.length * (a + l.sum) ≤ l.foldl (fun a x => D.fl (a + x)) a ∧
      l.foldl (fun a x => D.fl (a + x)) a ≤ (1 + 1 / 2 ^ 53) ^ l.length * (a + l.sum) := by
  induction l generalizing a with
  | nil => simp
  | cons x l ih =>
    obtain ⟨hx, hx0⟩ := hl x (by simp)
    have hl' : ∀ y ∈ l, IsDouble y ∧ 0 ≤ y := fun y hy => hl y (by simp [hy])
    have hsum : 0 ≤ l.sum := List.sum_nonneg fun y hy => (hl' y hy).2
    obtain ⟨k2, k3⟩ := fl_add D ha hx (add_nonneg ha0 hx0)
    obtain ⟨i1, i2⟩ := ih _ (D.isDouble _) (fl_nonneg D (add_nonneg ha0 hx0)) hl'
    rw [List.foldl_cons, List.sum_cons, List.length_cons]
    constructor
    · refine le_trans ?_ i1
      rw [pow_succ _ l.length, mul_assoc]
      refine mul_le_mul_of_nonneg_left ?_ (pow_nonneg (by norm_num) _)
      nlinarith
    · refine i2.trans ?_
      rw [pow_succ _ l.length, mul_assoc]
      refine mul_le_mul_of_nonneg_left ?_ (pow_nonneg (by norm_num) _)
      nlinarith

/-- Normalising nonnegative doubles that are not all 0. -/
theorem normalizeVec_all (hN : N ≤ 10 ^ 6) {x : Fin N → ℝ} (hx : ∀ n, IsDouble (x n)) (hx0 : ∀ n, 0 ≤ x n)
    {o : Fin N} (ho : x o ≠ 0) :
    ∃ p, normalizeVec D x = some p ∧ (∀ n, 0 ≤ p n) ∧ (∀ n, x n = 0 → p n = 0) ∧ |∑ n, p n - 1| ≤ 1 / 10 ^ 9 := by
  have hb := foldl_bounds_all D (List.ofFn x) 0 isDouble_zero le_rfl (by
    intro y hy; rw [List.mem_ofFn] at hy; obtain ⟨n, rfl⟩ := hy; exact ⟨hx n, hx0 n⟩)
  rw [List.length_ofFn, List.sum_ofFn, zero_add] at hb
  have hs0 : 0 < ∑ n, x n := lt_of_lt_of_le (lt_of_le_of_ne (hx0 o) ho.symm)
    (Finset.single_le_sum (fun n _ => hx0 n) (Finset.mem_univ o))
  have hdn := pow_down hN
  have hup := pow_up hN
  have ht : (List.ofFn x).foldl (fun a x => D.fl (a + x)) 0 = sum D (List.ofFn x) := rfl
  rw [ht] at hb
  set t := sum D (List.ofFn x) with htd
  set s := ∑ n, x n with hsd
  have hlo : (1 - 2 / 10 ^ 10) * s ≤ t := (mul_le_mul_of_nonneg_right hdn hs0.le).trans hb.1
  have hhi : t ≤ (1 + 2 / 10 ^ 10) * s := hb.2.trans (mul_le_mul_of_nonneg_right hup hs0.le)
  have ht0 : 0 < t := lt_of_lt_of_le (mul_pos (by norm_num) hs0) hlo
  unfold normalizeVec
  dsimp only
  rw [← htd, if_neg ht0.ne']
  refine ⟨_, rfl, fun n => fl_nonneg D (div_nonneg (hx0 n) ht0.le), fun n h => by
    rw [h, zero_div, fl_double D isDouble_zero], ?_⟩
  have hp : ∀ n, |D.fl (x n / t) - x n / t| ≤ 1 / 2 ^ 53 * (x n / t) + 2 ^ (-1074 : ℤ) :=
    fun n => fl_abs_err D (div_nonneg (hx0 n) ht0.le)
  have hsum : ∑ n, x n / t = s / t := by rw [← Finset.sum_div]
  have q1 : s / t ≤ 1 + 3 / 10 ^ 10 := by
    rw [div_le_iff₀ ht0]
    have := mul_le_mul_of_nonneg_left hlo (show (0:ℝ) ≤ 1 + 3 / 10 ^ 10 by norm_num)
    refine le_trans ?_ this
    rw [← mul_assoc]
    exact le_mul_of_one_le_left hs0.le (by norm_num)
  have q2 : 1 - 3 / 10 ^ 10 ≤ s / t := by
    rw [le_div_iff₀ ht0]
    have := mul_le_mul_of_nonneg_left hhi (show (0:ℝ) ≤ 1 - 3 / 10 ^ 10 by norm_num)
    refine this.trans ?_
    rw [← mul_assoc]
    exact mul_le_of_le_one_left hs0.le (by norm_num)
  have hdiff : |∑ n, D.fl (x n / t) - s / t| ≤ 1 / 2 ^ 53 * (s / t) + N * 2 ^ (-1074 : ℤ) := by
    rw [← hsum, ← Finset.sum_sub_distrib]
    refine (Finset.abs_sum_le_sum_abs _ _).trans ((Finset.sum_le_sum fun n _ => hp n).trans (le_of_eq ?_))
    rw [Finset.sum_add_distrib, ← Finset.mul_sum, Finset.sum_const, Finset.card_univ, Fintype.card_fin, nsmul_eq_mul]
  have hsmall : (N:ℝ) * 2 ^ (-1074 : ℤ) ≤ 1 / 10 ^ 10 := by
    have h1 : (N:ℝ) ≤ 10 ^ 6 := by exact_mod_cast hN
    have h2 : (2:ℝ) ^ (-1074 : ℤ) ≤ 2 ^ (-60 : ℤ) := by rw [zpow_le_zpow_iff_right₀ (by norm_num)]; norm_num
    calc (N:ℝ) * 2 ^ (-1074 : ℤ) ≤ 10 ^ 6 * 2 ^ (-60 : ℤ) := mul_le_mul h1 h2 (by positivity) (by positivity)
      _ ≤ 1 / 10 ^ 10 := by norm_num
  have hu : (1:ℝ) / 2 ^ 53 * (s / t) ≤ 1 / 10 ^ 10 := by
    have := mul_le_mul_of_nonneg_left q1 (show (0:ℝ) ≤ 1 / 2 ^ 53 by norm_num)
    exact this.trans (by norm_num)
  obtain ⟨d1, d2⟩ := abs_le.mp hdiff
  rw [abs_le]
  constructor
  · have : (1:ℝ) / 10 ^ 9 = 10 / 10 ^ 10 := by norm_num
    rw [this]; linarith
  · have : (1:ℝ) / 10 ^ 9 = 10 / 10 ^ 10 := by norm_num
    rw [this]; linarith

/-- An object whose observations are at least 2^-1000 times as likely inside of the cluster has a positive membership probability. -/
theorem clusterPosterior_pos (z : Fin K) (o : Fin N) (p0 : 0 ≤ memberLh D d w ce cf cl z o false)
    (p1 : 0 < memberLh D d w ce cf cl z o true)
    (h : memberLh D d w ce cf cl z o false / 2 ^ 1000 ≤ memberLh D d w ce cf cl z o true) {q : ℝ}
    (hqo : clusterPosterior D d w ce cf cl z o = some q) : 0 < q := by
  unfold clusterPosterior div at hqo
  dsimp only at hqo
  set l0 := memberLh D d w ce cf cl z o false
  set l1 := memberLh D d w ce cf cl z o true
  have hle := le_fl D (memberLh_isDouble D d w ce cf cl z o true) (x := l0 + l1) (by linarith)
  have hT : 0 < D.fl (l0 + l1) := lt_of_lt_of_le p1 hle
  rw [if_neg hT.ne'] at hqo
  have hqo := Option.some.inj hqo
  have hup := (fl_add D (memberLh_isDouble D d w ce cf cl z o false) (memberLh_isDouble D d w ce cf cl z o true)
    (show 0 ≤ l0 + l1 by linarith)).2
  have hl0 : l0 ≤ l1 * 2 ^ 1000 := by rwa [div_le_iff₀ (by positivity)] at h
  have hbig : D.fl (l0 + l1) ≤ l1 * 2 ^ 1002 := by
    have e : (2:ℝ) ^ 1002 = 4 * 2 ^ 1000 := by rw [show (1002 : ℕ) = 1000 + 2 by norm_num, pow_add]; generalize (2:ℝ) ^ 1000 = T; norm_num; ring
    have h1 : (1:ℝ) ≤ 2 ^ 1000 := one_le_pow₀ (by norm_num)
    have h2 : l1 ≤ l1 * 2 ^ 1000 := le_mul_of_one_le_right p1.le h1
    have h3 : (1 + 1 / 2 ^ 53 : ℝ) * (l0 + l1) ≤ 2 * (l0 + l1) := mul_le_mul_of_nonneg_right (by norm_num) (by linarith)
    rw [e]
    have hup' : D.fl (l0 + l1) ≤ (1 + 1 / 2 ^ 53) * (l0 + l1) := hup
    have e2 : l1 * (4 * 2 ^ 1000) = 4 * (l1 * 2 ^ 1000) := by ring
    rw [e2]
    have key : ∀ T : ℝ, l0 ≤ T → l1 ≤ T → 2 * (l0 + l1) ≤ 4 * T := fun T a b => by linarith
    exact hup'.trans (h3.trans (key _ hl0 h2))
  have hq1 : (1 / 2 : ℝ) ^ 1002 ≤ q := by
    rw [← hqo]
    refine le_fl D (isDouble_pow (by norm_num)) ?_
    rw [le_div_iff₀ hT]
    calc (1 / 2 : ℝ) ^ 1002 * D.fl (l0 + l1) ≤ (1 / 2) ^ 1002 * (l1 * 2 ^ 1002) := mul_le_mul_of_nonneg_left hbig (by positivity)
      _ = l1 * ((1 / 2) * 2) ^ 1002 := by rw [mul_pow, mul_left_comm]
      _ = l1 := by norm_num
  exact lt_of_lt_of_le (by positivity) hq1

/-- **C105**, growing: if no likelihood underflows, the cluster is not full and there is a free object whose observations are
at least 2^-1000 times as likely inside of the cluster, an object is drawn: the probabilities are nonnegative, 0 for
objects that are not free, and add up to 1 up to 10^-9. -/
theorem C105_grow_draws_partial (hN : N ≤ 10 ^ 6) (maxSize : ℕ) (z : Fin K) (hs : count (cl z) ≠ maxSize)
    (hpos : ∀ n, 0 ≤ memberLh D d w ce cf cl z n false ∧ 0 < memberLh D d w ce cf cl z n true)
    (o : Fin N) (ho : free cl o = true)
    (h : memberLh D d w ce cf cl z o false / 2 ^ 1000 ≤ memberLh D d w ce cf cl z o true) :
    ∃ p, grow D d w ce cf cl maxSize z = .draw p ∧ (∀ n, 0 ≤ p n) ∧ (∀ n, free cl n = false → p n = 0) ∧
      |∑ n, p n - 1| ≤ 1 / 10 ^ 9 := by
  have hsome : ∀ n, ∃ q, clusterPosterior D d w ce cf cl z n = some q := by
    intro n
    unfold clusterPosterior div
    dsimp only
    obtain ⟨h0, h1⟩ := hpos n
    have hle := le_fl D (memberLh_isDouble D d w ce cf cl z n true) (x := memberLh D d w ce cf cl z n false +
      memberLh D d w ce cf cl z n true) (by linarith)
    rw [if_neg (by linarith)]
    exact ⟨_, rfl⟩
  choose q hq using hsome
  have hmem := fun n => clusterPosterior_mem D d w ce cf cl (hpos n).1 (hpos n).2.le (hq n)
  have hqo : q o ≠ 0 := (clusterPosterior_pos D d w ce cf cl z o (hpos o).1 (hpos o).2 h (hq o)).ne'
  have hmul : ∀ n, D.fl ((clusterPosterior D d w ce cf cl z n).getD 0 * b2n ℝ (free cl n)) = if free cl n then q n else 0 := by
    intro n
    rw [hq n, Option.getD_some]
    cases free cl n
    · simp [b2n, fl_double D isDouble_zero]
    · simp [b2n, fl_double D (hmem n).1]
  obtain ⟨p, hp, p1, p2, p3⟩ := normalizeVec_all D hN (x := fun n => if free cl n then q n else 0)
    (fun n => by cases hc : free cl n with
      | true => simpa using (hmem n).1
      | false => simpa using isDouble_zero)
    (fun n => by cases hc : free cl n with
      | true => simpa using (hmem n).2.1
      | false => simp) (o := o) (by simpa [ho] using hqo)
  refine ⟨p, ?_, p1, fun n hn => p2 n (by simp [hn]), p3⟩
  have hc : count (free cl) ≠ 0 := by
    rw [Ne, count_eq_zero]; push Not; exact ⟨o, by rw [ho]; simp⟩
  unfold grow pAdd
  rw [if_neg hc, if_neg hs, if_pos]
  · simp only [hmul]; rw [hp]
  · rw [List.all_eq_true]; intro n _; rw [hq n]; rfl

/-- Its hypotheses hold in the sample with 10 features, 5 objects, two of them in the cluster. -/
example := C105_grow_draws_partial someRounding (exData 5 10) (exWeights 10) (exCluster 10 (3 / 4)) (exConf 10)
  (fun (_ : Fin 1) (n : Fin 5) => n == 0 || n == 1) (by norm_num) 4 0 (by decide)
  (fun n => by rw [ex_lh10, ex_lh10]; norm_num) 3 (by decide)
  (by
    rw [ex_lh10, ex_lh10]
    simp only [if_true, Bool.false_eq_true, if_false]
    rw [div_le_iff₀ (by positivity)]
    have : (1:ℝ) ≤ 2 ^ 1000 := one_le_pow₀ (by norm_num)
    generalize (2:ℝ) ^ 1000 = T at *
    norm_num
    linarith)

/-! ### C106 for the operator that redraws the whole cluster -/

/-- Sums of logarithms of positive numbers. -/
theorem foldl_plus_log (l : List ℝ) (hl : ∀ x ∈ l, 0 < x) (a : ℝ) :
    (l.map fun x => logOf (some x)).foldl plus (some ((a : ℝ) : EReal)) = some (((a + Real.log l.prod : ℝ)) : EReal) := by
  induction l generalizing a with
  | nil => simp
  | cons x l ih =>
    have hx : 0 < x := hl x (by simp)
    have hl' : ∀ y ∈ l, 0 < y := fun y hy => hl y (by simp [hy])
    rw [List.map_cons, List.foldl_cons]
    have e : plus (some ((a : ℝ) : EReal)) (logOf (some x)) = some (((a + Real.log x : ℝ)) : EReal) := by
      unfold logOf
      dsimp only
      rw [if_neg hx.ne']
      show some (_ + _) = _
      rw [EReal.coe_add]
    rw [e, ih hl', List.prod_cons, Real.log_mul hx.ne' (List.prod_pos hl').ne', add_assoc]

theorem siteProb_pos {p : ℝ} (hp : IsDouble p) (h0 : 0 < p) (h1 : p < 1) (c : Bool) : ∃ x, 0 < x ∧ siteProb D (some p) c = some x := by
  have h1p : IsDouble (D.fl (1 - p)) := D.isDouble _
  cases c
  · refine ⟨D.fl (1 - p), ?_, ?_⟩
    · have hgap := isDouble_one.gap hp (by norm_num) h1.ne'
      rw [abs_of_pos (by linarith)] at hgap
      have := le_fl D (y := 1 / 2 ^ 54) ⟨1, -54, by norm_num, by norm_num, by norm_num⟩ hgap
      exact lt_of_lt_of_le (by norm_num) this
    · simp only [siteProb, Option.map_some, b2n, Bool.not_false, if_true, Bool.false_eq_true, if_false, mul_one, mul_zero,
        fl_double D isDouble_zero, zero_add, fl_double D h1p]
  · refine ⟨p, h0, ?_⟩
    simp only [siteProb, Option.map_some, b2n, Bool.not_true, if_true, Bool.false_eq_true, if_false, mul_one, mul_zero,
      fl_double D isDouble_zero, add_zero, fl_double D hp]

theorem logSum_pos {post : Fin N → Option ℝ} {av : Fin N → Bool}
    (h : ∀ n, av n = true → ∃ p, post n = some p ∧ IsDouble p ∧ 0 < p ∧ p < 1) (c : Fin N → Bool) :
    ∃ q : ℝ, 0 < q ∧ logSum D post av c = some ((Real.log q : ℝ) : EReal) := by
  have hx : ∀ n, ∃ x, av n = true → 0 < x ∧ siteProb D (post n) (c n) = some x := by
    intro n
    by_cases hn : av n = true
    · obtain ⟨p, hp, hd, h0, h1⟩ := h n hn
      obtain ⟨x, hx⟩ := siteProb_pos D hd h0 h1 (c n)
      exact ⟨x, fun _ => by rw [hp]; exact hx⟩
    · exact ⟨0, fun h => absurd h hn⟩
  choose x hx using hx
  refine ⟨((indices av).map x).prod, ?_, ?_⟩
  · refine List.prod_pos fun y hy => ?_
    obtain ⟨n, hn, rfl⟩ := List.mem_map.mp hy
    exact (hx n (mem_indices.mp hn)).1
  · unfold logSum
    have e : ((indices av).map fun n => logOf (siteProb D (post n) (c n))) = ((indices av).map x).map fun x => logOf (some x) := by
      rw [List.map_map]
      refine List.map_congr_left fun n hn => ?_
      rw [Function.comp, (hx n (mem_indices.mp hn)).2]
    have := foldl_plus_log ((indices av).map x) (fun y hy => by
      obtain ⟨n, hn, rfl⟩ := List.mem_map.mp hy
      exact (hx n (mem_indices.mp hn)).1) 0
    rw [e]
    rw [zero_add] at this
    exact this

/-- A comparison of real numbers decides if all terms are finite. -/
theorem accepts_finite {logQ logQBack : LogVal} {q qBack : ℝ} (h : logQ = some ((Real.log q : ℝ) : EReal))
    (h' : logQBack = some ((Real.log qBack : ℝ) : EReal)) (ll prior srcQ srcQBack u : ℝ) :
    accepts (some ll) (some prior) (plus logQ (some srcQ)) (plus logQBack (some srcQBack)) u = true ↔
      Real.log u < ll - ((Real.log q + srcQ) - (Real.log qBack + srcQBack)) + prior := by
  subst h h'
  have e1 : ∀ a b : ℝ, plus (some (a : EReal)) (some (b : EReal)) = some ((a + b : ℝ) : EReal) := fun a b => by
    show some (_ + _) = _; rw [EReal.coe_add]
  have e2 : ∀ a b : ℝ, minus (some (a : EReal)) (some (b : EReal)) = some ((a - b : ℝ) : EReal) := fun a b => by
    show some (_ - _) = _; rw [EReal.coe_sub]
  unfold accepts
  rw [e1, e1, if_neg (fun h => EReal.coe_ne_bot _ (Option.some.inj h)), if_neg (fun h => EReal.coe_ne_bot _ (Option.some.inj h)),
    e2, e2, e1]
  simp only [decide_eq_true_eq, EReal.coe_lt_coe_iff]

/-- **C106**, redrawing the whole cluster: if for all available objects the likelihoods inside are at least 2^-1000, at most 2^50 and at least
2^-1000 times those outside, then every set of available objects of an admissible size that differs from the cluster is proposed for all random
numbers of a box with nonempty interior, and the proposal is decided by the Metropolis-Hastings comparison with positive
probabilities of both directions. -/
theorem C106_doubtful_objects_can_be_redrawn_partial (z : Fin K) (minSize maxSize : ℕ)
    (h : ∀ n, available cl z n = true → (2:ℝ) ^ (-1000 : ℤ) ≤ memberLh D d w ce cf cl z n true ∧
      memberLh D d w ce cf cl z n true / 2 ^ 50 ≤ memberLh D d w ce cf cl z n false ∧
      memberLh D d w ce cf cl z n false / 2 ^ 1000 ≤ memberLh D d w ce cf cl z n true)
    (c : Fin N → Bool) (hc : ∀ n, c n = true → available cl z n = true) (hmin : minSize ≤ count c) (hmax : count c ≤ maxSize)
    (hne : ∃ n, available cl z n = true ∧ c n ≠ cl z n) :
    ∃ lo hi : Fin N → ℝ, (∀ n, 0 ≤ lo n ∧ lo n < hi n ∧ hi n ≤ 1) ∧ ∃ q qBack : ℝ, 0 < q ∧ 0 < qBack ∧
      ∀ v : Fin N → ℝ, (∀ n, lo n ≤ v n ∧ v n < hi n) →
        (propose2 D (clusterPosterior D d w ce cf cl z) cl minSize maxSize z v).clusters =
          Function.update cl z (fun n => if available cl z n then c n else cl z n) ∧
        ∀ ll prior srcQ srcQBack u : ℝ,
          (accepts (some ll) (some prior)
            (plus (propose2 D (clusterPosterior D d w ce cf cl z) cl minSize maxSize z v).logQ (some srcQ))
            (plus (propose2 D (clusterPosterior D d w ce cf cl z) cl minSize maxSize z v).logQBack (some srcQBack)) u = true ↔
          Real.log u < ll - ((Real.log q + srcQ) - (Real.log qBack + srcQBack)) + prior) := by
  have hpost : ∀ n, available cl z n = true → ∃ p, clusterPosterior D d w ce cf cl z n = some p ∧ IsDouble p ∧ 0 < p ∧ p < 1 := by
    intro n hn
    obtain ⟨a1, a2, a3⟩ := h n hn
    obtain ⟨p, hp, hp1⟩ := C105_doubtful_member_has_probability_below_one D d w ce cf cl z n a1 a2
    have t1 : 0 < memberLh D d w ce cf cl z n true := lt_of_lt_of_le (by positivity) a1
    have t0 : 0 ≤ memberLh D d w ce cf cl z n false := le_trans (div_nonneg t1.le (by positivity)) a2
    exact ⟨p, hp, (clusterPosterior_mem D d w ce cf cl t0 t1.le hp).1, clusterPosterior_pos D d w ce cf cl z n t0 t1 a3 hp, hp1⟩
  obtain ⟨q, hq0, hq⟩ := logSum_pos D hpost c
  obtain ⟨qb, hqb0, hqb⟩ := logSum_pos D hpost (cl z)
  have hex : ∀ n, ∃ p : ℝ, 0 < p ∧ p < 1 ∧ (available cl z n = true → clusterPosterior D d w ce cf cl z n = some p) := by
    intro n
    by_cases hn : available cl z n = true
    · obtain ⟨p, hp, -, h0, h1⟩ := hpost n hn
      exact ⟨p, h0, h1, fun _ => hp⟩
    · exact ⟨1 / 2, by norm_num, by norm_num, fun h => absurd h hn⟩
  choose p hp0 hp1 hp using hex
  refine ⟨fun n => if c n then 0 else p n, fun n => if c n then p n else 1, fun n => ?_, q, qb, hq0, hqb0, fun v hv => ?_⟩
  · have h0 := hp0 n
    have h1 := hp1 n
    dsimp only
    split
    · exact ⟨le_rfl, h0, h1.le⟩
    · exact ⟨h0.le, h1, le_rfl⟩
  have hr : redraw (clusterPosterior D d w ce cf cl z) (available cl z) v = c := by
    funext n
    unfold redraw
    cases ha : available cl z n with
    | false =>
      cases hcn : c n with
      | false => rfl
      | true => rw [hc n hcn] at ha; cases ha
    | true =>
      rw [hp n ha, Bool.true_and]
      have hvn := hv n
      cases hcn : c n with
      | false =>
        simp only [hcn, Bool.false_eq_true, if_false] at hvn
        exact decide_eq_false (not_lt.mpr hvn.1)
      | true =>
        simp only [hcn, if_true] at hvn
        exact decide_eq_true hvn.2
  have hpr : propose2 D (clusterPosterior D d w ce cf cl z) cl minSize maxSize z v =
      ⟨Function.update cl z fun n => if available cl z n then c n else cl z n,
        logSum D (clusterPosterior D d w ce cf cl z) (available cl z) c, logSum D (clusterPosterior D d w ce cf cl z) (available cl z) (cl z)⟩ := by
    unfold propose2
    dsimp only
    rw [hr, if_neg (not_not.mpr ⟨hmin, hmax⟩), if_neg]
    intro hall
    obtain ⟨n, hn, hd⟩ := hne
    rw [List.all_eq_true] at hall
    have := hall n (mem_indices.mpr hn)
    rw [beq_iff_eq] at this
    exact hd this
  rw [hpr]
  exact ⟨rfl, fun ll prior srcQ srcQBack u => accepts_finite hq hqb ll prior srcQ srcQBack u⟩

/-- Its hypotheses hold in the sample with 10 features, 5 objects, two of them in the cluster, for adding two others. -/
example := C106_doubtful_objects_can_be_redrawn_partial someRounding (exData 5 10) (exWeights 10) (exCluster 10 (3 / 4)) (exConf 10)
  (fun (_ : Fin 1) (n : Fin 5) => n == 0 || n == 1) 0 2 4
  (fun n _ => by
    rw [ex_lh10, ex_lh10]
    simp only [if_true, Bool.false_eq_true, if_false]
    refine ⟨?_, by norm_num, ?_⟩
    · rw [show (1 / 2 : ℝ) ^ 10 = 2 ^ (-10 : ℤ) by norm_num, zpow_le_zpow_iff_right₀ (by norm_num)]
      norm_num
    · rw [div_le_iff₀ (by positivity)]
      have : (1:ℝ) ≤ 2 ^ 1000 := one_le_pow₀ (by norm_num)
      generalize (2:ℝ) ^ 1000 = T at *
      norm_num
      linarith)
  (fun n => n != 4) (by decide) (by decide) (by decide) ⟨2, by decide, by decide⟩

end SBayes.Double
