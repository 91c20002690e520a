import Verif.Spec.Rounding
import Verif.Spec.Likelihood
import Verif.Lemmas.Likelihood
import Mathlib.Tactic.Linarith
import Mathlib.Tactic.Positivity
import Mathlib.Tactic.GCongr
import Mathlib.Algebra.Order.BigOperators.Group.List
import Mathlib.Data.List.Forall2
/- Lemmas about rounding errors. -/
namespace SBayes.Rounding
open SBayes.Lik
open scoped BigOperators

variable {u v : ℝ}

theorem all_zero_sum {l : List ℝ} (h : (l.filter (fun x => decide (x ≠ 0))).length = 0) : l.sum = 0 := by
  have : l.filter (fun x => decide (x ≠ 0)) = [] := List.eq_nil_of_length_eq_zero h
  rw [List.filter_eq_nil_iff] at this
  refine List.sum_eq_zero fun x hx => ?_
  have := this x hx
  simpa using this

/-- A sum with at most one nonzero term is exact. -/
theorem Sums.exact {A : Arith u v} {l : List ℝ} {s : ℝ} (h : Sums A l s) :
    (l.filter (fun x => decide (x ≠ 0))).length ≤ 1 → s = l.sum := by
  induction h with
  | nil => simp
  | one x => simp
  | @add l l' a b _ _ ih ih' =>
    intro hl
    rw [List.filter_append, List.length_append] at hl
    rw [ih (by omega), ih' (by omega), List.sum_append]
    rcases Nat.eq_zero_or_pos (l.filter (fun x => decide (x ≠ 0))).length with h0 | h0
    · rw [all_zero_sum h0, A.zero_add, _root_.zero_add]
    · rw [all_zero_sum (l := l') (by omega), A.add_zero, _root_.add_zero]
  | perm hp _ ih =>
    intro hl
    rw [ih (by rw [(hp.filter _).length_eq]; exact hl), hp.sum_eq]

theorem Sums.nil_eq {A : Arith u v} {l : List ℝ} {s : ℝ} (h : Sums A l s) (hl : l.length = 0) : s = 0 := by
  have : l = [] := List.eq_nil_of_length_eq_zero hl
  subst this
  simpa using h.exact (by simp)

/-- Error of a sum of numbers of any sign. -/
theorem Sums.err {A : Arith u v} (hu : 0 ≤ u) {l : List ℝ} {s : ℝ} (h : Sums A l s) :
    |s - l.sum| ≤ ((1 + u) ^ (l.length - 1) - 1) * (l.map abs).sum := by
  have h1 : ∀ k : ℕ, (1:ℝ) ≤ (1 + u) ^ k := fun k => one_le_pow₀ (by linarith)
  have habs : ∀ l : List ℝ, 0 ≤ (l.map abs).sum := fun l =>
    List.sum_nonneg (by simp only [List.mem_map]; rintro _ ⟨a, _, rfl⟩; exact abs_nonneg a)
  have hle : ∀ l : List ℝ, |l.sum| ≤ (l.map abs).sum := by
    intro l
    induction l with
    | nil => simp
    | cons x l ih => simp only [List.sum_cons, List.map_cons]; exact (abs_add_le _ _).trans (by linarith)
  induction h with
  | nil => simp
  | one x => simp
  | @add l l' a b ha hb ih ih' =>
    rcases Nat.eq_zero_or_pos l.length with h0 | h0
    · have : l = [] := List.eq_nil_of_length_eq_zero h0
      subst this
      rw [ha.nil_eq h0, A.zero_add]; simpa using ih'
    rcases Nat.eq_zero_or_pos l'.length with h0' | h0'
    · have : l' = [] := List.eq_nil_of_length_eq_zero h0'
      subst this
      rw [hb.nil_eq h0', A.add_zero]; simpa using ih
    have hk : ∃ k, (l ++ l').length - 1 = k + 1 ∧ l.length - 1 ≤ k ∧ l'.length - 1 ≤ k :=
      ⟨l.length + l'.length - 2, by rw [List.length_append]; omega, by omega, by omega⟩
    obtain ⟨k, hk, hk1, hk2⟩ := hk
    have i1 : |a - l.sum| ≤ ((1 + u) ^ k - 1) * (l.map abs).sum :=
      ih.trans (mul_le_mul_of_nonneg_right (by
        have := pow_le_pow_right₀ (a := 1 + u) (by linarith) hk1; linarith) (habs l))
    have i2 : |b - l'.sum| ≤ ((1 + u) ^ k - 1) * (l'.map abs).sum :=
      ih'.trans (mul_le_mul_of_nonneg_right (by
        have := pow_le_pow_right₀ (a := 1 + u) (by linarith) hk2; linarith) (habs l'))
    have i3 := A.add_err a b
    rw [hk, List.sum_append, List.map_append, List.sum_append]
    set P := (l.map abs).sum
    set P' := (l'.map abs).sum
    have i4 : |a + b - (l.sum + l'.sum)| ≤ ((1 + u) ^ k - 1) * (P + P') := by
      have : a + b - (l.sum + l'.sum) = (a - l.sum) + (b - l'.sum) := by ring
      rw [this]; exact (abs_add_le _ _).trans (by rw [mul_add]; linarith)
    have i5 : |l.sum + l'.sum| ≤ P + P' := (abs_add_le _ _).trans (add_le_add (hle l) (hle l'))
    have i6 : |a + b| ≤ (1 + u) ^ k * (P + P') := by
      have : a + b = (a + b - (l.sum + l'.sum)) + (l.sum + l'.sum) := by ring
      rw [this]; refine (abs_add_le _ _).trans ?_
      have := add_le_add i4 i5
      refine this.trans (le_of_eq (by ring))
    have : A.add a b - (l.sum + l'.sum) = (A.add a b - (a + b)) + (a + b - (l.sum + l'.sum)) := by ring
    rw [this]
    refine (abs_add_le _ _).trans ?_
    have i7 : u * |a + b| ≤ u * ((1 + u) ^ k * (P + P')) := mul_le_mul_of_nonneg_left i6 hu
    calc |A.add a b - (a + b)| + |a + b - (l.sum + l'.sum)|
        ≤ u * ((1 + u) ^ k * (P + P')) + ((1 + u) ^ k - 1) * (P + P') := by linarith
      _ = ((1 + u) ^ (k + 1) - 1) * (P + P') := by ring
  | perm hp _ ih =>
    rw [← hp.sum_eq, ← hp.length_eq, ← (hp.map abs).sum_eq]; exact ih

namespace Within

theorem refl (x : ℝ) (hx : 0 ≤ x) : Within u 0 x x := ⟨hx, hx, by simp, by simp⟩

theorem mono (hu : 0 ≤ u) (hu1 : u < 1) {j k : ℕ} (h : j ≤ k) {x y : ℝ} (hw : Within u j x y) :
    Within u k x y := by
  obtain ⟨hx, hy, h1, h2⟩ := hw
  have : (1 - u) ^ k ≤ (1 - u) ^ j := pow_le_pow_of_le_one (by linarith) (by linarith) h
  exact ⟨hx, hy, (mul_le_mul_of_nonneg_left this hx).trans h1, (mul_le_mul_of_nonneg_left this hy).trans h2⟩

theorem trans (hu1 : u < 1) {j k : ℕ} {x y z : ℝ} (h : Within u j x y) (h' : Within u k y z) :
    Within u (j + k) x z := by
  obtain ⟨hx, _, h1, h2⟩ := h
  obtain ⟨_, hz, h3, h4⟩ := h'
  have hj : 0 ≤ (1 - u) ^ j := pow_nonneg (by linarith) _
  have hk : 0 ≤ (1 - u) ^ k := pow_nonneg (by linarith) _
  refine ⟨hx, hz, ?_, ?_⟩
  · rw [pow_add, ← mul_assoc]; exact (mul_le_mul_of_nonneg_right h1 hk).trans h3
  · rw [pow_add, mul_comm ((1 - u) ^ j), ← mul_assoc]; exact (mul_le_mul_of_nonneg_right h4 hj).trans h2

/-- One operation with relative error `u`. -/
theorem of_err (hu : 0 ≤ u) (hu1 : u < 1) {x y : ℝ} (hx : 0 ≤ x) (h : |y - x| ≤ u * |x|) : Within u 1 x y := by
  rw [abs_of_nonneg hx] at h
  have := abs_le.mp h
  refine ⟨hx, by nlinarith [this.1], by rw [pow_one]; linarith [this.1], ?_⟩
  rw [pow_one]
  nlinarith [this.2, mul_nonneg hu hx, mul_nonneg hu (mul_nonneg hu hx)]

theorem mul {j k : ℕ} (hu1 : u < 1) {x y x' y' : ℝ} (h : Within u j x y) (h' : Within u k x' y') :
    Within u (j + k) (x * x') (y * y') := by
  obtain ⟨hx, hy, h1, h2⟩ := h
  obtain ⟨hx', hy', h3, h4⟩ := h'
  have hj : 0 ≤ (1 - u) ^ j := pow_nonneg (by linarith) _
  have hk : 0 ≤ (1 - u) ^ k := pow_nonneg (by linarith) _
  refine ⟨mul_nonneg hx hx', mul_nonneg hy hy', ?_, ?_⟩
  · calc x * x' * (1 - u) ^ (j + k) = (x * (1 - u) ^ j) * (x' * (1 - u) ^ k) := by rw [pow_add]; ring
      _ ≤ y * y' := mul_le_mul h1 h3 (mul_nonneg hx' hk) hy
  · calc y * y' * (1 - u) ^ (j + k) = (y * (1 - u) ^ j) * (y' * (1 - u) ^ k) := by rw [pow_add]; ring
      _ ≤ x * x' := mul_le_mul h2 h4 (mul_nonneg hy' hk) hx

theorem inv {k : ℕ} (hu1 : u < 1) {x y : ℝ} (h : Within u k x y) : Within u k x⁻¹ y⁻¹ := by
  obtain ⟨hx, hy, h1, h2⟩ := h
  have hk : 0 < (1 - u) ^ k := pow_pos (by linarith) _
  refine ⟨inv_nonneg.mpr hx, inv_nonneg.mpr hy, ?_, ?_⟩
  · rcases hx.eq_or_lt with h0 | h0
    · rw [← h0]; simpa using hy
    · have hy0 : 0 < y := lt_of_lt_of_le (mul_pos h0 hk) h1
      rw [inv_mul_eq_div, div_le_iff₀ h0, inv_mul_eq_div, le_div_iff₀ hy0]; linarith
  · rcases hy.eq_or_lt with h0 | h0
    · rw [← h0]; simpa using hx
    · have hx0 : 0 < x := lt_of_lt_of_le (mul_pos h0 hk) h2
      rw [inv_mul_eq_div, div_le_iff₀ h0, inv_mul_eq_div, le_div_iff₀ hx0]; linarith

theorem div {j k : ℕ} (hu1 : u < 1) {x y x' y' : ℝ} (h : Within u j x y) (h' : Within u k x' y') :
    Within u (j + k) (x / x') (y / y') := by
  rw [div_eq_mul_inv, div_eq_mul_inv]; exact h.mul hu1 (h'.inv hu1)

theorem add {k : ℕ} {x y x' y' : ℝ} (h : Within u k x y) (h' : Within u k x' y') :
    Within u k (x + x') (y + y') := by
  obtain ⟨hx, hy, h1, h2⟩ := h
  obtain ⟨hx', hy', h3, h4⟩ := h'
  exact ⟨add_nonneg hx hx', add_nonneg hy hy', by rw [add_mul]; linarith, by rw [add_mul]; linarith⟩

theorem list_sum {k : ℕ} {xs ys : List ℝ} (h : List.Forall₂ (Within u k) xs ys) :
    Within u k xs.sum ys.sum := by
  induction h with
  | nil => exact ⟨by simp, by simp, by simp, by simp⟩
  | cons h _ ih => simp only [List.sum_cons]; exact h.add ih

theorem pos {k : ℕ} (hu1 : u < 1) {x y : ℝ} (h : Within u k x y) (hx : 0 < x) : 0 < y :=
  lt_of_lt_of_le (mul_pos hx (pow_pos (by linarith) _)) h.2.2.1

theorem log {k : ℕ} (hu1 : u < 1) {x y : ℝ} (h : Within u k x y) (hx : 0 < x) :
    |Real.log y - Real.log x| ≤ k * -Real.log (1 - u) := by
  have hy := h.pos hu1 hx
  obtain ⟨_, _, h1, h2⟩ := h
  have hk : 0 < (1 - u) ^ k := pow_pos (by linarith) _
  have e1 := Real.log_le_log (mul_pos hx hk) h1
  have e2 := Real.log_le_log (mul_pos hy hk) h2
  rw [Real.log_mul hx.ne' hk.ne', Real.log_pow] at e1
  rw [Real.log_mul hy.ne' hk.ne', Real.log_pow] at e2
  rw [abs_le]; constructor <;> linarith

end Within

/-- Error of a sum of nonnegative numbers. -/
theorem Sums.within {A : Arith u v} (hu : 0 ≤ u) (hu1 : u < 1) {l : List ℝ} {s : ℝ} (h : Sums A l s) :
    (∀ x ∈ l, 0 ≤ x) → Within u (l.length - 1) l.sum s := by
  induction h with
  | nil => intro _; exact ⟨by simp, by simp, by simp, by simp⟩
  | one x => intro h; simpa using Within.refl x (h x (by simp))
  | @add l l' a b ha hb ih ih' =>
    intro hx
    have j := ih fun x h => hx x (by simp [h])
    have j' := ih' fun x h => hx x (by simp [h])
    rcases Nat.eq_zero_or_pos l.length with h0 | h0
    · have : l = [] := List.eq_nil_of_length_eq_zero h0
      subst this
      rw [ha.nil_eq h0, A.zero_add]; simpa using j'
    rcases Nat.eq_zero_or_pos l'.length with h0' | h0'
    · have : l' = [] := List.eq_nil_of_length_eq_zero h0'
      subst this
      rw [hb.nil_eq h0', A.add_zero]; simpa using j
    have hk : ∃ k, (l ++ l').length - 1 = k + 1 ∧ l.length - 1 ≤ k ∧ l'.length - 1 ≤ k :=
      ⟨l.length + l'.length - 2, by rw [List.length_append]; omega, by omega, by omega⟩
    obtain ⟨k, hk, hk1, hk2⟩ := hk
    rw [hk, List.sum_append]
    have w := (j.mono hu hu1 hk1).add (j'.mono hu hu1 hk2)
    exact w.trans hu1 (Within.of_err hu hu1 w.2.1 (A.add_err a b))
  | perm hp _ ih =>
    intro hx
    rw [← hp.sum_eq, ← hp.length_eq]
    exact ih fun x h => hx x (hp.subset h)

theorem exp_sum_log {xs : List ℝ} (h : ∀ x ∈ xs, 0 < x) : (xs.map Real.log).sum = Real.log xs.prod := by
  induction xs with
  | nil => simp
  | cons x xs ih =>
    have hx : ∀ y ∈ xs, 0 < y := fun y hy => h y (by simp [hy])
    rw [List.map_cons, List.sum_cons, List.prod_cons, ih hx,
      Real.log_mul (h x (by simp)).ne' (List.prod_pos hx).ne']

/-- `np.sum(np.log(ys))` for inaccurate probabilities `ys`. -/
theorem logsum_err {A : Arith u v} (hu : 0 ≤ u) (hu1 : u < 1) (hv : 0 ≤ v) {k : ℕ} {xs ys : List ℝ} {s : ℝ}
    (h : List.Forall₂ (Within u k) xs ys) (hpos : ∀ x ∈ xs, 0 < x) (hle : ∀ x ∈ xs, x ≤ 1)
    (hs : Sums A (ys.map A.log) s) :
    |s - Real.log xs.prod| ≤ errorBound u v xs.length k (Real.log xs.prod) := by
  set e := (k : ℝ) * -Real.log (1 - u) with he
  have he0 : 0 ≤ e := mul_nonneg (Nat.cast_nonneg _) (neg_nonneg.mpr (Real.log_nonpos (by linarith) (by linarith)))
  have hlog := exp_sum_log hpos
  -- all facts about the lists at once
  have key : |(ys.map A.log).sum - (xs.map Real.log).sum| ≤
        v * (((xs.map Real.log).map abs).sum + xs.length * e) + xs.length * e ∧
      ((ys.map A.log).map abs).sum ≤ (1 + v) * (((xs.map Real.log).map abs).sum + xs.length * e) ∧
      ((xs.map Real.log).map abs).sum = -(xs.map Real.log).sum := by
    clear hlog hs
    induction h with
    | nil => simp
    | @cons x y xs ys hxy _ ih =>
      obtain ⟨i1, i2, i3⟩ := ih (fun x hx => hpos x (by simp [hx])) (fun x hx => hle x (by simp [hx]))
      have hx := hpos x (by simp)
      have hx1 := hle x (by simp)
      have hy := hxy.pos hu1 hx
      have j1 := hxy.log hu1 hx
      rw [← he] at j1
      have j2 := A.log_err y hy
      have j3 : |Real.log y| ≤ |Real.log x| + e := by
        have := abs_sub_abs_le_abs_sub (Real.log y) (Real.log x); linarith
      have j4 : v * |Real.log y| ≤ v * (|Real.log x| + e) := mul_le_mul_of_nonneg_left j3 hv
      have j5 : |A.log y| ≤ (1 + v) * (|Real.log x| + e) := by
        have := abs_sub_abs_le_abs_sub (A.log y) (Real.log y); nlinarith
      have j6 : |A.log y - Real.log x| ≤ v * (|Real.log x| + e) + e := by
        have := abs_add_le (A.log y - Real.log y) (Real.log y - Real.log x)
        rw [sub_add_sub_cancel] at this; linarith
      simp only [List.map_cons, List.sum_cons, List.length_cons, Nat.cast_add, Nat.cast_one]
      refine ⟨?_, ?_, ?_⟩
      · rw [add_sub_add_comm]
        refine (abs_add_le _ _).trans ((add_le_add j6 i1).trans (le_of_eq (by ring)))
      · exact (add_le_add j5 i2).trans (le_of_eq (by ring))
      · rw [i3, abs_of_nonpos (Real.log_nonpos hx.le hx1)]; ring
  obtain ⟨k1, k2, k3⟩ := key
  have hlen : ys.length = xs.length := h.length_eq.symm
  have hs' := hs.err hu
  rw [List.length_map, hlen] at hs'
  rw [k3] at k1 k2
  rw [hlog] at k1 k2 k3
  have hnp : Real.log xs.prod ≤ 0 := by
    rw [← neg_nonneg, ← k3]
    exact List.sum_nonneg (by simp only [List.mem_map]; rintro _ ⟨a, _, rfl⟩; exact abs_nonneg a)
  have hP : (1:ℝ) ≤ (1 + u) ^ (xs.length - 1) := one_le_pow₀ (by linarith)
  unfold errorBound
  rw [← he, abs_of_nonpos hnp]
  set P := (1 + u) ^ (xs.length - 1)
  set T := -Real.log xs.prod + xs.length * e
  have h3 := abs_add_le (s - (ys.map A.log).sum) ((ys.map A.log).sum - Real.log xs.prod)
  rw [sub_add_sub_cancel] at h3
  have h4 : (P - 1) * ((ys.map A.log).map abs).sum ≤ (P - 1) * ((1 + v) * T) :=
    mul_le_mul_of_nonneg_left k2 (by linarith)
  nlinarith [h3, h4, hs', k1]

variable {N F S G C K M : ℕ} {nG : Fin M → ℕ}

theorem Arith.zero_mul (A : Arith u v) (x : ℝ) : A.mul 0 x = 0 := by
  have := A.mul_err 0 x
  simpa using this

theorem Arith.mul_zero (A : Arith u v) (x : ℝ) : A.mul x 0 = 0 := by
  have := A.mul_err x 0
  simpa using this

theorem Arith.mul_b2n (A : Arith u v) (x : ℝ) (b : Bool) : A.mul x (b2n ℝ b) = x * b2n ℝ b := by
  cases b
  · simp [b2n, A.mul_zero]
  · simp [b2n, A.mul_one]

theorem Arith.b2n_mul (A : Arith u v) (x : ℝ) (b : Bool) : A.mul (b2n ℝ b) x = b2n ℝ b * x := by
  cases b
  · simp [b2n, A.zero_mul]
  · simp [b2n, A.one_mul]

theorem sum_ofFn' (g : Fin C → ℝ) : (List.ofFn g).sum = ∑ c, g c := by rw [List.sum_ofFn]

/-- The einsum over one-hot rows is exact. -/
theorem stateProb_exact (A : Machine u v) {x : Features N F S} (p : Fin F → Fin S → ℝ) {n : Fin N} {f : Fin F}
    (h : Missing x n f ∨ ∃ s, Observed x n f s) :
    stateProb A x p n f = Lik.stateProb x p n f := by
  unfold stateProb Lik.stateProb
  simp only [Arith.b2n_mul]
  rw [(A.sum_ok _ _).exact, sum_ofFn']
  rw [List.ofFn_eq_map, List.filter_map, List.length_map]
  rcases h with h | ⟨s, h⟩
  · rw [List.length_eq_zero_iff.mpr]
    · omega
    · rw [List.filter_eq_nil_iff]
      intro a _
      simp [h a, b2n]
  · have hsub : ∀ a ∈ List.finRange S,
        ((fun x => decide (x ≠ 0)) ∘ fun s => b2n ℝ (x n f s) * p f s) a = true → (a == s) = true := by
      intro a _ ha
      simp only [Function.comp, decide_eq_true_eq] at ha
      by_contra hne
      have : x n f a = false := by
        rw [Bool.eq_false_iff]; intro hx; exact hne (by simpa using (h a).mp hx)
      exact ha (by simp [this, b2n])
    rw [← List.countP_eq_length_filter]
    refine (List.countP_mono_left hsub).trans ?_
    have : List.countP (fun a => a == s) (List.finRange S) = List.count s (List.finRange S) := rfl
    rw [this]
    exact List.nodup_iff_count_le_one.mp (List.nodup_finRange S) s

theorem compute_exact (A : Machine u v) {x : Features N F S} (h : ∀ n f, Missing x n f ∨ ∃ s, Observed x n f s)
    (probs : Fin G → Fin F → Fin S → ℝ) (groups : Fin G → Fin N → Bool) (order : List (Fin G))
    (out : Fin N → Fin F → ℝ) :
    computeComponentLikelihood A x probs groups order out =
      Lik.computeComponentLikelihood x probs groups order out := by
  unfold computeComponentLikelihood Lik.computeComponentLikelihood
  have : writeGroup A x probs groups = Lik.writeGroup x probs groups := by
    funext out i n f
    unfold writeGroup Lik.writeGroup
    rw [stateProb_exact A _ (h n f)]
  rw [this]

theorem updateComponents_exact (A : Machine u v) (d : ModelData N F S M nG)
    (h : ∀ n f, Missing d.features n f ∨ ∃ s, Observed d.features n f s) (p : Params ℝ K N F S M nG)
    (clO : List (Fin K)) (cfO : (c : Fin M) → List (Fin (nG c))) (buf : Fin N → Fin F → Fin (M + 1) → ℝ) :
    updateComponents A d p clO cfO buf = Lik.updateComponents d p clO cfO buf := by
  funext n f
  unfold updateComponents Lik.updateComponents
  simp only [compute_exact A h]

theorem b2n_nonneg (b : Bool) : (0:ℝ) ≤ b2n ℝ b := by cases b <;> simp [b2n]

theorem normalizeWeights_within (A : Machine u v) (hu : 0 ≤ u) (hu1 : u < 1) {w : Fin F → Fin (M + 1) → ℝ}
    {has : Fin N → Fin (M + 1) → Bool} (hw : ∀ f c, 0 ≤ w f c) (n : Fin N) (f : Fin F) (c : Fin (M + 1)) :
    Within u (M + 1) (Lik.normalizeWeights w has n f c) (normalizeWeights A w has n f c) := by
  unfold normalizeWeights Lik.normalizeWeights
  simp only [Arith.mul_b2n]
  have hnn : ∀ c, 0 ≤ w f c * b2n ℝ (has n c) := fun c => mul_nonneg (hw f c) (b2n_nonneg _)
  have h1 := (A.sum_ok .weights (List.ofFn fun c' => w f c' * b2n ℝ (has n c'))).within hu hu1
    (by intro x hx; rw [List.mem_ofFn] at hx; obtain ⟨i, rfl⟩ := hx; exact hnn i)
  rw [sum_ofFn', List.length_ofFn, Nat.add_sub_cancel] at h1
  have h2 := (Within.refl (u := u) _ (hnn c)).div hu1 h1
  have h3 := h2.trans hu1 (Within.of_err hu hu1 h2.2.1 (A.div_err _ _))
  rwa [Nat.zero_add] at h3

theorem observation_within (A : Machine u v) (hu : 0 ≤ u) (hu1 : u < 1) {w w' lh : Fin (M + 1) → ℝ} {k : ℕ}
    (hw : ∀ c, Within u k (w c) (w' c)) (hl : ∀ c, 0 ≤ lh c) :
    Within u (k + 1 + M) (∑ c, w c * lh c) (A.sum .observation (List.ofFn fun c => A.mul (w' c) (lh c))) := by
  have h0 : ∀ c, Within u (k + 1) (w c * lh c) (A.mul (w' c) (lh c)) := fun c => by
    have := (hw c).mul hu1 (Within.refl (u := u) _ (hl c))
    exact this.trans hu1 (Within.of_err hu hu1 this.2.1 (A.mul_err _ _))
  have h1 := (A.sum_ok .observation (List.ofFn fun c => A.mul (w' c) (lh c))).within hu hu1
    (by intro x hx; rw [List.mem_ofFn] at hx; obtain ⟨i, rfl⟩ := hx; exact (h0 i).2.1)
  rw [List.length_ofFn, Nat.add_sub_cancel] at h1
  have h2 : Within u (k + 1) (List.ofFn fun c => w c * lh c).sum (List.ofFn fun c => A.mul (w' c) (lh c)).sum := by
    apply Within.list_sum
    rw [List.ofFn_eq_map, List.ofFn_eq_map, List.forall₂_map_left_iff, List.forall₂_map_right_iff, List.forall₂_same]
    exact fun c _ => h0 c
  rw [sum_ofFn'] at h2
  exact h2.trans hu1 h1

theorem forall₂_flatMap {α β γ : Type} {R : β → γ → Prop} (l : List α) (g : α → List β) (h : α → List γ)
    (H : ∀ a, List.Forall₂ R (g a) (h a)) : List.Forall₂ R (l.flatMap g) (l.flatMap h) := by
  induction l with
  | nil => simp
  | cons a l ih => simp only [List.flatMap_cons]; exact List.rel_append (H a) ih

theorem observationLhs_within (A : Machine u v) (hu : 0 ≤ u) (hu1 : u < 1)
    {w : Fin F → Fin (M + 1) → ℝ} {has : Fin N → Fin (M + 1) → Bool} {lh : Fin N → Fin F → Fin (M + 1) → ℝ}
    (hw : ∀ f c, 0 ≤ w f c) (hl : ∀ n f c, 0 ≤ lh n f c) :
    List.Forall₂ (Within u (2 * (M + 1))) (Lik.observationLhs lh (Lik.normalizeWeights w has) none)
      (observationLhs A lh (normalizeWeights A w has) none) := by
  unfold Lik.observationLhs observationLhs
  refine forall₂_flatMap _ _ _ fun n => ?_
  rw [List.forall₂_map_left_iff, List.forall₂_map_right_iff, List.forall₂_same]
  intro f _
  have := observation_within A hu hu1 (fun c => normalizeWeights_within (has := has) A hu hu1 hw n f c) (hl n f)
  rwa [show M + 1 + 1 + M = 2 * (M + 1) by omega] at this

theorem length_obs_none (lh w : Fin N → Fin F → Fin C → ℝ) : (Lik.observationLhs lh w none).length = N * F := by
  simp [Lik.observationLhs, List.length_flatMap]

theorem length_filter_ravel {src : Fin N → Fin F → Fin C → Bool} (h : ∀ n f, ∃! c, src n f c = true) :
    ((ravelIdx N F C).filter fun t => src t.1 t.2.1 t.2.2).length = N * F := by
  unfold ravelIdx
  rw [List.filter_flatMap, List.length_flatMap]
  have h1 : ∀ n : Fin N, (List.filter (fun t => src t.1 t.2.1 t.2.2)
      ((List.finRange F).flatMap fun f => (List.finRange C).map fun c => (n, f, c))).length = F := by
    intro n
    rw [List.filter_flatMap, List.length_flatMap]
    have h2 : ∀ f : Fin F, (List.filter (fun t => src t.1 t.2.1 t.2.2)
        ((List.finRange C).map fun c => (n, f, c))).length = 1 := by
      intro f
      obtain ⟨c, hc, hu⟩ := h n f
      rw [List.filter_map, List.length_map, ← List.countP_eq_length_filter]
      have : List.countP ((fun t : Fin N × Fin F × Fin C => src t.1 t.2.1 t.2.2) ∘ fun c => (n, f, c))
          (List.finRange C) = List.count c (List.finRange C) := by
        unfold List.count
        refine List.countP_congr fun a _ => ?_
        simp only [Function.comp, beq_iff_eq]
        exact ⟨fun ha => hu a ha, fun ha => by rw [ha]; exact hc⟩
      rw [this, List.count_eq_one_of_mem (List.nodup_finRange C) (List.mem_finRange c)]
    simp [h2]
  simp [h1]

end SBayes.Rounding
