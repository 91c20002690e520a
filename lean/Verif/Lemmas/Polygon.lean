import Verif.Model.Polygon
import Mathlib.Analysis.Convex.Hull
import Mathlib.Tactic.Linarith
namespace SBayes.Simplex
open Real

/-- The angle of one step. -/
noncomputable def step (n : ℕ) : ℝ := 2 * π / n

theorem unitCorner_eq (n j : ℕ) : unitCorner n j = (-sin (step n * j), cos (step n * j)) := by
  unfold unitCorner step
  rw [cos_add_pi_div_two, sin_add_pi_div_two, show 2 * π * (j : ℝ) / n = 2 * π / n * j by ring]

theorem step_mul {n : ℕ} (hn : 0 < n) : step n * n = 2 * π := by
  unfold step
  field_simp

theorem step_pos {n : ℕ} (hn : 0 < n) : 0 < step n := by
  unfold step; positivity

theorem unitCorner_wrap {n : ℕ} (hn : 0 < n) : unitCorner n n = unitCorner n 0 := by
  rw [unitCorner_eq, unitCorner_eq, step_mul hn]
  simp

/-- Twice the signed area of a triangle. -/
def cross (a b p : Pt) : ℝ := (b.1 - a.1) * (p.2 - a.2) - (b.2 - a.2) * (p.1 - a.1)

theorem cross_circle (u v α : ℝ) :
    cross (-sin α, cos α) (-sin (α + 2 * u), cos (α + 2 * u)) (-sin (α + 2 * u + 2 * v), cos (α + 2 * u + 2 * v)) =
      4 * sin u * sin v * sin (u + v) := by
  have h1 : cross (-sin α, cos α) (-sin (α + 2 * u), cos (α + 2 * u)) (-sin (α + 2 * u + 2 * v), cos (α + 2 * u + 2 * v)) =
      sin (2 * u) + sin (2 * v) - sin (2 * (u + v)) := by
    have e1 : sin (2 * u) = sin (α + 2 * u) * cos α - cos (α + 2 * u) * sin α := by rw [← sin_sub]; congr 1; ring
    have e2 : sin (2 * v) = sin (α + 2 * u + 2 * v) * cos (α + 2 * u) - cos (α + 2 * u + 2 * v) * sin (α + 2 * u) := by
      rw [← sin_sub]; congr 1; ring
    have e3 : sin (2 * (u + v)) = sin (α + 2 * u + 2 * v) * cos α - cos (α + 2 * u + 2 * v) * sin α := by
      rw [← sin_sub]; congr 1; ring
    rw [e1, e2, e3]
    unfold cross
    ring
  rw [h1, sin_two_mul, sin_two_mul, sin_two_mul, sin_add, cos_add]
  have hu := sin_sq_add_cos_sq u
  have hv := sin_sq_add_cos_sq v
  have hu' : cos u ^ 2 = 1 - sin u ^ 2 := by linarith
  have hv' : cos v ^ 2 = 1 - sin v ^ 2 := by linarith
  ring_nf
  rw [hu', hv']
  ring

theorem cross_unit {n : ℕ} (hn : 0 < n) {j k : ℕ} (hj : j < n) (hk : k < n) :
    0 ≤ cross (unitCorner n j) (unitCorner n (j + 1)) (unitCorner n k) := by
  have hs := step_pos hn
  have hsn := step_mul hn
  have e1 : step n * ((j + 1 : ℕ) : ℝ) = step n * j + 2 * (step n / 2) := by push_cast; ring
  have e2 : step n * (k : ℝ) = step n * j + 2 * (step n / 2) + 2 * (step n / 2 * ((k : ℝ) - j - 1)) := by ring
  rw [unitCorner_eq, unitCorner_eq, unitCorner_eq, e1, e2, cross_circle,
    show step n / 2 + step n / 2 * ((k : ℝ) - j - 1) = step n / 2 * ((k : ℝ) - j) by ring]
  have hj' : (j : ℝ) + 1 ≤ n := by exact_mod_cast hj
  have hk' : (k : ℝ) + 1 ≤ n := by exact_mod_cast hk
  have hj0 : (0 : ℝ) ≤ j := Nat.cast_nonneg j
  have hk0 : (0 : ℝ) ≤ k := Nat.cast_nonneg k
  have hn1 : (1 : ℝ) ≤ n := by exact_mod_cast hn
  have h0 : 0 ≤ sin (step n / 2) := by
    refine sin_nonneg_of_nonneg_of_le_pi (by linarith) ?_
    nlinarith
  rcases Nat.lt_or_ge j k with h | h
  · have h' : (j : ℝ) + 1 ≤ k := by exact_mod_cast h
    have h1 : 0 ≤ sin (step n / 2 * ((k : ℝ) - j - 1)) :=
      sin_nonneg_of_nonneg_of_le_pi (by nlinarith) (by nlinarith)
    have h2 : 0 ≤ sin (step n / 2 * ((k : ℝ) - j)) :=
      sin_nonneg_of_nonneg_of_le_pi (by nlinarith) (by nlinarith)
    positivity
  · have h' : (k : ℝ) ≤ j := by exact_mod_cast h
    have h1 : sin (step n / 2 * ((k : ℝ) - j - 1)) ≤ 0 :=
      sin_nonpos_of_nonpos_of_neg_pi_le (by nlinarith) (by nlinarith)
    have h2 : sin (step n / 2 * ((k : ℝ) - j)) ≤ 0 :=
      sin_nonpos_of_nonpos_of_neg_pi_le (by nlinarith) (by nlinarith)
    have := mul_nonneg_of_nonpos_of_nonpos h1 h2
    calc (0 : ℝ) ≤ 4 * sin (step n / 2) * (sin (step n / 2 * ((k : ℝ) - j - 1)) * sin (step n / 2 * ((k : ℝ) - j))) := by positivity
      _ = _ := by ring

theorem cross_smul (s : ℝ) (a b p : Pt) : cross (s • a) (s • b) (s • p) = s ^ 2 * cross a b p := by
  unfold cross
  simp only [Prod.smul_fst, Prod.smul_snd, smul_eq_mul]
  ring

/-- The polygon. -/
def polygon (c : ℕ → Pt) (n : ℕ) : Set Pt := convexHull ℝ (Set.range fun i : Fin n => c i)

theorem corner_mem (c : ℕ → Pt) {n j : ℕ} (hj : j < n) : c j ∈ polygon c n :=
  subset_convexHull ℝ _ ⟨⟨j, hj⟩, rfl⟩

theorem convex_halfplane (a b : Pt) : Convex ℝ {p : Pt | 0 ≤ cross a b p} := by
  intro p hp q hq x y hx hy hxy
  have hp' : 0 ≤ cross a b p := hp
  have hq' : 0 ≤ cross a b q := hq
  show 0 ≤ cross a b (x • p + y • q)
  have : cross a b (x • p + y • q) = x * cross a b p + y * cross a b q := by
    unfold cross
    simp only [Prod.fst_add, Prod.snd_add, Prod.smul_fst, Prod.smul_snd, smul_eq_mul]
    have hy' : y = 1 - x := by linarith
    subst hy'
    ring
  rw [this]
  positivity

/-- The polygon is on one side of each of its edges. -/
theorem polygon_side {n : ℕ} (hn : 0 < n) (s : ℝ) {j : ℕ} (hj : j < n) {p : Pt}
    (hp : p ∈ polygon (fun j => s • unitCorner n j) n) : 0 ≤ cross (s • unitCorner n j) (s • unitCorner n (j + 1)) p := by
  refine convexHull_min ?_ (convex_halfplane _ _) hp
  rintro _ ⟨k, rfl⟩
  show 0 ≤ cross _ _ (s • unitCorner n k)
  rw [cross_smul]
  exact mul_nonneg (sq_nonneg s) (cross_unit hn hj k.2)

/-! ### The faces -/

theorem sin_diff (n j : ℕ) : sin (step n * ((j + 1 : ℕ) : ℝ)) - sin (step n * j) =
    2 * sin (step n / 2) * cos (step n * (j + 1 / 2)) := by
  rw [sin_sub_sin]
  push_cast
  congr 2
  · congr 1; ring
  · ring_nf

theorem half_pos {n : ℕ} (hn : 3 ≤ n) : 0 < sin (step n / 2) := by
  have h := step_pos (show 0 < n by omega)
  have h2 := step_mul (show 0 < n by omega)
  have h3 : (3 : ℝ) ≤ n := by exact_mod_cast hn
  refine sin_pos_of_pos_of_lt_pi (by linarith) ?_
  nlinarith [pi_pos]

/-- Leftmost and rightmost corners of the unit polygon. -/
def Leftmost (c : ℕ → Pt) (n i : ℕ) : Prop := i < n ∧ ∀ j < n, (c i).1 ≤ (c j).1
def Rightmost (c : ℕ → Pt) (n i : ℕ) : Prop := i < n ∧ ∀ j < n, (c j).1 ≤ (c i).1

theorem leftmost_unit {s : ℝ} (hs : 0 < s) {n i : ℕ} (h : Leftmost (fun j => s • unitCorner n j) n i) :
    i < n ∧ ∀ j < n, sin (step n * j) ≤ sin (step n * i) := by
  refine ⟨h.1, fun j hj => ?_⟩
  have := h.2 j hj
  simp only [Prod.smul_fst, smul_eq_mul, unitCorner_eq] at this
  have := le_of_mul_le_mul_left this hs
  linarith

theorem rightmost_unit {s : ℝ} (hs : 0 < s) {n i : ℕ} (h : Rightmost (fun j => s • unitCorner n j) n i) :
    i < n ∧ ∀ j < n, sin (step n * i) ≤ sin (step n * j) := by
  refine ⟨h.1, fun j hj => ?_⟩
  have := h.2 j hj
  simp only [Prod.smul_fst, smul_eq_mul, unitCorner_eq] at this
  have := le_of_mul_le_mul_left this hs
  linarith

/-- A corner of the left half is leftmost. -/
theorem left_half {n i : ℕ} (hn : 3 ≤ n) (hi : i < n) (h : ∀ j < n, sin (step n * j) ≤ sin (step n * i)) :
    0 < i ∧ step n * i < π := by
  have hp := step_pos (show 0 < n by omega)
  have hm := step_mul (show 0 < n by omega)
  have h3 : (3 : ℝ) ≤ n := by exact_mod_cast hn
  have h1 : 0 < sin (step n * ((1 : ℕ) : ℝ)) := by
    refine sin_pos_of_pos_of_lt_pi (by simpa using hp) ?_
    push_cast
    nlinarith [pi_pos]
  have h2 := lt_of_lt_of_le h1 (h 1 (by omega))
  have hi' : (i : ℝ) + 1 ≤ n := by exact_mod_cast hi
  constructor
  · rcases Nat.eq_zero_or_pos i with rfl | h0
    · simp at h2
    · exact h0
  · by_contra hc
    have hc' : π ≤ step n * i := le_of_not_gt hc
    have : sin (step n * i) ≤ 0 := by
      have h4 : sin (step n * i) = sin (step n * i - 2 * π) := (sin_sub_two_pi _).symm
      rw [h4]
      refine sin_nonpos_of_nonpos_of_neg_pi_le ?_ (by linarith)
      nlinarith
    linarith

theorem right_half {n i : ℕ} (hn : 3 ≤ n) (_hi : i < n) (h : ∀ j < n, sin (step n * i) ≤ sin (step n * j)) :
    π < step n * i := by
  have hp := step_pos (show 0 < n by omega)
  have hm := step_mul (show 0 < n by omega)
  have h3 : (3 : ℝ) ≤ n := by exact_mod_cast hn
  have h1 : sin (step n * ((n - 1 : ℕ) : ℝ)) < 0 := by
    have e : step n * ((n - 1 : ℕ) : ℝ) = -step n + 2 * π := by
      rw [Nat.cast_sub (by omega)]; push_cast; linarith
    rw [e, sin_add_two_pi, sin_neg]
    have : 0 < sin (step n) := sin_pos_of_pos_of_lt_pi hp (by nlinarith [pi_pos])
    linarith
  have h2 := lt_of_le_of_lt (h (n - 1) (by omega)) h1
  by_contra hc
  have hc' : step n * i ≤ π := le_of_not_gt hc
  have : 0 ≤ sin (step n * i) := sin_nonneg_of_nonneg_of_le_pi (by positivity) hc'
  linarith

theorem left_lt_right {n i k : ℕ} (hn : 3 ≤ n) (hi : i < n) (hk : k < n) (h : ∀ j < n, sin (step n * j) ≤ sin (step n * i))
    (h' : ∀ j < n, sin (step n * k) ≤ sin (step n * j)) : i < k := by
  have h1 := (left_half hn hi h).2
  have h2 := right_half hn hk h'
  have hp := step_pos (show 0 < n by omega)
  have : (i : ℝ) < k := lt_of_mul_lt_mul_left (h1.trans h2) hp.le
  exact_mod_cast this

theorem cos_nonpos_range {x : ℝ} (h0 : 0 ≤ x) (h1 : x ≤ 2 * π) (h : cos x ≤ 0) : π / 2 ≤ x ∧ x ≤ 3 * π / 2 := by
  constructor
  · by_contra hc
    have : 0 < cos x := cos_pos_of_mem_Ioo ⟨by linarith [pi_pos], by linarith⟩
    linarith
  · by_contra hc
    have h2 : 0 < cos (x - 2 * π) := cos_pos_of_mem_Ioo ⟨by linarith, by linarith [pi_pos]⟩
    rw [cos_sub_two_pi] at h2
    linarith

/-- On the bottom face the corners go from left to right. -/
theorem bottom_mono {n i k j : ℕ} (hn : 3 ≤ n) (hi : i < n) (hk : k < n) (h : ∀ j < n, sin (step n * j) ≤ sin (step n * i))
    (h' : ∀ j < n, sin (step n * k) ≤ sin (step n * j)) (hij : i ≤ j) (hjk : j < k) :
    sin (step n * ((j + 1 : ℕ) : ℝ)) ≤ sin (step n * j) := by
  have hp := step_pos (show 0 < n by omega)
  have hm := step_mul (show 0 < n by omega)
  have hs := half_pos hn
  have hk' : (k : ℝ) + 1 ≤ n := by exact_mod_cast hk
  have ha : π / 2 ≤ step n * (i + 1 / 2) := by
    refine (cos_nonpos_range (by positivity) ?_ ?_).1
    · have : (i : ℝ) + 1 ≤ n := by exact_mod_cast hi
      nlinarith
    · have hd := sin_diff n i
      have := h (i + 1) (by omega)
      by_contra hc
      have := mul_pos (mul_pos two_pos hs) (lt_of_not_ge hc)
      linarith
  have hb : step n * ((k - 1 : ℕ) + 1 / 2) ≤ 3 * π / 2 := by
    have hk1 : ((k - 1 : ℕ) : ℝ) = k - 1 := by rw [Nat.cast_sub (by omega)]; simp
    have hk2 : (1 : ℝ) ≤ k := by exact_mod_cast (by omega : 1 ≤ k)
    refine (cos_nonpos_range ?_ ?_ ?_).2
    · rw [hk1]; nlinarith
    · rw [hk1]; nlinarith
    · have hd := sin_diff n (k - 1)
      rw [Nat.sub_add_cancel (by omega)] at hd
      have := h' (k - 1) (by omega)
      by_contra hc
      have := mul_pos (mul_pos two_pos hs) (lt_of_not_ge hc)
      linarith
  have hd := sin_diff n j
  have hj1 : (i : ℝ) ≤ j := by exact_mod_cast hij
  have hj2 : (j : ℝ) ≤ ((k - 1 : ℕ) : ℝ) := by exact_mod_cast (by omega : j ≤ k - 1)
  have hc : cos (step n * (j + 1 / 2)) ≤ 0 := by
    refine cos_nonpos_of_pi_div_two_le_of_le ?_ ?_
    · nlinarith
    · have : step n * ((j : ℝ) + 1 / 2) ≤ step n * (((k - 1 : ℕ) : ℝ) + 1 / 2) := by nlinarith
      linarith
  have := mul_nonneg (mul_nonneg two_pos.le hs.le) (neg_nonneg.2 hc)
  linarith

/-- On the left part of the top face they go from left to right in the opposite order. -/
theorem top_left_mono {n i j : ℕ} (hn : 3 ≤ n) (hi : i < n) (h : ∀ j < n, sin (step n * j) ≤ sin (step n * i)) (hij : j < i) :
    sin (step n * j) ≤ sin (step n * ((j + 1 : ℕ) : ℝ)) := by
  have hp := step_pos (show 0 < n by omega)
  have hs := half_pos hn
  have hl := (left_half hn hi h).2
  have hi1 : ((i - 1 : ℕ) : ℝ) = i - 1 := by rw [Nat.cast_sub (by omega)]; simp
  have ha : step n * ((i - 1 : ℕ) + 1 / 2) ≤ π / 2 := by
    by_contra hc
    have hc' := lt_of_not_ge hc
    have hneg : cos (step n * ((i - 1 : ℕ) + 1 / 2)) < 0 := by
      refine cos_neg_of_pi_div_two_lt_of_lt hc' ?_
      rw [hi1]
      nlinarith [pi_pos]
    have hd := sin_diff n (i - 1)
    rw [Nat.sub_add_cancel (by omega)] at hd
    have := h (i - 1) (by omega)
    have := mul_pos (mul_pos two_pos hs) (neg_pos.2 hneg)
    linarith
  have hd := sin_diff n j
  have hj2 : (j : ℝ) ≤ ((i - 1 : ℕ) : ℝ) := by exact_mod_cast (by omega : j ≤ i - 1)
  have hc : 0 ≤ cos (step n * (j + 1 / 2)) := by
    refine cos_nonneg_of_mem_Icc ⟨?_, ?_⟩
    · have : 0 ≤ step n * ((j : ℝ) + 1 / 2) := by positivity
      linarith [pi_pos]
    · have : step n * ((j : ℝ) + 1 / 2) ≤ step n * (((i - 1 : ℕ) : ℝ) + 1 / 2) := by nlinarith
      linarith
  have := mul_nonneg (mul_nonneg two_pos.le hs.le) hc
  linarith

/-- And on the right part. -/
theorem top_right_mono {n k j : ℕ} (hn : 3 ≤ n) (hk : k < n) (h' : ∀ j < n, sin (step n * k) ≤ sin (step n * j)) (hkj : k ≤ j)
    (hj : j < n) : sin (step n * j) ≤ sin (step n * ((j + 1 : ℕ) : ℝ)) := by
  have hp := step_pos (show 0 < n by omega)
  have hm := step_mul (show 0 < n by omega)
  have hs := half_pos hn
  have hr := right_half hn hk h'
  have ha : 3 * π / 2 ≤ step n * (k + 1 / 2) := by
    by_contra hc
    have hc' := lt_of_not_ge hc
    have hneg : cos (step n * (k + 1 / 2)) < 0 := by
      have e : cos (step n * (k + 1 / 2)) = -cos (step n * (k + 1 / 2) - π) := by rw [cos_sub_pi]; ring
      rw [e, neg_lt_zero]
      exact cos_pos_of_mem_Ioo ⟨by nlinarith [pi_pos], by linarith⟩
    have hd := sin_diff n k
    have hle : sin (step n * k) ≤ sin (step n * ((k + 1 : ℕ) : ℝ)) := by
      rcases Nat.lt_or_ge (k + 1) n with h1 | h1
      · exact h' (k + 1) h1
      · have e : k + 1 = n := by omega
        rw [e, hm, sin_two_pi]
        have := h' 0 (by omega)
        simpa using this
    have := mul_pos (mul_pos two_pos hs) (neg_pos.2 hneg)
    linarith
  have hd := sin_diff n j
  have hj1 : (k : ℝ) ≤ j := by exact_mod_cast hkj
  have hj2 : (j : ℝ) + 1 ≤ n := by exact_mod_cast hj
  have hc : 0 ≤ cos (step n * (j + 1 / 2)) := by
    rw [← cos_sub_two_pi]
    refine cos_nonneg_of_mem_Icc ⟨?_, ?_⟩
    · have : step n * ((k : ℝ) + 1 / 2) ≤ step n * ((j : ℝ) + 1 / 2) := by nlinarith
      linarith
    · have : step n * ((j : ℝ) + 1 / 2) ≤ 2 * π := by nlinarith
      linarith [pi_pos]
  have := mul_nonneg (mul_nonneg two_pos.le hs.le) hc
  linarith

/-! ### The loops -/

theorem botLoop_eq {n right : ℕ} (hr : right < n) : ∀ (fuel i : ℕ), i ≤ right → right - i < fuel →
    botLoop n right fuel i = some ((List.range (right - i)).map fun t => i + 1 + t)
  | 0, i, _, h => by omega
  | fuel + 1, i, hi, h => by
    unfold botLoop
    rw [Nat.mod_eq_of_lt (by omega)]
    rcases Nat.eq_or_lt_of_le hi with rfl | hlt
    · simp
    · rw [if_neg (by omega), if_pos (by omega), botLoop_eq hr fuel (i + 1) hlt (by omega)]
      rw [show right - i = (right - (i + 1)) + 1 by omega, List.range_succ_eq_map, Option.map_some, List.map_cons, List.map_map]
      congr 2
      refine List.map_congr_left fun t _ => ?_
      simp only [Function.comp]
      omega

/-- The corner for a (possibly negative) index. -/
def wrap (n : ℕ) (k : ℤ) : ℕ := if k < 0 then (n + k).toNat else k.toNat

theorem topLoop_eq {n right : ℕ} (hr : right < n) : ∀ (fuel : ℕ) (i : ℤ), (right : ℤ) - n ≤ i → i < right →
    (i - (right - n)).toNat < fuel →
    topLoop n right fuel i = some ((List.range (i - (right - n)).toNat).map fun t : ℕ => wrap n (i - 1 - (t : ℤ)))
  | 0, i, _, _, h => by omega
  | fuel + 1, i, hi, hi', h => by
    unfold topLoop
    by_cases he : i = right - n
    · have h1 : i % (n : ℤ) = right := by
        rw [he, Int.sub_emod_right]
        exact Int.emod_eq_of_lt (by omega) (by omega)
      rw [if_pos h1, he]
      simp
    · have h1 : ¬ i % (n : ℤ) = right := by
        intro h1
        rcases le_or_gt 0 i with h0 | h0
        · rw [Int.emod_eq_of_lt h0 (by omega)] at h1
          omega
        · have h2 : i % (n : ℤ) = i + n := by
            rw [← Int.add_emod_right]
            exact Int.emod_eq_of_lt (by omega) (by omega)
          omega
      rw [if_neg h1, if_pos (by omega), topLoop_eq hr fuel (i - 1) (by omega) (by omega) (by omega)]
      rw [show (i - (right - n)).toNat = (i - 1 - (right - n)).toNat + 1 by omega, List.range_succ_eq_map, Option.map_some,
        List.map_cons, List.map_map]
      congr 2
      · unfold wrap; simp
      · refine List.map_congr_left fun t _ => ?_
        simp only [Function.comp]
        congr 1
        push_cast
        ring

theorem consecutive {β : Type} (g : ℕ → β) (m : ℕ) (l r : List β) (a b : β)
    (h : (List.range (m + 1)).map g = l ++ a :: b :: r) : ∃ t < m, a = g t ∧ b = g (t + 1) := by
  have hl : ((List.range (m + 1)).map g).length = l.length + (r.length + 2) := by rw [h]; simp
  simp only [List.length_map, List.length_range] at hl
  refine ⟨l.length, by omega, ?_, ?_⟩
  · have := congrArg (fun x => x[l.length]?) h
    simp [show l.length < m + 1 by omega] at this
    exact this.symm
  · have := congrArg (fun x => x[l.length + 1]?) h
    simp [show l.length + 1 < m + 1 by omega] at this
    exact this.symm

theorem consecutive' {β : Type} (g : ℕ → β) (m t : ℕ) (ht : t < m) :
    ∃ l r, (List.range (m + 1)).map g = l ++ g t :: g (t + 1) :: r := by
  refine ⟨((List.range (m + 1)).map g).take t, ((List.range (m + 1)).map g).drop (t + 2), ?_⟩
  have h1 : t < ((List.range (m + 1)).map g).length := by simp; omega
  have h2 : t + 1 < ((List.range (m + 1)).map g).length := by simp; omega
  conv_lhs => rw [← List.take_append_drop t ((List.range (m + 1)).map g)]
  rw [List.drop_eq_getElem_cons h1, List.drop_eq_getElem_cons h2]
  simp

/-- A step that crosses `x`. -/
theorem crossing (g : ℕ → ℝ) (x : ℝ) : ∀ m, 0 < m → g 0 ≤ x → x ≤ g m → ∃ t < m, g t ≤ x ∧ x ≤ g (t + 1)
  | 0, h, _, _ => by omega
  | m + 1, _, h0, h1 => by
    rcases le_or_gt x (g m) with h | h
    · rcases Nat.eq_zero_or_pos m with rfl | hm
      · exact ⟨0, by omega, h0, h1⟩
      · obtain ⟨t, ht, h2⟩ := crossing g x m hm h0 h
        exact ⟨t, by omega, h2⟩
    · exact ⟨m, by omega, h.le, h1⟩

theorem mix {a b x : ℝ} (h1 : a ≤ x) (h2 : x ≤ b) : ∃ t : ℝ, 0 ≤ t ∧ t ≤ 1 ∧ x = (1 - t) * a + t * b := by
  rcases eq_or_lt_of_le (h1.trans h2) with h | h
  · exact ⟨0, le_rfl, zero_le_one, by linarith⟩
  · have hb : (b - a) ≠ 0 := by linarith
    refine ⟨(x - a) / (b - a), div_nonneg (by linarith) (by linarith), (div_le_one (by linarith)).2 (by linarith), ?_⟩
    field_simp
    ring

end SBayes.Simplex
