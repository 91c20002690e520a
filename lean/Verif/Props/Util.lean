import Verif.Lemmas.Util
import Mathlib.Tactic.NormNum
import Mathlib.Tactic.IntervalCases
/- C46, C47, C48, C60, C61: helpers of sbayes/util.py. -/
namespace SBayes.Util
open scoped BigOperators

/-! ## C46: normalize -/

/-- `normalize(x)` of an array without negative entries whose lines have a positive sum: no negative entry, every line
sums to one, and the entries of a line keep their proportions. -/
theorem C46_normalize {α β : Type} [Fintype β] (x : α → β → ℝ) (h0 : ∀ a b, 0 ≤ x a b) (hs : ∀ a, 0 < ∑ b, x a b) :
    (∀ a b, 0 ≤ normalize x a b) ∧ (∀ a, ∑ b, normalize x a b = 1) ∧
    ∀ a b c, normalize x a b * x a c = normalize x a c * x a b := by
  refine ⟨fun a b => div_nonneg (h0 a b) (hs a).le, fun a => ?_, fun a b c => ?_⟩
  · unfold normalize
    rw [← Finset.sum_div]; exact div_self (hs a).ne'
  · unfold normalize; ring

/-- The same along axis 0. -/
theorem C46_normalize_axis0 {α β : Type} [Fintype α] (x : α → β → ℝ) (h0 : ∀ a b, 0 ≤ x a b)
    (hs : ∀ b, 0 < ∑ a, x a b) :
    (∀ a b, 0 ≤ normalize0 x a b) ∧ (∀ b, ∑ a, normalize0 x a b = 1) ∧
    ∀ a c b, normalize0 x a b * x c b = normalize0 x c b * x a b := by
  refine ⟨fun a b => div_nonneg (h0 a b) (hs b).le, fun b => ?_, fun a c b => ?_⟩
  · unfold normalize0
    rw [← Finset.sum_div]; exact div_self (hs b).ne'
  · unfold normalize0; ring

/-- Normalising twice is the same as normalising once. -/
theorem C46_idempotent {α β : Type} [Fintype β] (x : α → β → ℝ) (hs : ∀ a, ∑ b, x a b ≠ 0) :
    normalize (normalize x) = normalize x := by
  funext a b
  have : ∑ c, normalize x a c = 1 := by
    unfold normalize
    rw [← Finset.sum_div]; exact div_self (hs a)
  rw [normalize, this, div_one]

/-- `mle_weights(samples)` is a maximum likelihood estimate: no other distribution gives the samples (one state each) a
higher probability. -/
theorem C46_mle {n : ℕ} {β : Type} [Fintype β] [DecidableEq β] (state : Fin n → β) (hn : 0 < n) (p : β → ℝ)
    (hp : ∀ b, 0 ≤ p b) (hs : ∑ b, p b = 1) :
    (∑ b, mleWeights (fun i b => state i == b) b = 1) ∧ (∀ b, 0 ≤ mleWeights (fun i b => state i == b) b) ∧
    ∏ i, p (state i) ≤ ∏ i, mleWeights (fun i b => state i == b) (state i) := by
  have hcount : ∀ b, (∑ i, if (state i == b) then (1 : ℝ) else 0) =
      (((Finset.univ.filter (fun i => state i = b)).card : ℕ) : ℝ) := by
    intro b
    rw [Finset.card_filter]
    push_cast
    apply Finset.sum_congr rfl
    intro i _
    by_cases h : state i = b <;> simp [h]
  have htot : ∑ b, ((Finset.univ.filter (fun i => state i = b)).card) = n := by
    have := Finset.card_eq_sum_card_fiberwise (f := state) (s := Finset.univ) (t := Finset.univ) (fun _ _ => Finset.mem_univ _)
    rw [Finset.card_univ, Fintype.card_fin] at this
    exact this.symm
  have hm : ∀ b, mleWeights (fun i b => state i == b) b =
      (((Finset.univ.filter (fun i => state i = b)).card : ℕ) : ℝ) /
        ∑ c, (((Finset.univ.filter (fun i => state i = c)).card : ℕ) : ℝ) := by
    intro b
    unfold mleWeights
    rw [hcount b]
    congr 1
    exact Finset.sum_congr rfl (fun c _ => hcount c)
  have hprod : ∀ q : β → ℝ, ∏ i, q (state i) = ∏ b, q b ^ (Finset.univ.filter (fun i => state i = b)).card := by
    intro q
    rw [← Finset.prod_fiberwise' Finset.univ state (fun b => q b)]
    simp
  have hpos : (0 : ℝ) < ∑ c, (((Finset.univ.filter (fun i => state i = c)).card : ℕ) : ℝ) := by
    rw [← Nat.cast_sum, htot]; exact_mod_cast hn
  refine ⟨?_, ?_, ?_⟩
  · simp only [hm]
    rw [← Finset.sum_div]; exact div_self hpos.ne'
  · intro b
    rw [hm]
    exact div_nonneg (Nat.cast_nonneg _) hpos.le
  · rw [hprod, hprod]
    simp only [hm]
    exact prod_pow_le _ p hp hs (by rw [htot]; exact hn)

example : normalize (fun (_ : Unit) (b : Fin 2) => if b = 0 then 1 else 3) () 1 = 3 / 4 := by
  unfold normalize
  rw [Fin.sum_univ_two]
  norm_num

example : (∀ _b : Fin 2, (0 : ℝ) ≤ 1 / 2) ∧ ∑ _b : Fin 2, (1 / 2 : ℝ) = 1 := by
  refine ⟨fun _ => by norm_num, ?_⟩
  rw [Fin.sum_univ_two]; norm_num

/-- `assign_na`: exactly the drawn positions become missing (all states false), nothing else changes. -/
theorem C46_assign_na {N F S : ℕ} (features : Fin N → Fin F → Fin S → Bool) (draws : List (Fin N × Fin F))
    (n : Fin N) (f : Fin F) (s : Fin S) :
    assignNa features draws n f s = if (n, f) ∈ draws then false else features n f s := by
  induction draws generalizing features with
  | nil => simp [assignNa]
  | cons d rest ih =>
    obtain ⟨i, j⟩ := d
    rw [assignNa, ih]
    by_cases h1 : (n, f) ∈ rest
    · simp [h1]
    · by_cases h2 : n = i ∧ f = j
      · simp [h2]
      · have : ¬ ((n, f) = (i, j)) := by
          intro h; exact h2 (by simpa using h)
        simp [h1, h2, this]

/-! ## C47: linear_rescale -/

/-- The stated behaviour: `old_min` goes to `new_min` and `old_max` to `new_max`. -/
def MapsEnds (f : ℝ → ℝ) (oldMin oldMax newMin newMax : ℝ) : Prop := f oldMin = newMin ∧ f oldMax = newMax

/-- `linear_rescale` is linear with the right slope: it stretches distances by the ratio of the ranges and is strictly
increasing if both ranges are proper. Missing for the full property: the position (see the next two theorems). -/
theorem C47_linear_rescale_partial (oldMin oldMax newMin newMax : ℝ) :
    (∀ x y, linearRescale y oldMin oldMax newMin newMax - linearRescale x oldMin oldMax newMin newMax =
      (newMax - newMin) / (oldMax - oldMin) * (y - x)) ∧
    (oldMin < oldMax → newMin < newMax → StrictMono (fun x => linearRescale x oldMin oldMax newMin newMax)) ∧
    linearRescale oldMax oldMin oldMax newMin newMax = oldMax := by
  refine ⟨fun x y => by unfold linearRescale; ring, fun h1 h2 x y hxy => ?_, by unfold linearRescale; ring⟩
  have hs : 0 < (newMax - newMin) / (oldMax - oldMin) := div_pos (by linarith) (by linarith)
  have := mul_pos hs (sub_pos.mpr hxy)
  simp only [linearRescale]
  nlinarith

/-- It maps the ends of the old range to the ends of the new range only if both ranges end at the same value. -/
theorem C47_only_if_same_end (oldMin oldMax newMin newMax : ℝ) (h : oldMin < oldMax) :
    MapsEnds (fun x => linearRescale x oldMin oldMax newMin newMax) oldMin oldMax newMin newMax ↔ newMax = oldMax := by
  have hne : oldMax - oldMin ≠ 0 := by linarith
  unfold MapsEnds linearRescale
  dsimp only
  constructor
  · rintro ⟨_, h2⟩
    rw [sub_self, mul_zero, zero_add] at h2
    exact h2.symm
  · rintro rfl
    refine ⟨?_, by ring⟩
    have : (newMax - newMin) / (newMax - oldMin) * (oldMin - newMax) = -(newMax - newMin) := by
      field_simp
      ring
    rw [this]; ring

/-- So the property is false: rescaling from [0, 1] to [0, 10] maps 1 to 1. -/
theorem C47_linear_rescale_false :
    ¬ ∀ oldMin oldMax newMin newMax : ℝ, oldMin < oldMax → newMin < newMax →
      MapsEnds (fun x => linearRescale x oldMin oldMax newMin newMax) oldMin oldMax newMin newMax := by
  intro h
  have := (C47_only_if_same_end 0 1 0 10 (by norm_num)).mp (h 0 1 0 10 (by norm_num) (by norm_num))
  norm_num at this

/-! ## C48: rounding -/

/-- The granularity of rounding at the given digit (1 = the first digit) of `n`. -/
def granularity (n position : ℤ) : ℤ := 10 ^ ((nDigitsNat n.natAbs : ℤ) - position).toNat

/-- `round_single_int` at a digit that `n` has: a multiple of the granularity, at the requested side of `n` and by the
offset (in units of the granularity) away from it, but not by more than one unit more. It raises at any later digit. -/
theorem C48_round_single_int (n position offset : ℤ) (hn : n ≠ 0) (hp : 1 ≤ position) :
    (position > nDigitsNat n.natAbs → ∀ mode, roundSingleInt n mode position offset = none) ∧
    (position ≤ nDigitsNat n.natAbs →
      (∃ r, roundSingleInt n .up position offset = some r ∧ granularity n position ∣ r ∧
        n + offset * granularity n position ≤ r ∧ r ≤ n + (offset + 1) * granularity n position) ∧
      (∃ r, roundSingleInt n .down position offset = some r ∧ granularity n position ∣ r ∧
        n - (offset + 1) * granularity n position < r ∧ r ≤ n - offset * granularity n position)) := by
  have hd := nDigits_pos hn
  constructor
  · intro h mode
    rw [roundSingleInt_form n mode position offset hp, hd, if_pos h]
  · intro h
    rw [roundSingleInt_form n _ position offset hp, roundSingleInt_form n _ position offset hp, hd,
      if_neg (not_lt.mpr h), if_neg (not_lt.mpr h)]
    by_cases he : position = nDigitsNat n.natAbs
    · rw [if_pos he, if_pos he]
      have hg : granularity n position = 1 := by
        unfold granularity
        rw [he, sub_self]; rfl
      rw [hg]
      refine ⟨⟨_, rfl, one_dvd _, ?_, ?_⟩, ⟨_, rfl, one_dvd _, ?_, ?_⟩⟩ <;> simp
    · rw [if_neg he, if_neg he]
      dsimp only
      have hg : (10 : ℤ) ^ ((nDigitsNat n.natAbs : ℤ) - position).toNat = granularity n position := rfl
      rw [hg]
      have hpos : 0 < granularity n position := by unfold granularity; positivity
      generalize granularity n position = g at hpos
      have h1 := Int.mul_ediv_add_emod n g
      have h2 := Int.emod_nonneg n hpos.ne'
      have h3 := Int.emod_lt_of_pos n hpos
      refine ⟨⟨_, rfl, ?_, ?_, ?_⟩, ⟨_, rfl, ?_, ?_, ?_⟩⟩
      · rw [if_neg (by decide)]; exact ⟨n / g + (offset + 1), by ring⟩
      · rw [if_neg (by decide)]; nlinarith
      · rw [if_neg (by decide)]; nlinarith
      · rw [if_pos rfl]; exact ⟨n / g - offset, by ring⟩
      · rw [if_pos rfl]; nlinarith
      · rw [if_pos rfl]; nlinarith

/-- A number that already is a multiple of the granularity is not kept by rounding up (before the last digit). -/
theorem C48_up_moves_multiples (n position : ℤ) (hn : n ≠ 0) (hp : 1 ≤ position) (hl : position < nDigitsNat n.natAbs)
    (hd : granularity n position ∣ n) :
    roundSingleInt n .up position 0 = some (n + granularity n position) := by
  have hd' := nDigits_pos hn
  rw [roundSingleInt_form n _ position 0 hp, hd', if_neg (not_lt.mpr hl.le), if_neg hl.ne]
  dsimp only
  have hg : (10 : ℤ) ^ ((nDigitsNat n.natAbs : ℤ) - position).toNat = granularity n position := rfl
  rw [hg, if_neg (by decide), Int.ediv_mul_cancel hd]
  congr 1; ring

example : roundSingleInt 113 .up 2 0 = some 120 ∧ roundSingleInt 3456 .down 3 0 = some 3450 ∧
    roundSingleInt 3456 .down 2 1 = some 3300 ∧ roundSingleInt (-113) .down 2 0 = some (-120) := by decide

/-- `round_multiple_ints` for positive numbers and a digit that all of them have: all numbers are rounded with one
common granularity, in their direction. -/
theorem C48_round_multiple_ints (ups downs : List ℤ) (position offset : ℤ) (hp : 1 ≤ position)
    (hpos : ∀ n ∈ ups ++ downs, 0 < n) (hdig : ∀ n ∈ ups ++ downs, position ≤ nDigitsNat n.natAbs)
    (hne : ups ++ downs ≠ []) :
    ∃ g u d, roundMultipleInts ups downs position offset = some (u, d) ∧ 0 < g ∧
      List.Forall₂ (fun n r => g ∣ r ∧ n + offset * g ≤ r ∧ r ≤ n + (offset + 1) * g) ups u ∧
      List.Forall₂ (fun n r => g ∣ r ∧ n - (offset + 1) * g < r ∧ r ≤ n - offset * g) downs d := by
  -- the smallest number
  obtain ⟨m, hm, hmem, hmin⟩ : ∃ m, minInt (ups ++ downs) = some m ∧ m ∈ ups ++ downs ∧ ∀ n ∈ ups ++ downs, m ≤ n := by
    cases h : ups ++ downs with
    | nil => exact absurd h hne
    | cons x l =>
      refine ⟨_, rfl, foldl_min_mem l x, ?_⟩
      intro n hn
      rcases List.mem_cons.mp hn with rfl | hn
      · exact (foldl_min_le l n).1
      · exact (foldl_min_le l x).2 n hn
  have hlen : ∀ n ∈ ups ++ downs, lenStr n = nDigitsNat n.natAbs := by
    intro n hn
    unfold lenStr
    rw [if_neg (by have := hpos n hn; omega)]
  -- the digit at which each number is rounded
  have hround : ∀ n ∈ ups ++ downs, 1 ≤ position + lenStr n - (lenStr m : ℤ) ∧
      position + lenStr n - (lenStr m : ℤ) ≤ nDigitsNat n.natAbs ∧
      granularity n (position + lenStr n - (lenStr m : ℤ)) = granularity m position := by
    intro n hn
    have h1 := hlen n hn
    have h2 := hlen m hmem
    have h3 : nDigitsNat m.natAbs ≤ nDigitsNat n.natAbs := by
      apply toDigits_length_mono
      have := hmin n hn
      have := hpos m hmem
      omega
    have h4 := hdig m hmem
    refine ⟨by omega, by omega, ?_⟩
    unfold granularity
    congr 2
    omega
  have hmap : ∀ (mode : Mode) (P : ℤ → ℤ → Prop) (l : List ℤ),
      (∀ n ∈ l, ∃ r, roundSingleInt n mode (position + lenStr n - (lenStr m : ℤ)) offset = some r ∧ P n r) →
      ∃ u, l.mapM (fun n => roundSingleInt n mode (position + lenStr n - (lenStr m : ℤ)) offset) = some u ∧
        List.Forall₂ P l u := by
    intro mode P l
    induction l with
    | nil => intro _; exact ⟨[], by simp, List.Forall₂.nil⟩
    | cons x l ih =>
      intro h
      obtain ⟨r, hr, hP⟩ := h x List.mem_cons_self
      obtain ⟨u, hu, hF⟩ := ih (fun n hn => h n (List.mem_cons_of_mem _ hn))
      exact ⟨r :: u, by simp [List.mapM_cons, hr, hu], List.Forall₂.cons hP hF⟩
  obtain ⟨u, hu, hFu⟩ := hmap .up (fun n r => granularity m position ∣ r ∧
      n + offset * granularity m position ≤ r ∧ r ≤ n + (offset + 1) * granularity m position) ups (by
    intro n hn
    have hn' : n ∈ ups ++ downs := List.mem_append_left _ hn
    obtain ⟨h1, h2, h3⟩ := hround n hn'
    have := ((C48_round_single_int n _ offset (by have := hpos n hn'; omega) h1).2 h2).1
    rw [h3] at this
    exact this)
  obtain ⟨d, hd, hFd⟩ := hmap .down (fun n r => granularity m position ∣ r ∧
      n - (offset + 1) * granularity m position < r ∧ r ≤ n - offset * granularity m position) downs (by
    intro n hn
    have hn' : n ∈ ups ++ downs := List.mem_append_right _ hn
    obtain ⟨h1, h2, h3⟩ := hround n hn'
    have := ((C48_round_single_int n _ offset (by have := hpos n hn'; omega) h1).2 h2).2
    rw [h3] at this
    exact this)
  refine ⟨granularity m position, u, d, ?_, by unfold granularity; positivity, hFu, hFd⟩
  unfold roundMultipleInts
  simp [hm, hu, hd]

example : roundMultipleInts [113, 3456] [57] 1 0 = some ([120, 3460], [50]) := by decide

/-- With a negative number it may raise although every number has the requested digit: the sign is counted as a digit
(limits of an axis from -500 to 50, rounded at the first digit). -/
theorem C48_round_multiple_ints_false :
    (∀ n ∈ ([50, -500] : List ℤ), n ≠ 0 ∧ (1 : ℤ) ≤ nDigitsNat n.natAbs) ∧ roundMultipleInts [50] [-500] 1 0 = none := by
  decide

/-- `round_int(n, 'up', offset)` returns a value exactly for `n` up to the offset, and `round_int(n, 'down', offset)`
exactly for `n` from minus the offset; the value is on the requested side of `n`, at least by the offset for numbers
beyond it. -/
theorem C48_round_int (n : ℤ) (offset : ℕ) :
    ((∃ r, roundInt n .up offset = some r) ↔ n ≤ offset) ∧
    ((∃ r, roundInt n .down offset = some r) ↔ -(offset : ℤ) ≤ n) ∧
    (∀ r, roundInt n .up offset = some r → n ≤ r ∧ (n < -(offset : ℤ) → n + offset ≤ r)) ∧
    (∀ r, roundInt n .down offset = some r → r ≤ n ∧ ((offset : ℤ) < n → r ≤ n - offset)) := by
  have hc := convertor_pos offset
  have hfloor : ∀ x : ℤ, x / convertor offset * convertor offset ≤ x := fun x => Int.ediv_mul_le x hc.ne'
  have hu : ∀ x : ℤ, roundIntNonneg x .up offset = if x > offset then none else some (offset + convertor offset) := by
    intro x; unfold roundIntNonneg; simp
  have hd : ∀ x : ℤ, roundIntNonneg x .down offset =
      if x > offset then some (x / convertor offset * convertor offset - offset) else some (-offset) := by
    intro x; unfold roundIntNonneg; simp
  by_cases h0 : n ≥ 0
  · have e1 : roundInt n .up offset = roundIntNonneg n .up offset := by unfold roundInt; rw [if_pos h0]
    have e2 : roundInt n .down offset = roundIntNonneg n .down offset := by unfold roundInt; rw [if_pos h0]
    rw [e1, e2, hu, hd]
    have hf := hfloor n
    by_cases hn : n > offset
    · rw [if_pos hn, if_pos hn]
      refine ⟨⟨fun h => ?_, fun h => ?_⟩, ⟨fun _ => ?_, fun _ => ⟨_, rfl⟩⟩, fun r hr => ?_, fun r hr => ?_⟩
      · obtain ⟨r, hr⟩ := h; simp at hr
      · omega
      · omega
      · simp at hr
      · rw [Option.some.injEq] at hr
        exact ⟨by omega, fun _ => by omega⟩
    · rw [if_neg hn, if_neg hn]
      refine ⟨⟨fun _ => ?_, fun h => ⟨_, rfl⟩⟩, ⟨fun _ => ?_, fun _ => ⟨_, rfl⟩⟩, fun r hr => ?_, fun r hr => ?_⟩
      · omega
      · omega
      · rw [Option.some.injEq] at hr
        exact ⟨by omega, fun _ => by omega⟩
      · rw [Option.some.injEq] at hr
        exact ⟨by omega, fun _ => by omega⟩
  · have ha : ((n.natAbs : ℕ) : ℤ) = -n := by omega
    have e1 : roundInt n .up offset = (roundIntNonneg (-n) .down offset).map (fun r => -r) := by
      unfold roundInt; rw [if_neg h0, ha]; rfl
    have e2 : roundInt n .down offset = (roundIntNonneg (-n) .up offset).map (fun r => -r) := by
      unfold roundInt; rw [if_neg h0, ha]; rfl
    rw [e1, e2, hu, hd]
    have hf := hfloor (-n)
    by_cases hn : -n > offset
    · rw [if_pos hn, if_pos hn]
      refine ⟨⟨fun _ => ?_, fun h => ⟨_, rfl⟩⟩, ⟨fun h => ?_, fun _ => ?_⟩, fun r hr => ?_, fun r hr => ?_⟩
      · omega
      · obtain ⟨r, hr⟩ := h; simp at hr
      · omega
      · rw [Option.map_some, Option.some.injEq] at hr
        exact ⟨by omega, fun _ => by omega⟩
      · simp at hr
    · rw [if_neg hn, if_neg hn]
      refine ⟨⟨fun _ => ?_, fun h => ⟨_, rfl⟩⟩, ⟨fun _ => ?_, fun _ => ⟨_, rfl⟩⟩, fun r hr => ?_, fun r hr => ?_⟩
      · omega
      · omega
      · rw [Option.map_some, Option.some.injEq] at hr
        exact ⟨by omega, fun _ => by omega⟩
      · rw [Option.map_some, Option.some.injEq] at hr
        exact ⟨by omega, fun _ => by omega⟩

/-- So rounding up a number above the offset raises: the docstring's `113 -> 120` is impossible. -/
theorem C48_round_int_false : roundInt 113 .up 0 = none := by decide

example : roundInt 113 .down 10 = some 100 ∧ roundInt 5 .up 10 = some 20 ∧ roundInt (-113) .up 10 = some (-100) := by decide

/-- The number of digits used above is the one of the decimal notation: `10 ^ (d - 1) ≤ m < 10 ^ d`. -/
theorem C48_digits (m : ℕ) (hm : 0 < m) : 10 ^ (nDigitsNat m - 1) ≤ m ∧ m < 10 ^ nDigitsNat m := by
  have h : ∀ k, nDigitsNat m ≤ k + 1 ↔ m < 10 ^ (k + 1) := fun k => Nat.length_toDigits_le_iff (by norm_num) (by omega)
  have hp := nDigitsNat_pos m
  constructor
  · by_contra hlt
    rcases Nat.lt_or_ge (nDigitsNat m) 2 with h2 | h2
    · have : nDigitsNat m - 1 = 0 := by omega
      rw [this] at hlt; simp at hlt; omega
    · have := (h (nDigitsNat m - 2)).2 (by rw [show nDigitsNat m - 2 + 1 = nDigitsNat m - 1 by omega]; omega)
      omega
  · have := (h (nDigitsNat m - 1)).1 (by omega)
    rwa [show nDigitsNat m - 1 + 1 = nDigitsNat m by omega] at this

/-- How far `round_int` goes: with `10 ^ k` the power of ten of the first digit of the offset, numbers beyond the offset
are moved away by the offset and less than `10 ^ k` more, to a multiple of `10 ^ k` shifted by the offset; the other
numbers go to `± offset` or `± (offset + 10 ^ k)`. -/
theorem C48_round_int_close (n : ℤ) (offset : ℕ) (ho : 0 < offset) :
    ∃ k : ℕ, 10 ^ k ≤ offset ∧ offset < 10 ^ (k + 1) ∧
      ((offset : ℤ) < n → ∃ r, roundInt n .down offset = some r ∧ n - offset - 10 ^ k < r ∧ r ≤ n - offset ∧
        (10 : ℤ) ^ k ∣ r + offset) ∧
      (n < -(offset : ℤ) → ∃ r, roundInt n .up offset = some r ∧ n + offset ≤ r ∧ r < n + offset + 10 ^ k ∧
        (10 : ℤ) ^ k ∣ r - offset) ∧
      (0 ≤ n → n ≤ offset → roundInt n .up offset = some ((offset : ℤ) + 10 ^ k) ∧
        roundInt n .down offset = some (-(offset : ℤ))) ∧
      (n < 0 → -(offset : ℤ) ≤ n →
        roundInt n .up offset = some (offset : ℤ) ∧ roundInt n .down offset = some (-((offset : ℤ) + 10 ^ k))) := by
  have hd := C48_digits offset ho
  have hp := nDigitsNat_pos offset
  refine ⟨nDigitsNat offset - 1, hd.1, by rw [show nDigitsNat offset - 1 + 1 = nDigitsNat offset by omega]; exact hd.2, ?_⟩
  have hc : (10 : ℤ) ^ (nDigitsNat offset - 1) = convertor offset := rfl
  rw [hc]
  have hcp := convertor_pos offset
  have hl : ∀ x : ℤ, x - convertor offset < x / convertor offset * convertor offset := by
    intro x; have := Int.emod_add_ediv_mul x (convertor offset); have := Int.emod_lt_of_pos x hcp; omega
  have hf : ∀ x : ℤ, x / convertor offset * convertor offset ≤ x := fun x => Int.ediv_mul_le x hcp.ne'
  refine ⟨fun h => ?_, fun h => ?_, fun h0 h => ?_, fun h0 h => ?_⟩
  · refine ⟨n / convertor offset * convertor offset - offset, ?_, ?_, ?_, ?_⟩
    · unfold roundInt; rw [if_pos (by omega)]; unfold roundIntNonneg; rw [if_pos (by omega)]
    · have := hl n; omega
    · have := hf n; omega
    · rw [sub_add_cancel]; exact Dvd.intro_left _ rfl
  · have ha : ((n.natAbs : ℕ) : ℤ) = -n := by omega
    refine ⟨-(-n / convertor offset * convertor offset - offset), ?_, ?_, ?_, ?_⟩
    · unfold roundInt; rw [if_neg (by omega), ha]; unfold roundIntNonneg; rw [if_pos (by omega)]; rfl
    · have := hf (-n); omega
    · have := hl (-n); omega
    · rw [show -(-n / convertor offset * convertor offset - (offset : ℤ)) - offset =
        -(-n / convertor offset * convertor offset) by ring]
      exact (dvd_neg).2 (Dvd.intro_left _ rfl)
  · unfold roundInt roundIntNonneg
    simp [h0, not_lt.2 h]
  · have ha : ((n.natAbs : ℕ) : ℤ) = -n := by omega
    have h1 : ¬ (0 ≤ n) := by omega
    have h2 : ¬ ((offset : ℤ) < -n) := by omega
    unfold roundInt roundIntNonneg
    rw [ha]
    simp [h1, h2]

/-! ## C60: sizes of the warm-up chains -/

/-- `get_max_size_list(start, end, n_total, k_groups)`: one entry per chain; entries start at `start`, never decrease,
stay below `end`, and neighbouring chains share a size in groups of `ceil(n_total / k_groups)`. -/
theorem C60_max_size_list (start stop : ℤ) (nTotal kGroups : ℕ) (hk : 0 < kGroups) (h : start ≤ stop) :
    (maxSizeList start stop nTotal kGroups).length = nTotal ∧
    (∀ x, (maxSizeList start stop nTotal kGroups)[0]? = some x → x = start) ∧
    (∀ (i : ℕ) (x : ℤ), (maxSizeList start stop nTotal kGroups)[i]? = some x → start ≤ x ∧ (start < stop → x < stop)) ∧
    (∀ (i j : ℕ) (x y : ℤ), i ≤ j → (maxSizeList start stop nTotal kGroups)[i]? = some x →
      (maxSizeList start stop nTotal kGroups)[j]? = some y → x ≤ y) ∧
    (∀ i j : ℕ, i < nTotal → j < nTotal → i / ((nTotal + kGroups - 1) / kGroups) = j / ((nTotal + kGroups - 1) / kGroups) →
      (maxSizeList start stop nTotal kGroups)[i]? = (maxSizeList start stop nTotal kGroups)[j]?) := by
  set m := (nTotal + kGroups - 1) / kGroups with hm
  have hkm : nTotal ≤ kGroups * m := by
    have h1 := Nat.div_add_mod (nTotal + kGroups - 1) kGroups
    have h2 := Nat.mod_lt (nTotal + kGroups - 1) hk
    rw [← hm] at h1
    omega
  have hget : ∀ i, (maxSizeList start stop nTotal kGroups)[i]? =
      if i < nTotal then some (start + ((i / m : ℕ) : ℤ) * (stop - start) / (kGroups : ℤ)) else none := by
    intro i
    unfold maxSizeList
    dsimp only
    rw [List.getElem?_take, flatMap_replicate_getElem?]
    by_cases hi : i < nTotal
    · have hmpos : 0 < m := by
        rcases Nat.eq_zero_or_pos m with h0 | h0
        · rw [h0] at hkm; omega
        · exact h0
      have hlt : i / m < kGroups := by
        rw [Nat.div_lt_iff_lt_mul hmpos]; omega
      rw [if_pos hi, if_pos hi, ← hm, if_neg hmpos.ne', List.getElem?_map, List.getElem?_range hlt]
      rfl
    · rw [if_neg hi, if_neg hi]
  have hk' : (0 : ℤ) < kGroups := by exact_mod_cast hk
  have hd : 0 ≤ stop - start := by omega
  refine ⟨?_, ?_, ?_, ?_, ?_⟩
  · apply Nat.le_antisymm
    · unfold maxSizeList
      dsimp only
      rw [List.length_take]; exact Nat.min_le_left _ _
    · by_contra hlt
      have hlt' : (maxSizeList start stop nTotal kGroups).length < nTotal := by omega
      have := hget (maxSizeList start stop nTotal kGroups).length
      rw [if_pos hlt', List.getElem?_eq_none (le_refl _)] at this
      simp at this
  · intro x hx
    rw [hget] at hx
    split_ifs at hx
    simp only [Nat.zero_div, Nat.cast_zero, zero_mul, Int.zero_ediv, add_zero, Option.some.injEq] at hx
    exact hx.symm
  · intro i x hx
    rw [hget] at hx
    split_ifs at hx with hi
    simp only [Option.some.injEq] at hx
    have hmpos : 0 < m := by
      rcases Nat.eq_zero_or_pos m with h0 | h0
      · rw [h0] at hkm; omega
      · exact h0
    have hlt : i / m < kGroups := by
      rw [Nat.div_lt_iff_lt_mul hmpos]; omega
    have h1 : 0 ≤ ((i / m : ℕ) : ℤ) * (stop - start) / (kGroups : ℤ) := by positivity
    refine ⟨by omega, fun hs => ?_⟩
    have h2 : ((i / m : ℕ) : ℤ) * (stop - start) / (kGroups : ℤ) < stop - start := by
      rw [Int.ediv_lt_iff_lt_mul hk', mul_comm]
      apply mul_lt_mul_of_pos_left _ (by omega)
      exact_mod_cast hlt
    omega
  · intro i j x y hij hx hy
    rw [hget] at hx hy
    split_ifs at hx hy
    simp only [Option.some.injEq] at hx hy
    have : ((i / m : ℕ) : ℤ) ≤ ((j / m : ℕ) : ℤ) := by exact_mod_cast Nat.div_le_div_right hij
    have := Int.ediv_le_ediv hk' (mul_le_mul_of_nonneg_right this hd)
    omega
  · intro i j hi hj hij
    rw [hget, hget, if_pos hi, if_pos hj, hij]

example : maxSizeList 4 12 5 2 = [4, 4, 4, 8, 8] := by decide

/-! ## C61: smallest distances and bounding boxes -/

/-- The pairs `n_smallest_distances` chooses from: the lower triangle without the zero distances. -/
def Candidate {m : ℕ} (a : Fin m → Fin m → ℝ) (p : Fin m × Fin m) : Prop := p.2 ≤ p.1 ∧ a p.1 p.2 ≠ 0


open Classical in
/-- `n_smallest_distances(a, n, return_idx=True)`: pairs of the lower triangle at non-zero distance, no pair twice; every
chosen pair is strictly closer than every pair that was not chosen; at least `n` pairs if there are that many, and
exactly `n` if no two distances are equal. -/
theorem C61_n_smallest_idx {m : ℕ} (a : Fin m → Fin m → ℝ) (n : ℕ) :
    (∀ p ∈ nSmallestIdx a n, Candidate a p) ∧ (nSmallestIdx a n).Nodup ∧
    (∀ p q, p ∈ nSmallestIdx a n → Candidate a q → q ∉ nSmallestIdx a n → a p.1 p.2 < a q.1 q.2) ∧
    (n ≤ (Finset.univ.filter (Candidate a)).card → n ≤ (nSmallestIdx a n).length) ∧
    ((∀ p q, Candidate a p → Candidate a q → a p.1 p.2 = a q.1 q.2 → p = q) →
      (nSmallestIdx a n).length = min n (Finset.univ.filter (Candidate a)).card) := by
  set all : List (Fin m × Fin m) := (List.finRange m).flatMap (fun i => (List.finRange m).map (fun j => (i, j))) with hall
  have hallmem : ∀ p, p ∈ all := by
    intro p
    rw [hall, List.mem_flatMap]
    exact ⟨p.1, List.mem_finRange _, List.mem_map.mpr ⟨p.2, List.mem_finRange _, rfl⟩⟩
  have hallnd : all.Nodup := by
    rw [hall, List.nodup_flatMap]
    refine ⟨fun i _ => (List.nodup_finRange m).map (fun x y h => by simpa using h), ?_⟩
    apply List.Nodup.pairwise_of_forall_ne (List.nodup_finRange m)
    intro i _ j _ hij x hx hy
    simp only [List.mem_map] at hx hy
    obtain ⟨_, _, rfl⟩ := hx
    obtain ⟨_, _, h⟩ := hy
    simp only [Prod.mk.injEq] at h
    exact hij h.1.symm
  set val : Fin m × Fin m → ℝ := fun p => if p.2 ≤ p.1 then a p.1 p.2 else 0 with hval
  -- the values that are sorted
  set cand : List (Fin m × Fin m) := all.filter (fun p => decide (val p ≠ 0)) with hcand
  have hcandmem : ∀ p, p ∈ cand ↔ Candidate a p := by
    intro p
    rw [hcand, List.mem_filter]
    simp only [decide_eq_true_eq, hval, Candidate]
    by_cases h : p.2 ≤ p.1
    · simp [h, hallmem p]
    · simp [h]
  have hcandval : ∀ p, Candidate a p → val p = a p.1 p.2 := by
    intro p hp
    rw [hval]
    dsimp only
    rw [if_pos hp.1]
  have hcandnd : cand.Nodup := hallnd.filter _
  set V : List ℝ := cand.map val with hV
  have hsm : nSmallest a n = (V.mergeSort (fun x y => x ≤ y)).take n := by
    unfold nSmallest
    congr 2
    rw [hV, hcand, show (List.finRange m).flatMap (fun i => (List.finRange m).map (fun j => if j ≤ i then a i j else 0)) =
      all.map val from ?_]
    · rw [List.filter_map]; rfl
    · rw [hall, List.map_flatMap]
      simp only [List.map_map]
      rfl
  set W := V.mergeSort (fun x y => x ≤ y) with hW
  have hperm : W.Perm V := List.mergeSort_perm _ _
  have hsorted : W.Pairwise (· ≤ ·) := mergeSort_real_sorted V
  have hidx : nSmallestIdx a n = cand.filter (fun p => decide (val p ∈ W.take n)) := by
    unfold nSmallestIdx
    rw [hsm, hcand, List.filter_filter]
    apply List.filter_congr
    intro p _
    by_cases h : val p ∈ W.take n
    · have : val p ≠ 0 := by
        have h1 : val p ∈ V := hperm.subset (List.mem_of_mem_take h)
        rw [hV, List.mem_map] at h1
        obtain ⟨q, hq, he⟩ := h1
        rw [← he]
        have := (List.mem_filter.mp hq).2
        simpa using this
      have h' : (if p.2 ≤ p.1 then a p.1 p.2 else 0) ∈ W.take n := h
      simp only [h, h', this, ne_eq, not_false_eq_true, decide_true, Bool.and_true]
    · have h' : ¬ (if p.2 ≤ p.1 then a p.1 p.2 else 0) ∈ W.take n := h
      simp only [h, h', decide_false, Bool.false_and]
  have hmem : ∀ p, p ∈ nSmallestIdx a n ↔ Candidate a p ∧ a p.1 p.2 ∈ W.take n := by
    intro p
    rw [hidx, List.mem_filter, hcandmem, decide_eq_true_eq]
    constructor
    · rintro ⟨h1, h2⟩; exact ⟨h1, by rw [← hcandval p h1]; exact h2⟩
    · rintro ⟨h1, h2⟩; exact ⟨h1, by rw [hcandval p h1]; exact h2⟩
  have hsplit : W.take n ++ W.drop n = W := List.take_append_drop n W
  have hle : ∀ x ∈ W.take n, ∀ y ∈ W.drop n, x ≤ y := by
    have := hsorted
    rw [← hsplit, List.pairwise_append] at this
    exact this.2.2
  -- lengths
  have hcard : cand.length = (Finset.univ.filter (Candidate a)).card := by
    rw [← List.toFinset_card_of_nodup hcandnd]
    congr 1
    ext p
    simp [hcandmem]
  have hWlen : W.length = (Finset.univ.filter (Candidate a)).card := by
    rw [hperm.length_eq, hV, List.length_map, hcard]
  have hlen : (nSmallestIdx a n).length = (W.filter (fun x => decide (x ∈ W.take n))).length := by
    rw [(hperm.filter _).length_eq, hV, List.filter_map, List.length_map, hidx]
    rfl
  have hlen2 : (nSmallestIdx a n).length = (W.take n).length + ((W.drop n).filter (fun x => decide (x ∈ W.take n))).length := by
    rw [hlen]
    conv_lhs => rw [show W.filter (fun x => decide (x ∈ W.take n)) =
      (W.take n ++ W.drop n).filter (fun x => decide (x ∈ W.take n)) by rw [hsplit]]
    rw [List.filter_append, List.length_append]
    congr 2
    rw [List.filter_eq_self]
    intro x hx
    simpa using hx
  refine ⟨fun p hp => ((hmem p).mp hp).1, ?_, ?_, ?_, ?_⟩
  · rw [hidx]; exact hcandnd.filter _
  · intro p q hp hq hq'
    have h1 := ((hmem p).mp hp).2
    have h2 : a q.1 q.2 ∉ W.take n := fun h => hq' ((hmem q).mpr ⟨hq, h⟩)
    have h3 : a q.1 q.2 ∈ W := by
      apply hperm.symm.subset
      rw [hV, List.mem_map]
      exact ⟨q, (hcandmem q).mpr hq, hcandval q hq⟩
    rw [← hsplit, List.mem_append] at h3
    rcases h3 with h3 | h3
    · exact absurd h3 h2
    · refine lt_of_le_of_ne (hle _ h1 _ h3) ?_
      intro he
      rw [he] at h1
      exact h2 h1
  · intro h
    rw [hlen2, List.length_take, hWlen]
    omega
  · intro hinj
    rw [hlen2, List.length_take, hWlen]
    have hVnd : V.Nodup := by
      rw [hV]
      apply List.Nodup.map_on _ hcandnd
      intro p hp q hq h
      rw [hcandval p ((hcandmem p).mp hp), hcandval q ((hcandmem q).mp hq)] at h
      exact hinj p q ((hcandmem p).mp hp) ((hcandmem q).mp hq) h
    have hWnd : W.Nodup := hperm.nodup_iff.mpr hVnd
    have hz : (W.drop n).filter (fun x => decide (x ∈ W.take n)) = [] := by
      rw [List.filter_eq_nil_iff]
      intro x hx
      rw [decide_eq_true_eq]
      intro hx'
      rw [← hsplit, List.nodup_append] at hWnd
      exact hWnd.2.2 x hx' x hx rfl
    rw [hz]; rfl

/-- With equal distances more pairs than asked for are returned: for an equilateral triangle all three edges instead of
the two of a spanning tree. -/
theorem C61_ties_false : ∃ (a : Fin 3 → Fin 3 → ℝ), (nSmallestIdx a 2).length = 3 := by
  refine ⟨fun i j => if i = j then 0 else 1, ?_⟩
  have hs : nSmallest (fun i j : Fin 3 => if i = j then (0:ℝ) else 1) 2 = [1, 1] := by
    unfold nSmallest
    have : (((List.finRange 3).flatMap (fun i => (List.finRange 3).map
        (fun j => if j ≤ i then (if i = j then (0:ℝ) else 1) else 0))).filter (fun x => x ≠ 0)) = [1, 1, 1] := by
      simp [List.finRange_succ]
    rw [this]
    have hm : ([1, 1, 1] : List ℝ).mergeSort (fun x y => x ≤ y) = [1, 1, 1] := by
      apply List.mergeSort_of_pairwise
      simp
    rw [hm]; rfl
  unfold nSmallestIdx
  rw [hs]
  simp [List.finRange_succ]

/-- `bounding_box(points)` contains every point, and each of its sides touches one. -/
theorem C61_bounding_box (points : List (ℝ × ℝ)) (xmax ymax xmin ymin : ℝ)
    (h : boundingBox points = some (xmax, ymax, xmin, ymin)) :
    (∀ p ∈ points, xmin ≤ p.1 ∧ p.1 ≤ xmax ∧ ymin ≤ p.2 ∧ p.2 ≤ ymax) ∧
    (∃ p ∈ points, p.1 = xmin) ∧ (∃ p ∈ points, p.1 = xmax) ∧ (∃ p ∈ points, p.2 = ymin) ∧ (∃ p ∈ points, p.2 = ymax) := by
  cases points with
  | nil => simp [boundingBox] at h
  | cons p ps =>
    simp only [boundingBox, Option.some.injEq, Prod.mk.injEq] at h
    obtain ⟨rfl, rfl, rfl, rfl⟩ := h
    have key : ∀ (f : ℝ × ℝ → ℝ) (v : ℝ), v ∈ f p :: ps.map f → ∃ q ∈ p :: ps, f q = v := by
      intro f v hv
      rw [← List.map_cons, List.mem_map] at hv
      exact hv
    refine ⟨?_, key Prod.fst _ (foldl_min_real _ _).2, key Prod.fst _ (foldl_max_real _ _).2,
      key Prod.snd _ (foldl_min_real _ _).2, key Prod.snd _ (foldl_max_real _ _).2⟩
    intro q hq
    rcases List.mem_cons.mp hq with rfl | hq
    · exact ⟨(foldl_min_real _ _).1.1, (foldl_max_real _ _).1.1, (foldl_min_real _ _).1.1, (foldl_max_real _ _).1.1⟩
    · have h1 := List.mem_map_of_mem (f := Prod.fst) hq
      have h2 := List.mem_map_of_mem (f := Prod.snd) hq
      exact ⟨(foldl_min_real _ _).1.2 _ h1, (foldl_max_real _ _).1.2 _ h1, (foldl_min_real _ _).1.2 _ h2,
        (foldl_max_real _ _).1.2 _ h2⟩

example : boundingBox [(1, 5), (3, 2)] = some (3, 5, 1, 2) := by norm_num [boundingBox]

end SBayes.Util
