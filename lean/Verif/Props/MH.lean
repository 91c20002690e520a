import Verif.Lemmas.MH
import Mathlib.MeasureTheory.Measure.Lebesgue.Basic
/- Theorem C19: the acceptance rule makes correctly reported proposals reversible. -/
namespace SBayes.MH
open scoped BigOperators
variable {σ : Type}

/-- **C19** (acceptance rule). For every temperature, the implemented comparison `log(u) < ratio` for a uniform `u` in (0,1) has the
Metropolis-Hastings probability `acceptProb` for the target `likelihood ^ temperature * prior`. -/
theorem C19_tempered_accept_event (llNew llPrev priorNew priorPrev q qBack t : ℝ) (hq : 0 < q) (hb : 0 < qBack) :
    MeasureTheory.volume {u : ℝ | 0 < u ∧ u < 1 ∧
        Real.log u < mhRatio llNew llPrev priorNew priorPrev (Real.log q) (Real.log qBack) t} =
      ENNReal.ofReal (acceptProb (Real.exp (llPrev) ^ t * Real.exp priorPrev) (Real.exp llNew ^ t * Real.exp priorNew) q qBack) := by
  have hexp : Real.exp (mhRatio llNew llPrev priorNew priorPrev (Real.log q) (Real.log qBack) t) =
      (Real.exp llNew ^ t * Real.exp priorNew) / (Real.exp llPrev ^ t * Real.exp priorPrev) * (qBack / q) := by
    unfold mhRatio
    rw [← Real.exp_mul, ← Real.exp_mul, ← Real.exp_add, ← Real.exp_add, ← Real.exp_sub, ← Real.exp_log (div_pos hb hq), ← Real.exp_add,
      Real.log_div hb.ne' hq.ne']
    congr 1; ring
  unfold acceptProb
  rw [if_neg hb.ne', if_neg hq.ne', ← hexp]
  set r := mhRatio llNew llPrev priorNew priorPrev (Real.log q) (Real.log qBack) t
  have hset : {u : ℝ | 0 < u ∧ u < 1 ∧ Real.log u < r} = Set.Ioo 0 (min 1 (Real.exp r)) := by
    ext u
    simp only [Set.mem_ofPred_eq, Set.mem_Ioo, lt_min_iff]
    constructor
    · rintro ⟨h0, h1, h2⟩; exact ⟨h0, h1, (Real.log_lt_iff_lt_exp h0).mp h2⟩
    · rintro ⟨h0, h1, h2⟩; exact ⟨h0, h1, (Real.log_lt_iff_lt_exp h0).mpr h2⟩
  rw [hset, Real.volume_Ioo, sub_zero]

/-- The implemented comparison `log(u) < ratio` for a uniform `u` in (0,1) has probability
`acceptProb` (temperature 1, positive transition probabilities). -/
theorem C19_accept_event (llNew llPrev priorNew priorPrev q qBack : ℝ) (hq : 0 < q) (hb : 0 < qBack) :
    MeasureTheory.volume {u : ℝ | 0 < u ∧ u < 1 ∧
        Real.log u < mhRatio llNew llPrev priorNew priorPrev (Real.log q) (Real.log qBack) 1} =
      ENNReal.ofReal (acceptProb (Real.exp (llPrev + priorPrev)) (Real.exp (llNew + priorNew)) q qBack) := by
  rw [C19_tempered_accept_event _ _ _ _ _ _ _ hq hb, Real.rpow_one, Real.rpow_one, Real.exp_add, Real.exp_add]

theorem acceptProb_mem {cur cand q qBack : ℝ} (h1 : 0 ≤ cur) (h2 : 0 ≤ cand) (hq : 0 ≤ q) (hb : 0 ≤ qBack) :
    0 ≤ acceptProb cur cand q qBack ∧ acceptProb cur cand q qBack ≤ 1 := by
  unfold acceptProb
  split
  · norm_num
  · split
    · norm_num
    · exact ⟨le_min zero_le_one (mul_nonneg (div_nonneg h2 h1) (div_nonneg hb hq)), min_le_left _ _⟩

/-- The probability of moving from `x` to a different `y`. -/
theorem stepMass_ne {post : σ → ℝ} {op : σ → Rand (Result σ)} {x y : σ} (hxy : x ≠ y) (A : ℝ)
    (hA : ∀ r w, (r, w) ∈ op x → w ≠ 0 → r.new = y → acceptProb (post x) (post y) r.q r.qBack = A) :
    stepMass post op x y = propMass op x y * A := by
  classical
  unfold stepMass prob step
  rw [E_bind]
  have h1 : ∀ p ∈ op x, p.2 ≠ 0 → E (bind (bernoulli (acceptProb (post x) (post p.1.new) p.1.q p.1.qBack))
      fun b => ret (if b = true then p.1.new else x))
        (fun a => @ite ℝ (a = y) (Classical.propDecidable _) 1 0) =
      A * (@ite ℝ (p.1.new = y) (Classical.propDecidable _) 1 0) := by
    rintro ⟨r, w⟩ hp hw
    rw [E_bind, E_bernoulli, E_ret, E_ret]
    simp only [if_true, Bool.false_eq_true, if_false, hxy]
    by_cases hr : r.new = y
    · simp only [hr, if_true]; rw [hA r w hp hw hr]; ring
    · simp [hr]
  refine (E_congr' (g := fun r => A * @ite ℝ (r.new = y) (Classical.propDecidable _) 1 0) h1).trans ?_
  rw [E_const_mul, mul_comm]
  rfl

/-- **C19.** If an operator reports (up to a common constant) the real probabilities of its proposals,
then proposing and accepting with the implemented rule is in detailed balance with the posterior, for
every positive posterior. -/
theorem C19_real_masses_give_detailed_balance (S : σ → Prop) (op : σ → Rand (Result σ)) (c : ℝ)
    (hc : 0 < c) (hop : ∀ x, S x → IsDist (op x)) (hrep : ReportsRealMasses S op c)
    (post : σ → ℝ) (hpost : ∀ x, S x → 0 < post x) : DetailedBalance S post op := by
  intro x y hx hy
  by_cases hxy : x = y
  · subst hxy; rfl
  set a := propMass op x y
  set b := propMass op y x
  have ha : 0 ≤ a := prob_nonneg (hop x hx).1 _
  have hb : 0 ≤ b := prob_nonneg (hop y hy).1 _
  have key : ∀ u v : σ, S u → S v → u ≠ v → stepMass post op u v =
      propMass op u v * acceptProb (post u) (post v) (propMass op u v) (propMass op v u) := by
    intro u v hu hv huv
    refine stepMass_ne huv _ ?_
    rintro r w hr hw rfl
    obtain ⟨-, h1, h2⟩ := hrep u hu r w hr hw (Ne.symm huv)
    rw [h1, h2]
    unfold acceptProb
    have e1 : c * r.qBack = 0 ↔ r.qBack = 0 := by simp [hc.ne']
    have e2 : c * r.q = 0 ↔ r.q = 0 := by simp [hc.ne']
    simp only [e1, e2]
    rw [mul_div_mul_left _ _ hc.ne']
  rw [key x y hx hy hxy, key y x hy hx (Ne.symm hxy)]
  change post x * (a * acceptProb (post x) (post y) a b) = post y * (b * acceptProb (post y) (post x) b a)
  have px := hpost x hx
  have py := hpost y hy
  unfold acceptProb
  rcases eq_or_lt_of_le ha with ha0 | ha0
  · rw [← ha0]; simp
  · rcases eq_or_lt_of_le hb with hb0 | hb0
    · rw [← hb0]; simp
    · rw [if_neg hb0.ne', if_neg ha0.ne', if_neg ha0.ne', if_neg hb0.ne', ← mul_assoc, ← mul_assoc,
        mul_min_of_nonneg _ _ (mul_pos px ha0).le, mul_min_of_nonneg _ _ (mul_pos py hb0).le, min_comm]
      congr 1
      · field_simp
      · field_simp

/-- **C19**, consequence: the posterior is stationary. -/
theorem C19_posterior_is_stationary [Fintype σ] [DecidableEq σ] (S : Finset σ)
    (op : σ → Rand (Result σ)) (c : ℝ)
    (hc : 0 < c) (hop : ∀ x ∈ S, IsDist (op x)) (hrep : ReportsRealMasses (· ∈ S) op c)
    (post : σ → ℝ) (hpost : ∀ x ∈ S, 0 < post x) (y : σ) (hy : y ∈ S) :
    ∑ x ∈ S, post x * stepMass post op x y = post y := by
  have hdb := C19_real_masses_give_detailed_balance (· ∈ S) op c hc hop hrep post hpost
  rw [Finset.sum_congr rfl fun x hx => hdb x y hx hy, ← Finset.mul_sum]
  have hone : ∑ x ∈ S, stepMass post op y x = 1 := by
    unfold stepMass prob
    rw [E_sum]
    have hnew : ∀ p ∈ op y, p.2 ≠ 0 → p.1.new ∈ S := by
      intro p hp h0
      by_cases h : p.1.new = y
      · rw [h]; exact hy
      · exact (hrep y hy p.1 p.2 hp h0 h).1
    have hsum : E (step post op y) (fun _ => 1) = 1 := by
      unfold step
      rw [E_bind]
      have h1 : ∀ p ∈ op y, E (bind (bernoulli (acceptProb (post y) (post p.1.new) p.1.q p.1.qBack))
          fun b => ret (if b = true then p.1.new else y)) (fun _ => (1 : ℝ)) = 1 := by
        intro p _
        rw [E_bind, E_bernoulli, E_ret, E_ret]; ring
      refine (E_congr (g := fun _ => 1) h1).trans ?_
      rw [E_one]
      exact (hop y hy).2
    refine Eq.trans (E_congr' (g := fun _ => 1) fun p hp hp0 => ?_) hsum
    have hmem : p.1 ∈ S := by
      obtain ⟨a, ha, b, hb, h1, h2⟩ := mem_bind hp
      obtain ⟨a', ha', b', hb', h1', -⟩ := mem_bind hb
      rw [h1, h1', mem_ret hb']
      split
      · exact hnew a ha fun e => hp0 (by rw [h2, e, zero_mul])
      · exact hy
    have := Finset.sum_ite_eq S p.1 (fun _ => (1 : ℝ))
    rw [if_pos hmem] at this
    convert this
  rw [hone, mul_one]

end SBayes.MH
