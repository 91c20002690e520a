import Verif.Spec.MH
import Mathlib.Algebra.BigOperators.Ring.List
import Mathlib.Algebra.BigOperators.Fin
import Mathlib.Algebra.Order.BigOperators.Group.List
import Mathlib.Tactic.Ring
import Mathlib.Tactic.FieldSimp
import Mathlib.Tactic.Linarith
/- Helper lemmas for finite random computations. -/
namespace SBayes.MH
variable {α β γ σ : Type}

theorem E_nil (f : α → ℝ) : E ([] : Rand α) f = 0 := rfl

theorem E_cons (p : α × ℝ) (d : Rand α) (f : α → ℝ) : E (p :: d) f = p.2 * f p.1 + E d f := by
  simp [E]

theorem E_append (d d' : Rand α) (f : α → ℝ) : E (d ++ d') f = E d f + E d' f := by
  simp [E]

theorem E_ret (a : α) (f : α → ℝ) : E (ret a) f = f a := by simp [E, ret]

theorem E_scale (w : ℝ) (d : Rand α) (f : α → ℝ) :
    E (d.map fun b => (b.1, w * b.2)) f = w * E d f := by
  induction d with
  | nil => simp [E]
  | cons p d ih => rw [List.map_cons, E_cons, E_cons, ih]; ring

theorem E_bind (d : Rand α) (g : α → Rand β) (f : β → ℝ) :
    E (bind d g) f = E d fun a => E (g a) f := by
  induction d with
  | nil => rfl
  | cons p d ih =>
    unfold bind at ih ⊢
    rw [List.flatMap_cons, E_append, E_cons, ih, E_scale]

theorem E_congr {d : Rand α} {f g : α → ℝ} (h : ∀ p ∈ d, f p.1 = g p.1) : E d f = E d g := by
  unfold E
  congr 1
  exact List.map_congr_left fun p hp => by rw [h p hp]

theorem E_congr' {d : Rand α} {f g : α → ℝ} (h : ∀ p ∈ d, p.2 ≠ 0 → f p.1 = g p.1) : E d f = E d g := by
  unfold E
  congr 1
  refine List.map_congr_left fun p hp => ?_
  by_cases h0 : p.2 = 0
  · rw [h0, zero_mul, zero_mul]
  · rw [h p hp h0]

theorem E_const_mul (d : Rand α) (c : ℝ) (f : α → ℝ) : E d (fun a => c * f a) = c * E d f := by
  induction d with
  | nil => simp [E]
  | cons p d ih => rw [E_cons, E_cons, ih]; ring

theorem E_add (d : Rand α) (f g : α → ℝ) : E d (fun a => f a + g a) = E d f + E d g := by
  induction d with
  | nil => simp [E]
  | cons p d ih => rw [E_cons, E_cons, E_cons, ih]; ring

theorem E_zero (d : Rand α) : E d (fun _ => 0) = 0 := by
  induction d with
  | nil => rfl
  | cons p d ih => rw [E_cons, ih]; ring

theorem E_bernoulli (p : ℝ) (f : Bool → ℝ) : E (bernoulli p) f = p * f true + (1 - p) * f false := by
  simp [E, bernoulli]

theorem E_choice (l : List α) (w f : α → ℝ) :
    E (choice l w) f = (l.map fun a => w a * f a).sum := by
  simp [E, choice, Function.comp_def]

theorem E_uniform (l : List α) (f : α → ℝ) :
    E (uniform l) f = 1 / (l.length : ℝ) * (l.map f).sum := by
  unfold E uniform
  rw [List.map_map, ← List.sum_map_mul_left]
  rfl

theorem E_one (d : Rand α) : E d (fun _ => 1) = (d.map Prod.snd).sum := by
  simp [E]

theorem mem_bind {d : Rand α} {g : α → Rand β} {p : β × ℝ} (h : p ∈ bind d g) :
    ∃ a ∈ d, ∃ b ∈ g a.1, p.1 = b.1 ∧ p.2 = a.2 * b.2 := by
  unfold bind at h
  obtain ⟨a, ha, h⟩ := List.mem_flatMap.mp h
  obtain ⟨b, hb, rfl⟩ := List.mem_map.mp h
  exact ⟨a, ha, b, hb, rfl, rfl⟩

theorem mem_ret {a : α} {p : α × ℝ} (h : p ∈ ret a) : p.1 = a := by
  simp only [ret, List.mem_singleton] at h; rw [h]

theorem mem_uniform {l : List α} {p : α × ℝ} (h : p ∈ uniform l) : p.1 ∈ l := by
  obtain ⟨a, ha, rfl⟩ := List.mem_map.mp h; exact ha

theorem mem_choice {l : List α} {w : α → ℝ} {p : α × ℝ} (h : p ∈ choice l w) :
    p.1 ∈ l ∧ p.2 = w p.1 := by
  obtain ⟨a, ha, rfl⟩ := List.mem_map.mp h; exact ⟨ha, rfl⟩

theorem isDist_ret (a : α) : IsDist (ret a) := by
  constructor
  · intro p hp; simp only [ret, List.mem_singleton] at hp; rw [hp]; norm_num
  · simp [ret]

theorem isDist_bind' {d : Rand α} {g : α → Rand β} (hd : IsDist d)
    (hg : ∀ p ∈ d, p.2 ≠ 0 → IsDist (g p.1)) : IsDist (bind d g) := by
  constructor
  · intro p hp
    obtain ⟨a, ha, b, hb, -, h⟩ := mem_bind hp
    rw [h]
    by_cases h0 : a.2 = 0
    · rw [h0, zero_mul]
    · exact mul_nonneg (hd.1 a ha) ((hg a ha h0).1 b hb)
  · rw [← E_one, E_bind]
    have : E d (fun a => E (g a) fun _ => 1) = E d fun _ => 1 :=
      E_congr' fun p hp h0 => by rw [E_one, (hg p hp h0).2]
    rw [this, E_one, hd.2]

theorem isDist_bind {d : Rand α} {g : α → Rand β} (hd : IsDist d) (hg : ∀ p ∈ d, IsDist (g p.1)) :
    IsDist (bind d g) := isDist_bind' hd fun p hp _ => hg p hp

theorem isDist_uniform {l : List α} (h : l ≠ []) : IsDist (uniform l) := by
  have hl : (l.length : ℝ) ≠ 0 := by
    exact_mod_cast (List.length_pos_of_ne_nil h).ne'
  constructor
  · intro p hp; obtain ⟨a, -, rfl⟩ := List.mem_map.mp hp; positivity
  · rw [← E_one, E_uniform]; simp [hl]

theorem isDist_bernoulli {p : ℝ} (h0 : 0 ≤ p) (h1 : p ≤ 1) : IsDist (bernoulli p) := by
  constructor
  · intro x hx
    simp only [bernoulli, List.mem_cons, List.not_mem_nil, or_false] at hx
    rcases hx with rfl | rfl
    · exact h0
    · show (0 : ℝ) ≤ 1 - p; linarith
  · simp [bernoulli]

theorem isDist_choice {l : List α} {w : α → ℝ} (h0 : ∀ a ∈ l, 0 ≤ w a) (h1 : (l.map w).sum = 1) :
    IsDist (choice l w) := by
  constructor
  · intro p hp; obtain ⟨a, ha, rfl⟩ := List.mem_map.mp hp; exact h0 a ha
  · simpa [choice, Function.comp_def] using h1

theorem E_nonneg {d : Rand α} (hd : ∀ p ∈ d, 0 ≤ p.2) {f : α → ℝ} (hf : ∀ a, 0 ≤ f a) : 0 ≤ E d f := by
  unfold E
  apply List.sum_nonneg
  intro x hx
  obtain ⟨p, hp, rfl⟩ := List.mem_map.mp hx
  exact mul_nonneg (hd p hp) (hf _)

theorem prob_nonneg {d : Rand α} (hd : ∀ p ∈ d, 0 ≤ p.2) (p : α → Prop) : 0 ≤ prob d p := by
  unfold prob; refine E_nonneg hd fun a => ?_; split <;> norm_num

theorem E_sum {ι : Type} (d : Rand α) (s : Finset ι) (f : ι → α → ℝ) :
    ∑ i ∈ s, E d (f i) = E d fun a => ∑ i ∈ s, f i a := by
  classical
  induction s using Finset.induction_on with
  | empty => simp [E_zero]
  | insert i s hi ih => rw [Finset.sum_insert hi, ih, ← E_add]; congr 1; funext a; rw [Finset.sum_insert hi]

open Classical in
/-- Sum over a duplicate-free list of a function supported at one element. -/
theorem sum_map_single {l : List α} (hl : l.Nodup) {a : α} (f : α → ℝ)
    (h : ∀ b ∈ l, b ≠ a → f b = 0) : (l.map f).sum = if a ∈ l then f a else 0 := by
  induction l with
  | nil => simp
  | cons b l ih =>
    have hl' := List.nodup_cons.mp hl
    rw [List.map_cons, List.sum_cons]
    rw [ih hl'.2 (fun x hx hne => h x (List.mem_cons_of_mem _ hx) hne)]
    by_cases hb : b = a
    · subst hb; simp [hl'.1]
    · rw [h b List.mem_cons_self hb]
      have : a ≠ b := fun e => hb e.symm
      simp [this]

theorem E_supported {d : Rand α} {f : α → ℝ} (a : α) (h : ∀ p ∈ d, p.1 ≠ a → f p.1 = 0) :
    E d f = prob d (· = a) * f a := by
  classical
  unfold prob
  rw [mul_comm, ← E_const_mul]
  refine E_congr fun p hp => ?_
  by_cases hp' : p.1 = a
  · rw [hp']; simp
  · rw [h p hp hp']; simp [hp']

theorem E_eq_zero {d : Rand α} {f : α → ℝ} (h : ∀ p ∈ d, f p.1 = 0) : E d f = 0 :=
  (E_congr (g := fun _ => 0) h).trans (E_zero d)

theorem prob_bernoulli (p : ℝ) (b : Bool) : prob (bernoulli p) (· = b) = if b then p else 1 - p := by
  unfold prob; rw [E_bernoulli]; cases b <;> simp

open Classical in
theorem prob_choice {l : List α} (hl : l.Nodup) (w : α → ℝ) (a : α) :
    prob (choice l w) (· = a) = if a ∈ l then w a else 0 := by
  unfold prob
  rw [E_choice, sum_map_single hl (a := a)]
  · simp
  · intro b _ hb; simp [hb]

open Classical in
/-- The probability of one outcome of independent draws is the product of the probabilities. -/
theorem prob_indep {ι : Type} [DecidableEq ι] (d : ι → Rand β) : ∀ (l : List ι), l.Nodup →
    ∀ v t : ι → β, prob (indep d l v) (· = t) =
      if ∀ i, i ∉ l → t i = v i then (l.map fun i => prob (d i) (· = t i)).prod else 0
  | [], _, v, t => by
    unfold indep prob
    rw [E_ret]
    have : v = t ↔ ∀ i, i ∉ ([] : List ι) → t i = v i := by
      constructor
      · rintro rfl i _; rfl
      · intro h; funext i; exact (h i List.not_mem_nil).symm
    simp only [this, List.map_nil, List.prod_nil]
  | i :: is, hl, v, t => by
    have hl' := List.nodup_cons.mp hl
    unfold indep
    unfold prob
    rw [E_bind]
    have key : ∀ b : β, E (indep d is (Function.update v i b)) (fun a => if a = t then (1 : ℝ) else 0) =
        (if ∀ j, j ∉ i :: is → t j = v j then (is.map fun i => prob (d i) (· = t i)).prod else 0) *
          if b = t i then 1 else 0 := by
      intro b
      have ih := prob_indep d is hl'.2 (Function.update v i b) t
      unfold prob at ih
      rw [ih]
      by_cases hb : b = t i
      · subst hb
        have : (∀ j, j ∉ is → t j = Function.update v i (t i) j) ↔ ∀ j, j ∉ i :: is → t j = v j := by
          constructor
          · intro h j hj
            rw [h j fun hm => hj (List.mem_cons_of_mem _ hm),
              Function.update_of_ne (fun e : j = i => hj (by rw [e]; exact List.mem_cons_self))]
          · intro h j hj
            by_cases e : j = i
            · subst e; rw [Function.update_self]
            · rw [Function.update_of_ne e]
              exact h j fun hm => (List.mem_cons.mp hm).elim e hj
        simp only [this, if_true, mul_one]
        rfl
      · have : ¬ ∀ j, j ∉ is → t j = Function.update v i b j := by
          intro h; apply hb; rw [h i hl'.1, Function.update_self]
        rw [if_neg this, if_neg hb, mul_zero]
    refine (E_congr (g := fun b => (if ∀ j, j ∉ i :: is → t j = v j then
      (is.map fun i => prob (d i) (· = t i)).prod else 0) * if b = t i then 1 else 0)
      (fun p _ => key p.1)).trans ?_
    rw [E_const_mul (d i) _ (f := fun b : β => if b = t i then (1 : ℝ) else 0)]
    by_cases hc : ∀ j, j ∉ i :: is → t j = v j
    · rw [if_pos hc, if_pos hc, List.map_cons, List.prod_cons, mul_comm]
      rfl
    · rw [if_neg hc, if_neg hc, zero_mul]

theorem isDist_indep {ι : Type} [DecidableEq ι] (d : ι → Rand β) : ∀ (l : List ι),
    (∀ i ∈ l, IsDist (d i)) → ∀ v : ι → β, IsDist (indep d l v)
  | [], _, v => isDist_ret v
  | i :: is, h, _ => isDist_bind (h i List.mem_cons_self) fun _ _ =>
      isDist_indep d is (fun j hj => h j (List.mem_cons_of_mem _ hj)) _

/-- Draws only write the listed positions, and every value they write is a possible value of the
corresponding draw. -/
theorem mem_indep {ι : Type} [DecidableEq ι] (d : ι → Rand β) : ∀ (l : List ι), l.Nodup →
    ∀ (v : ι → β) (p : (ι → β) × ℝ), p ∈ indep d l v →
      (∀ i, i ∉ l → p.1 i = v i) ∧ (∀ i ∈ l, ∃ w, (p.1 i, w) ∈ d i ∧ (p.2 ≠ 0 → w ≠ 0))
  | [], _, _, p, hp => by
    have := mem_ret hp
    exact ⟨fun _ _ => by rw [this], fun i hi => absurd hi List.not_mem_nil⟩
  | i :: is, hl, v, p, hp => by
    have hl' := List.nodup_cons.mp hl
    obtain ⟨a, ha, b, hb, h1, h2⟩ := mem_bind hp
    obtain ⟨h3, h4⟩ := mem_indep d is hl'.2 _ b hb
    constructor
    · intro j hj
      rw [h1, h3 j fun hm => hj (List.mem_cons_of_mem _ hm),
        Function.update_of_ne (fun e : j = i => hj (by rw [e]; exact List.mem_cons_self))]
    · intro j hj
      rcases List.mem_cons.mp hj with rfl | hj
      · refine ⟨a.2, ?_, fun h0 e => h0 (by rw [h2, e, zero_mul])⟩
        rw [h1, h3 j hl'.1, Function.update_self]; exact ha
      · obtain ⟨w, hw, hw'⟩ := h4 j hj
        exact ⟨w, by rw [h1]; exact hw, fun h0 => hw' fun e => h0 (by rw [h2, e, mul_zero])⟩

end SBayes.MH
