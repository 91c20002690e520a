import Verif.Lemmas.SamplerPost
/- Functions of positive numbers that change at most by a factor if their arguments do: the posterior is one. -/
namespace SBayes.Meas
set_option linter.unusedSectionVars false
open SBayes.Lik SBayes.Clusters SBayes.MH SBayes.Source SBayes.Effects SBayes.Posterior SBayes.Draws SBayes.Kernel MeasureTheory
open scoped BigOperators ENNReal

variable {K N F S M C G : ℕ} {nG : Fin M → ℕ}

/-- A nonnegative function that changes at most by a factor between points that are near each other. -/
def Tame {Θ : Type} (near : ℝ → Θ → Θ → Prop) (f : Θ → ℝ) : Prop :=
  ∀ l : ℝ, 0 < l → ∃ k : ℝ, 0 < k ∧ ∀ x y, near l x y → 0 ≤ f x ∧ k * f x ≤ f y

section Tame
variable {Θ : Type} {near : ℝ → Θ → Θ → Prop} {f g : Θ → ℝ}

theorem tame_const {a : ℝ} (ha : 0 ≤ a) : Tame near fun _ => a := fun _ _ => ⟨1, one_pos, fun _ _ _ => ⟨ha, by rw [one_mul]⟩⟩

theorem Tame.mul (hf : Tame near f) (hg : Tame near g) : Tame near fun x => f x * g x := by
  intro l hl
  obtain ⟨a, ha, h1⟩ := hf l hl
  obtain ⟨b, hb, h2⟩ := hg l hl
  refine ⟨a * b, mul_pos ha hb, fun x y h => ?_⟩
  obtain ⟨p1, p2⟩ := h1 x y h
  obtain ⟨q1, q2⟩ := h2 x y h
  refine ⟨mul_nonneg p1 q1, ?_⟩
  calc a * b * (f x * g x) = (a * f x) * (b * g x) := by ring
    _ ≤ f y * g y := mul_le_mul p2 q2 (mul_nonneg hb.le q1) ((mul_nonneg ha.le p1).trans p2)

theorem Tame.add (hf : Tame near f) (hg : Tame near g) : Tame near fun x => f x + g x := by
  intro l hl
  obtain ⟨a, ha, h1⟩ := hf l hl
  obtain ⟨b, hb, h2⟩ := hg l hl
  refine ⟨min a b, lt_min ha hb, fun x y h => ?_⟩
  obtain ⟨p1, p2⟩ := h1 x y h
  obtain ⟨q1, q2⟩ := h2 x y h
  refine ⟨add_nonneg p1 q1, ?_⟩
  rw [mul_add]
  exact add_le_add ((mul_le_mul_of_nonneg_right (min_le_left a b) p1).trans p2) ((mul_le_mul_of_nonneg_right (min_le_right a b) q1).trans q2)

theorem Tame.prod {ι : Type} {A : Finset ι} {f : ι → Θ → ℝ} (h : ∀ i ∈ A, Tame near (f i)) : Tame near fun x => ∏ i ∈ A, f i x := by
  classical
  induction A using Finset.induction_on with
  | empty => simpa using tame_const (near := near) zero_le_one
  | insert i A hi ih =>
    simp only [Finset.prod_insert hi]
    exact (h i (Finset.mem_insert_self i A)).mul (ih fun j hj => h j (Finset.mem_insert_of_mem hj))

theorem Tame.sum {ι : Type} {A : Finset ι} {f : ι → Θ → ℝ} (h : ∀ i ∈ A, Tame near (f i)) : Tame near fun x => ∑ i ∈ A, f i x := by
  classical
  induction A using Finset.induction_on with
  | empty => simpa using tame_const (near := near) le_rfl
  | insert i A hi ih =>
    simp only [Finset.sum_insert hi]
    exact (h i (Finset.mem_insert_self i A)).add (ih fun j hj => h j (Finset.mem_insert_of_mem hj))

variable (hsym : ∀ l x y, near l x y → near l y x)
include hsym

theorem Tame.inv (hf : Tame near f) : Tame near fun x => (f x)⁻¹ := by
  intro l hl
  obtain ⟨a, ha, h1⟩ := hf l hl
  refine ⟨a, ha, fun x y h => ?_⟩
  obtain ⟨p1, p2⟩ := h1 x y h
  obtain ⟨q1, q2⟩ := h1 y x (hsym _ _ _ h)
  refine ⟨inv_nonneg.mpr p1, ?_⟩
  dsimp only
  rcases q1.eq_or_lt with h0 | h0
  · rw [← h0] at p2
    have : f x = 0 := le_antisymm (by by_contra hn; push Not at hn; nlinarith) p1
    rw [this, ← h0]
    simp
  · rcases p1.eq_or_lt with hx | hx
    · rw [← hx] at q2
      nlinarith
    · rw [← div_eq_mul_inv, ← one_div, div_le_div_iff₀ hx h0]
      linarith

theorem Tame.div (hf : Tame near f) (hg : Tame near g) : Tame near fun x => f x / g x := by
  simp only [div_eq_mul_inv]
  exact hf.mul (hg.inv hsym)

theorem Tame.rpow (hf : Tame near f) (a : ℝ) : Tame near fun x => f x ^ a := by
  have key : ∀ a : ℝ, 0 ≤ a → Tame near fun x => f x ^ a := by
    intro a ha l hl
    obtain ⟨k, hk, h1⟩ := hf l hl
    refine ⟨k ^ a, Real.rpow_pos_of_pos hk a, fun x y h => ?_⟩
    obtain ⟨p1, p2⟩ := h1 x y h
    refine ⟨Real.rpow_nonneg p1 a, ?_⟩
    rw [← Real.mul_rpow hk.le p1]
    exact Real.rpow_le_rpow (mul_nonneg hk.le p1) p2 ha
  by_cases ha : 0 ≤ a
  · exact key a ha
  · have hn := (key (-a) (by linarith)).inv hsym
    intro l hl
    obtain ⟨k, hk, h1⟩ := hn l hl
    obtain ⟨k', hk', h2⟩ := hf l hl
    refine ⟨k, hk, fun x y h => ?_⟩
    obtain ⟨p1, p2⟩ := h1 x y h
    dsimp only at p1 p2
    have e : ∀ z, 0 ≤ f z → (f z ^ (-a))⁻¹ = f z ^ a := fun z hz => by rw [Real.rpow_neg hz, inv_inv]
    have hx := (h2 x y h).1
    have hy := (h2 y x (hsym _ _ _ h)).1
    rw [e x hx] at p1 p2
    rw [e y hy] at p2
    exact ⟨p1, p2⟩

end Tame

/-! ### The posterior -/

section Post
variable {Θ : Type} {near : ℝ → Θ → Θ → Prop}

theorem b2n_nonneg (b : Bool) : 0 ≤ b2n ℝ b := by unfold b2n; split <;> norm_num

theorem tame_stateProb (x : Features N F S) {p : Θ → Fin F → Fin S → ℝ} (hp : ∀ f s, Tame near fun θ => p θ f s)
    (n : Fin N) (f : Fin F) : Tame near fun θ => stateProb x (p θ) n f := by
  unfold stateProb
  exact Tame.sum fun s _ => (tame_const (b2n_nonneg _)).mul (hp f s)

theorem tame_fold (x : Features N F S) {probs : Θ → Fin G → Fin F → Fin S → ℝ}
    (hp : ∀ g f s, Tame near fun θ => probs θ g f s) (groups : Fin G → Fin N → Bool) (order : List (Fin G))
    {out : Θ → Fin N → Fin F → ℝ} (ho : ∀ n f, Tame near fun θ => out θ n f) (n : Fin N) (f : Fin F) :
    Tame near fun θ => order.foldl (writeGroup x (probs θ) groups) (out θ) n f := by
  induction order generalizing out with
  | nil => exact ho n f
  | cons i l ih =>
    simp only [List.foldl_cons]
    refine ih fun n f => ?_
    unfold writeGroup
    split
    · exact tame_stateProb x (hp i) n f
    · exact ho n f

theorem tame_compute (x : Features N F S) {probs : Θ → Fin G → Fin F → Fin S → ℝ}
    (hp : ∀ g f s, Tame near fun θ => probs θ g f s) (groups : Fin G → Fin N → Bool) (order : List (Fin G)) (n : Fin N) (f : Fin F) :
    Tame near fun θ => overwriteNA x (computeComponentLikelihood x (probs θ) groups order fun _ _ => 0) n f := by
  unfold overwriteNA
  split
  · exact tame_const zero_le_one
  · unfold computeComponentLikelihood
    exact tame_fold (out := fun _ n _ => if anyGroup groups n = true then 0 else 0) x hp groups order
      (fun n f => tame_const (by simp)) n f

variable (d : ModelData N F S M nG) {w : Θ → Fin F → Fin (M + 1) → ℝ} {e : Θ → Fin K → Fin F → Fin S → ℝ}
  {ce : Θ → (c : Fin M) → Fin (nG c) → Fin F → Fin S → ℝ} (hsym : ∀ l x y, near l x y → near l y x)
  (hw : ∀ f c, Tame near fun θ => w θ f c) (he : ∀ k f s, Tame near fun θ => e θ k f s)
  (hce : ∀ c g f s, Tame near fun θ => ce θ c g f s)

include he hce in
theorem tame_componentLh (cl : Clus K N) (n : Fin N) (f : Fin F) (c : Fin (M + 1)) :
    Tame near fun θ => componentLh d (e θ) (ce θ) cl n f c := by
  unfold componentLh
  refine Fin.cases ?_ (fun j => ?_) c
  · simpa using tame_compute d.features he _ _ n f
  · simp only [Fin.cons_succ]
    exact tame_compute d.features (hce j) _ _ n f

include hsym hw in
theorem tame_normalizeWeights (has : Fin N → Fin (M + 1) → Bool) (n : Fin N) (f : Fin F) (c : Fin (M + 1)) :
    Tame near fun θ => normalizeWeights (w θ) has n f c := by
  unfold normalizeWeights
  exact ((hw f c).mul (tame_const (b2n_nonneg _))).div hsym (Tame.sum fun c' _ => (hw f c').mul (tame_const (b2n_nonneg _)))

include hsym hce in
theorem tame_conf (app : Fin F → Fin S → Bool) (hst : ∀ f, ∃ s, app f s = true) {conf : (c : Fin M) → Fin (nG c) → Option (Fin F → Fin S → ℝ)}
    (hc : ∀ c g a, conf c g = some a → ∀ f s, app f s = true → 0 < a f s) (c : Fin M) (g : Fin (nG c)) :
    Tame near fun θ => confEffectPrior app (conf c g) (ce θ c g) := by
  unfold confEffectPrior
  rcases h : conf c g with _ | a
  · exact tame_const zero_le_one
  · refine Tame.prod fun f _ => ?_
    unfold dirichletPdf
    refine Tame.mul (tame_const ?_) (Tame.prod fun s _ => (hce c g f s).rpow hsym _)
    have ha : ∀ s ∈ states app f, 0 < a f s := fun s hs => hc c g a h f s (mem_states.mp hs)
    obtain ⟨s, hs⟩ := hst f
    exact div_nonneg (Real.Gamma_pos_of_pos (Finset.sum_pos ha ⟨s, mem_states.mpr hs⟩)).le
      (Finset.prod_nonneg fun s hs => (Real.Gamma_pos_of_pos (ha s hs)).le)

end Post

end SBayes.Meas
