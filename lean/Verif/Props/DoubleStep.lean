import Verif.Props.Double
import Verif.Model.DoubleStep
/- Property C106: Metropolis-Hastings steps of the cluster operators in double arithmetic. -/
namespace SBayes.Double
open SBayes.Lik SBayes.Clusters
open scoped BigOperators

variable {K N F S M C : ℕ} {nG : Fin M → ℕ} (D : Rounding)
  (d : ModelData N F S M nG) (w : Fin F → Fin (M + 1) → ℝ) (ce : Fin K → Fin F → Fin S → ℝ)
  (cf : (c : Fin M) → Fin (nG c) → Fin F → Fin S → ℝ) (cl : Clus K N)

theorem plus_none (a : LogVal) : plus a none = none := by cases a <;> rfl

/-- `-inf` plus anything is `-inf` or nan. -/
theorem bot_plus (b : LogVal) : plus (some ⊥) b = some ⊥ ∨ plus (some ⊥) b = none := by
  cases b with
  | none => right; rfl
  | some b => left; show some (⊥ + b) = _; rw [EReal.bot_add]

/-- A sum is `-inf` only if one of the terms is. -/
theorem plus_ne_bot {a b : LogVal} (ha : a ≠ some ⊥) (hb : b ≠ some ⊥) : plus a b ≠ some ⊥ := by
  cases a with
  | none => intro h; cases h
  | some a => cases b with
    | none => intro h; cases h
    | some b =>
      intro h
      have h' : a + b = ⊥ := Option.some.inj h
      rcases EReal.add_eq_bot_iff.mp h' with h | h
      · exact ha (by rw [h])
      · exact hb (by rw [h])

theorem accepts_bot (ll prior logQ : LogVal) (u : ℝ) : accepts ll prior logQ (some ⊥) u = false := by
  unfold accepts; rw [if_pos rfl]

theorem minus_none_right (a : LogVal) : minus a none = none := by cases a <;> rfl

theorem accepts_nan (ll prior : LogVal) {logQ : LogVal} (u : ℝ) (h : logQ ≠ some ⊥) :
    accepts ll prior logQ none u = false := by
  unfold accepts
  rw [if_neg (fun h => by cases h), if_neg h, minus_none_right, minus_none_right]
  rfl

theorem accepts_impossible (ll prior : LogVal) {logQ logQBack : LogVal} (u : ℝ) (h : logQ ≠ some ⊥)
    (hb : logQBack = some ⊥ ∨ logQBack = none) : accepts ll prior logQ logQBack u = false := by
  rcases hb with hb | hb
  · rw [hb]; exact accepts_bot ..
  · rw [hb]; exact accepts_nan _ _ _ h

theorem logOf_ne_bot {p : Option ℝ} (h : p ≠ some 0) : logOf p ≠ some ⊥ := by
  cases p with
  | none => intro h; cases h
  | some p =>
    unfold logOf
    have : p ≠ 0 := fun hp => h (by rw [hp])
    dsimp only
    rw [if_neg this]
    intro h
    exact EReal.coe_ne_bot _ (Option.some.inj h)

/-- **C106**, finding: a free object whose observations are 2^55 times more likely inside of the cluster can be
drawn by the growing step, but is never added: whatever the likelihoods, priors, source probabilities (positive for the sources drawn)
and random numbers, the proposal is rejected. -/
theorem C106_certain_object_is_never_added (z : Fin K) (o : Fin N)
    (h0 : 0 ≤ memberLh D d w ce cf cl z o false) (h1 : 0 < memberLh D d w ce cf cl z o true)
    (h : memberLh D d w ce cf cl z o false < memberLh D d w ce cf cl z o true / 2 ^ 55)
    (maxSize : ℕ) {p : Fin N → ℝ} (hp : grow D d w ce cf cl maxSize z = .draw p) (hdrawn : p o ≠ 0)
    (ll prior srcQ srcQBack : LogVal) (hs : srcQ ≠ some ⊥) (u : ℝ) :
    accepts ll prior (plus (growLogQ D (clusterPosterior D d w ce cf cl z) cl z o).1 srcQ)
      (plus (growLogQ D (clusterPosterior D d w ce cf cl z) cl z o).2 srcQBack) u = false := by
  have hone := C105_certain_member_has_probability_one D d w ce cf cl z o h0 h1 h
  have hadd : pAdd D (clusterPosterior D d w ce cf cl z) (free cl) = some p := by
    unfold grow at hp
    split at hp
    · cases hp
    · split at hp
      · cases hp
      · split at hp
        · cases hp
        · rename_i q hq; cases hp; exact hq
  refine accepts_impossible _ _ _ (plus_ne_bot ?_ hs) ?_
  · refine logOf_ne_bot ?_
    rw [hadd]
    intro hh
    exact hdrawn (Option.some.inj hh)
  · unfold growLogQ
    dsimp only
    generalize hr : pRemove D (clusterPosterior D d w ce cf cl z) (addObject cl z o z) = r
    cases r with
    | none => right; rfl
    | some r =>
      have : r o = 0 := by
        unfold pRemove at hr
        split at hr
        · unfold normalizeVec at hr
          dsimp only at hr
          split at hr
          · cases hr
          · cases hr
            dsimp only
            rw [hone, Option.getD_some, sub_self, fl_double D isDouble_zero, zero_mul, fl_double D isDouble_zero, zero_div,
              fl_double D isDouble_zero]
        · cases hr
      have e : logOf (entry (some r) o) = some ⊥ := by
        show (if r o = 0 then some ⊥ else _) = _
        rw [if_pos this]
      rw [e]
      exact bot_plus _

theorem foldl_plus_none (l : List LogVal) : l.foldl plus none = none := by
  induction l with
  | nil => rfl
  | cons a l ih => exact ih

/-- A sum with a `-inf` is `-inf` or nan. -/
theorem foldl_plus_bot {l : List LogVal} (h : some ⊥ ∈ l) (a : LogVal) :
    l.foldl plus a = some ⊥ ∨ l.foldl plus a = none := by
  induction l generalizing a with
  | nil => cases h
  | cons b l ih =>
    rw [List.foldl_cons]
    rcases List.mem_cons.mp h with hb | hb
    · subst hb
      have key : ∀ (l : List LogVal) (a : LogVal), a = some ⊥ ∨ a = none → l.foldl plus a = some ⊥ ∨ l.foldl plus a = none := by
        intro l
        induction l with
        | nil => intro a h; exact h
        | cons c l ih =>
          intro a h
          rw [List.foldl_cons]
          refine ih _ ?_
          rcases h with h | h <;> subst h
          · exact bot_plus c
          · right; rfl
      refine key l _ ?_
      cases a with
      | none => right; rfl
      | some a => left; show some (a + ⊥) = _; rw [EReal.add_bot]
    · exact ih hb _

theorem foldl_plus_ne_bot {l : List LogVal} (h : some ⊥ ∉ l) {a : LogVal} (ha : a ≠ some ⊥) : l.foldl plus a ≠ some ⊥ := by
  induction l generalizing a with
  | nil => exact ha
  | cons b l ih =>
    rw [List.foldl_cons]
    exact ih (fun hb => h (by simp [hb])) (plus_ne_bot ha fun hb => h (by simp [hb]))

theorem mem_indices {c : Fin N → Bool} {n : Fin N} : n ∈ indices c ↔ c n = true := by simp [indices]

/-- **C106**, finding: as long as there is such an object outside of the cluster that is not in another cluster, all
proposals of the operator that redraws the whole cluster are rejected, whatever the random numbers: the
cluster does not change at all. -/
theorem C106_certain_object_blocks_the_cluster (z : Fin K) (o : Fin N) (ho : free cl o = true)
    (hpos : ∀ n, 0 ≤ memberLh D d w ce cf cl z n false ∧ 0 ≤ memberLh D d w ce cf cl z n true)
    (h1 : 0 < memberLh D d w ce cf cl z o true)
    (h : memberLh D d w ce cf cl z o false < memberLh D d w ce cf cl z o true / 2 ^ 55)
    (minSize maxSize : ℕ) (v : Fin N → ℝ) (hv : ∀ n, 0 ≤ v n ∧ v n < 1)
    (ll prior srcQ srcQBack : LogVal) (hs : srcQ ≠ some ⊥) (u : ℝ) :
    accepts ll prior (plus (propose2 D (clusterPosterior D d w ce cf cl z) cl minSize maxSize z v).logQ srcQ)
      (plus (propose2 D (clusterPosterior D d w ce cf cl z) cl minSize maxSize z v).logQBack srcQBack) u = false := by
  have hone := C105_certain_member_has_probability_one D d w ce cf cl z o (hpos o).1 h1 h
  have hrej : (plus (some 0) srcQ) ≠ some ⊥ := plus_ne_bot (fun h => by cases Option.some.inj h) hs
  unfold propose2
  dsimp only
  split
  · exact accepts_impossible _ _ _ hrej (bot_plus _)
  split
  · exact accepts_impossible _ _ _ hrej (bot_plus _)
  have hz : cl z o = false := by
    cases hc : cl z o with
    | false => rfl
    | true =>
      unfold free anyGroup at ho
      rw [Bool.not_eq_true', List.any_eq_false] at ho
      exact absurd hc (ho z (List.mem_finRange z))
  refine accepts_impossible _ _ _ (plus_ne_bot ?_ hs) ?_
  · -- the computed probability of the proposal is positive or nan
    refine foldl_plus_ne_bot ?_ (fun h => by cases Option.some.inj h)
    rw [List.mem_map]
    rintro ⟨n, hn, he⟩
    rw [mem_indices] at hn
    revert he
    refine logOf_ne_bot ?_
    unfold redraw
    rw [hn, Bool.true_and]
    cases hq : clusterPosterior D d w ce cf cl z n with
    | none => intro h; cases h
    | some p =>
      obtain ⟨pd, p0, p1⟩ := clusterPosterior_mem D d w ce cf cl (hpos n).1 (hpos n).2 hq
      have h1p : IsDouble (D.fl (1 - p)) := D.isDouble _
      by_cases hlt : v n < p
      · simp only [hlt, decide_true]
        intro hh
        have hh := Option.some.inj hh
        simp only [b2n, Bool.not_true, if_true, Bool.false_eq_true, if_false, mul_one, mul_zero,
          fl_double D isDouble_zero, add_zero, fl_double D pd] at hh
        linarith [(hv n).1]
      · simp only [hlt, decide_false]
        intro hh
        have hh := Option.some.inj hh
        simp only [b2n, Bool.not_false, if_true, Bool.false_eq_true, if_false, mul_one, mul_zero,
          fl_double D isDouble_zero, zero_add, fl_double D h1p] at hh
        have hp1 : p < 1 := lt_of_le_of_lt (not_lt.mp hlt) (hv n).2
        have hgap := isDouble_one.gap pd (by norm_num) hp1.ne'
        rw [abs_of_pos (by linarith)] at hgap
        have := le_fl D (y := 1 / 2 ^ 54) ⟨1, -54, by norm_num, by norm_num, by norm_num⟩ hgap
        rw [hh] at this
        norm_num at this
  · have hb : logSum D (clusterPosterior D d w ce cf cl z) (available cl z) (cl z) = some ⊥ ∨
        logSum D (clusterPosterior D d w ce cf cl z) (available cl z) (cl z) = none := by
      refine foldl_plus_bot ?_ _
      rw [List.mem_map]
      refine ⟨o, mem_indices.mpr (by simp [available, ho]), ?_⟩
      rw [hone, hz]
      show (if _ = (0:ℝ) then some ⊥ else _) = _
      rw [if_pos]
      simp [b2n, fl_double D isDouble_zero]
    rcases hb with hb | hb
    · rw [hb]; exact bot_plus _
    · rw [hb]; right; rfl

/-- **C106**, the part that holds: if no likelihood underflows and the observations of a free object are at least 2^-50
times as likely outside of the cluster, both probabilities of the growing step that adds it are positive numbers, and the decision is the
usual comparison with the Metropolis-Hastings ratio. -/
theorem C106_doubtful_object_can_be_added_partial (hN : N ≤ 10 ^ 6) (z : Fin K) (o : Fin N)
    (hpos : ∀ n, 0 ≤ memberLh D d w ce cf cl z n false ∧ 0 < memberLh D d w ce cf cl z n true)
    (h1 : (2:ℝ) ^ (-1000 : ℤ) ≤ memberLh D d w ce cf cl z o true)
    (h : memberLh D d w ce cf cl z o true / 2 ^ 50 ≤ memberLh D d w ce cf cl z o false)
    (maxSize : ℕ) {p : Fin N → ℝ} (hp : grow D d w ce cf cl maxSize z = .draw p) (hdrawn : 0 < p o)
    (ll prior srcQ srcQBack u : ℝ) :
    ∃ q qBack : ℝ, 0 < q ∧ 0 < qBack ∧
      (accepts (some ll) (some prior) (plus (growLogQ D (clusterPosterior D d w ce cf cl z) cl z o).1 (some srcQ))
        (plus (growLogQ D (clusterPosterior D d w ce cf cl z) cl z o).2 (some srcQBack)) u = true ↔
      Real.log u < ll - ((Real.log q + srcQ) - (Real.log qBack + srcQBack)) + prior) := by
  have hadd : pAdd D (clusterPosterior D d w ce cf cl z) (free cl) = some p := by
    unfold grow at hp
    split at hp
    · cases hp
    · split at hp
      · cases hp
      · split at hp
        · cases hp
        · rename_i q hq; cases hp; exact hq
  obtain ⟨r, hr, _, _, _, hr0⟩ := pRemove_ok D d w ce cf cl hN z (addObject cl z o z) hpos o (by simp [addObject]) h1 h
  refine ⟨p o, r o, hdrawn, hr0, ?_⟩
  unfold growLogQ
  rw [hadd, hr]
  have e1 : logOf (entry (some p) o) = some ((Real.log (p o) : ℝ) : EReal) := by
    show (if p o = 0 then some ⊥ else _) = _
    rw [if_neg hdrawn.ne']
  have e2 : logOf (entry (some r) o) = some ((Real.log (r o) : ℝ) : EReal) := by
    show (if r o = 0 then some ⊥ else _) = _
    rw [if_neg hr0.ne']
  dsimp only
  rw [e1, e2]
  unfold accepts
  have n1 : plus (some ((Real.log (r o) : ℝ) : EReal)) (some (srcQBack : EReal)) = some ((Real.log (r o) + srcQBack : ℝ) : EReal) := by
    show some _ = _; rw [EReal.coe_add]
  have n2 : plus (some ((Real.log (p o) : ℝ) : EReal)) (some (srcQ : EReal)) = some ((Real.log (p o) + srcQ : ℝ) : EReal) := by
    show some _ = _; rw [EReal.coe_add]
  rw [n1, n2, if_neg (fun h => EReal.coe_ne_bot _ (Option.some.inj h)), if_neg (fun h => EReal.coe_ne_bot _ (Option.some.inj h))]
  show decide (_ < ((ll : EReal) - ((_ : EReal) - _) + prior)) = true ↔ _
  rw [decide_eq_true_iff, ← EReal.coe_sub, ← EReal.coe_sub, ← EReal.coe_add, EReal.coe_lt_coe_iff]

/-! ### A concrete sample -/

theorem ex_ratio (N : ℕ) {F : ℕ} (hF : 56 ≤ F) (hF' : F ≤ 500) (cl : Clus 1 N) (n : Fin N) :
    0 ≤ memberLh D (exData N F) (exWeights F) (exCluster F (3 / 4)) (exConf F) cl 0 n false ∧
    0 < memberLh D (exData N F) (exWeights F) (exCluster F (3 / 4)) (exConf F) cl 0 n true ∧
    memberLh D (exData N F) (exWeights F) (exCluster F (3 / 4)) (exConf F) cl 0 n false <
      memberLh D (exData N F) (exWeights F) (exCluster F (3 / 4)) (exConf F) cl 0 n true / 2 ^ 55 := by
  have hp1 : prod D ((List.finRange F).map fun _ => (1 / 2 : ℝ)) = (1 / 2) ^ F :=
    prod_const D fun k hk => fl_double D (isDouble_pow (by omega))
  have hp0 : prod D ((List.finRange F).map fun _ => (1 / 4 : ℝ)) = (1 / 4) ^ F :=
    prod_const D fun k hk => fl_double D (by
      rw [show (1 / 4 : ℝ) = (1 / 2) ^ 2 by norm_num, ← pow_mul]; exact isDouble_pow (by omega))
  have q1 : IsDouble ((3 / 4 : ℝ) / 2) := by
    have := isDouble_dyadic 3 3 (by norm_num) (by omega); norm_num at this ⊢; exact this
  have q2 : IsDouble ((3 / 4 : ℝ) / 2 + 1 / 8) := by norm_num; simpa using isDouble_half
  rw [ex_lh D N F q1 q2, ex_lh D N F q1 q2]
  simp only [if_true, Bool.false_eq_true, if_false]
  rw [show (3 / 4 / 2 + 1 / 8 : ℝ) = 1 / 2 by norm_num, hp1, hp0]
  refine ⟨by positivity, by positivity, ?_⟩
  rw [show (1 / 4 : ℝ) = 1 / 2 * (1 / 2) by norm_num, mul_pow, div_eq_mul_inv]
  refine mul_lt_mul_of_pos_left ?_ (by positivity)
  have : (1 / 2 : ℝ) ^ F ≤ (1 / 2) ^ 56 := pow_le_pow_of_le_one (by norm_num) (by norm_num) hF
  exact lt_of_le_of_lt this (by norm_num)

theorem ex_posterior_one (N : ℕ) {F : ℕ} (hF : 56 ≤ F) (hF' : F ≤ 500) (cl : Clus 1 N) (n : Fin N) :
    clusterPosterior D (exData N F) (exWeights F) (exCluster F (3 / 4)) (exConf F) cl 0 n = some 1 := by
  obtain ⟨h0, h1, h⟩ := ex_ratio D N hF hF' cl n
  exact C105_certain_member_has_probability_one D _ _ _ _ cl 0 n h0 h1 h

/-- With one free object, growing draws it (hypotheses `hp`, `hdrawn` above). -/
theorem grow_one_free {N F : ℕ} (d : ModelData (N + 1) F S M nG) (w : Fin F → Fin (M + 1) → ℝ) (ce : Fin 1 → Fin F → Fin S → ℝ)
    (cf : (c : Fin M) → Fin (nG c) → Fin F → Fin S → ℝ) (maxSize : ℕ) (hm : N ≠ maxSize) {q : Fin (N + 1) → ℝ}
    (hq : ∀ n, clusterPosterior D d w ce cf (fun (_ : Fin 1) (n : Fin (N + 1)) => n != 0) 0 n = some (q n))
    (hd : IsDouble (q 0)) (h0 : q 0 ≠ 0) :
    ∃ p, grow D d w ce cf (fun (_ : Fin 1) (n : Fin (N + 1)) => n != 0) maxSize 0 = .draw p ∧ p 0 = 1 := by
  have hfree : ∀ n : Fin (N + 1), free (fun (_ : Fin 1) (n : Fin (N + 1)) => n != 0) n = (n == 0) := by
    intro n; simp [free, anyGroup, List.finRange, bne]
  have hc0 : count (free (fun (_ : Fin 1) (n : Fin (N + 1)) => n != 0)) ≠ 0 := by
    rw [Ne, count_eq_zero]; push Not; exact ⟨0, by rw [hfree]; simp⟩
  have hc1 : count (fun n : Fin (N + 1) => n != 0) = N := by
    unfold count
    rw [List.finRange_succ, List.countP_cons_of_neg (by simp), List.countP_map]
    rw [List.countP_eq_length.mpr (by intro a _; simp)]
    simp
  unfold grow
  rw [if_neg hc0, if_neg (by rw [hc1]; exact hm)]
  unfold pAdd
  rw [if_pos (by rw [List.all_eq_true]; intro n _; rw [hq]; rfl)]
  simp only [hq, Option.getD_some, hfree]
  have hb : ∀ n : Fin (N + 1), D.fl (q n * b2n ℝ (n == 0)) = if n = 0 then q 0 else 0 := by
    intro n
    by_cases hn : n = 0
    · subst hn; simp [b2n, fl_double D hd]
    · simp [hn, b2n, fl_double D isDouble_zero]
  simp only [hb]
  have hsum : sum D (List.ofFn fun n : Fin (N + 1) => if n = 0 then q 0 else 0) = q 0 := by
    unfold sum
    rw [List.ofFn_succ, List.foldl_cons, if_pos rfl, zero_add, fl_double D hd]
    have : ∀ l : List ℝ, (∀ x ∈ l, x = 0) → l.foldl (fun a x => D.fl (a + x)) (q 0) = q 0 := by
      intro l
      induction l with
      | nil => intro _; rfl
      | cons x l ih =>
        intro hx
        rw [List.foldl_cons, hx x (by simp), add_zero, fl_double D hd]
        exact ih fun y hy => hx y (by simp [hy])
    refine this _ fun x hx => ?_
    rw [List.mem_ofFn] at hx
    obtain ⟨i, rfl⟩ := hx
    rw [if_neg (Fin.succ_ne_zero i)]
  unfold normalizeVec
  dsimp only
  rw [hsum, if_neg h0]
  exact ⟨_, rfl, by rw [if_pos rfl, div_self h0, fl_double D isDouble_one]⟩

theorem ex_grow_draws (N : ℕ) {F : ℕ} (hF : 56 ≤ F) (hF' : F ≤ 500) (maxSize : ℕ) (hm : N ≠ maxSize) :
    ∃ p, grow D (exData (N + 1) F) (exWeights F) (exCluster F (3 / 4)) (exConf F) (fun (_ : Fin 1) (n : Fin (N + 1)) => n != 0)
      maxSize 0 = .draw p ∧ p 0 = 1 :=
  grow_one_free D _ _ _ _ maxSize hm (q := fun _ => 1) (fun n => ex_posterior_one D _ hF hF' _ n) isDouble_one one_ne_zero

theorem normalizeVec_pos {x : Fin N → ℝ} (h : ∀ n, 0 ≤ x n) {o : Fin N} (ho : 0 < x o) : 0 < Clusters.normalizeVec x o := by
  unfold Clusters.normalizeVec
  refine div_pos ho ?_
  rw [← Fin.sum_univ_def]
  exact lt_of_lt_of_le ho (Finset.single_le_sum (fun n _ => h n) (Finset.mem_univ o))

/-- **C106**, finding in a sample: all objects but one are in the cluster, whose states have probability 3/4 in the
cluster and 1/4 outside, and weights 1/2, 56 ≤ `F` ≤ 500 features. In exact arithmetic the last object is proposed
and the proposal has a positive probability of being reversed, so that it can be accepted; in doubles growing proposes
it with certainty, and rejects it always, and the operator that redraws the whole cluster rejects everything. -/
theorem C106_last_object_is_never_added_false {N F : ℕ} (hF : 56 ≤ F) (hF' : F ≤ 500) (minSize maxSize : ℕ) (hm : N ≠ maxSize)
    (cl : Clus 1 (N + 1)) (hcl : cl = fun _ n => n != 0) :
    PositiveModel (exData (N + 1) F) (exWeights F) (exCluster F (3 / 4)) (exConf F) ∧
    (0 < Clusters.pAdd (Clusters.clusterPosterior (exData (N + 1) F) (exWeights F) (exCluster F (3 / 4)) (exConf F)) cl 0 0 ∧
      0 < Clusters.pRemove (Clusters.clusterPosterior (exData (N + 1) F) (exWeights F) (exCluster F (3 / 4)) (exConf F))
        (addObject cl 0 0) 0 0) ∧
    (∃ p, grow D (exData (N + 1) F) (exWeights F) (exCluster F (3 / 4)) (exConf F) cl maxSize 0 = .draw p ∧ p 0 = 1) ∧
    ∀ (ll prior srcQ srcQBack : LogVal) (u : ℝ) (v : Fin (N + 1) → ℝ), srcQ ≠ some ⊥ → (∀ n, 0 ≤ v n ∧ v n < 1) →
      let post := clusterPosterior D (exData (N + 1) F) (exWeights F) (exCluster F (3 / 4)) (exConf F) cl 0
      accepts ll prior (plus (growLogQ D post cl 0 0).1 srcQ) (plus (growLogQ D post cl 0 0).2 srcQBack) u = false ∧
      accepts ll prior (plus (propose2 D post cl minSize maxSize 0 v).logQ srcQ)
        (plus (propose2 D post cl minSize maxSize 0 v).logQBack srcQBack) u = false := by
  have hex := ex_positive (N + 1) F (q := 3 / 4) (by norm_num)
  have hg := clusterPosterior_good hex
  have hfree : free cl 0 = true := by subst hcl; simp [free, anyGroup, List.finRange]
  obtain ⟨p, hp, hp1⟩ := ex_grow_draws D N hF hF' maxSize hm
  refine ⟨hex, ⟨?_, ?_⟩, ⟨p, by rw [hcl]; exact hp, hp1⟩, fun ll prior srcQ srcQBack u v hs hv => ?_⟩
  · refine normalizeVec_pos (fun n => mul_nonneg (hg.pos cl 0 n).le (by unfold ind; split <;> norm_num)) ?_
    have := hg.pos cl 0 0
    simp only [hfree, ind, if_true, mul_one]; exact this
  · refine normalizeVec_pos (fun n => mul_nonneg ?_ (by unfold ind; split <;> norm_num)) ?_
    · linarith [hg.lt_one (addObject cl 0 0) 0 n]
    · have := hg.lt_one (addObject cl 0 0) 0 0
      simp only [addObject, ind, and_self, if_true, mul_one] at this ⊢; linarith
  · obtain ⟨h0, h1, h⟩ := ex_ratio D (N + 1) hF hF' cl 0
    refine ⟨C106_certain_object_is_never_added D _ _ _ _ cl 0 0 h0 h1 h maxSize (by rw [hcl]; exact hp) (by rw [hp1]; norm_num)
      ll prior srcQ srcQBack hs u, ?_⟩
    exact C106_certain_object_blocks_the_cluster D _ _ _ _ cl 0 0 hfree
      (fun n => ⟨(ex_ratio D (N + 1) hF hF' cl n).1, (ex_ratio D (N + 1) hF hF' cl n).2.1.le⟩) h1 h minSize maxSize v hv
      ll prior srcQ srcQBack hs u

/-! Non-vacuity: 101 objects with 100 features; and an object that can be added: 10 features. -/

example := C106_last_object_is_never_added_false someRounding (N := 100) (F := 100) (by norm_num) (by norm_num) 2 1000
  (by norm_num) _ rfl

/-- The likelihoods of the sample with 10 features. -/
theorem ex_lh10 (cl : Clus 1 5) (n : Fin 5) (b : Bool) :
    memberLh someRounding (exData 5 10) (exWeights 10) (exCluster 10 (3 / 4)) (exConf 10) cl 0 n b =
      if b then (1 / 2) ^ 10 else (1 / 4) ^ 10 := by
  have q1 : IsDouble ((3 / 4 : ℝ) / 2) := by
    have := isDouble_dyadic 3 3 (by norm_num) (by omega); norm_num at this ⊢; exact this
  have q2 : IsDouble ((3 / 4 : ℝ) / 2 + 1 / 8) := by norm_num; simpa using isDouble_half
  rw [ex_lh someRounding 5 10 q1 q2]
  cases b
  · exact prod_const someRounding fun k hk => fl_double someRounding (by
      simp only [Bool.false_eq_true, if_false]
      rw [show (1 / 4 : ℝ) = (1 / 2) ^ 2 by norm_num, ← pow_mul]; exact isDouble_pow (by omega))
  · simp only [if_true]
    rw [show (3 / 4 / 2 + 1 / 8 : ℝ) = 1 / 2 by norm_num]
    exact prod_const someRounding fun k hk => fl_double someRounding (isDouble_pow (by omega))

example (ll prior srcQ srcQBack u : ℝ) :
    let post := clusterPosterior someRounding (exData 5 10) (exWeights 10) (exCluster 10 (3 / 4)) (exConf 10)
      (fun (_ : Fin 1) (n : Fin 5) => n != 0) 0
    let Q := growLogQ someRounding post (fun (_ : Fin 1) (n : Fin 5) => n != 0) 0 0
    ∃ q qBack : ℝ, 0 < q ∧ 0 < qBack ∧ (accepts (some ll) (some prior) (plus Q.1 (some srcQ)) (plus Q.2 (some srcQBack)) u = true ↔
      Real.log u < ll - ((Real.log q + srcQ) - (Real.log qBack + srcQBack)) + prior) := by
  have hq' : ∀ n, ∃ q : ℝ, clusterPosterior someRounding (exData 5 10) (exWeights 10) (exCluster 10 (3 / 4))
      (exConf 10) (fun (_ : Fin 1) (n : Fin 5) => n != 0) 0 n = some q ∧ 0 < q ∧ IsDouble q := by
    intro n
    unfold clusterPosterior div
    dsimp only
    rw [ex_lh10, ex_lh10]
    simp only [if_true, Bool.false_eq_true, if_false]
    have h1 : (1 / 2 : ℝ) ^ 10 ≤ someRounding.fl ((1 / 4) ^ 10 + (1 / 2) ^ 10) :=
      le_fl someRounding (isDouble_pow (by omega)) (by norm_num)
    have h2 : someRounding.fl ((1 / 4 : ℝ) ^ 10 + (1 / 2) ^ 10) ≤ 1 := fl_le someRounding isDouble_one (by norm_num)
    have h3 : (0:ℝ) < someRounding.fl ((1 / 4) ^ 10 + (1 / 2) ^ 10) := lt_of_lt_of_le (by norm_num) h1
    rw [if_neg h3.ne']
    refine ⟨_, rfl, ?_, someRounding.isDouble _⟩
    refine lt_of_lt_of_le (show (0:ℝ) < (1 / 2) ^ 10 by norm_num) (le_fl someRounding (isDouble_pow (by omega)) ?_)
    rw [le_div_iff₀ h3]
    exact mul_le_of_le_one_right (by norm_num) h2
  choose q hq using hq'
  obtain ⟨p, hp, hp1⟩ := grow_one_free someRounding (exData 5 10) (exWeights 10) (exCluster 10 (3 / 4)) (exConf 10) 100
    (by norm_num) (fun n => (hq n).1) (hq 0).2.2 (hq 0).2.1.ne'
  exact C106_doubtful_object_can_be_added_partial someRounding (exData 5 10) (exWeights 10) (exCluster 10 (3 / 4)) (exConf 10)
    (fun (_ : Fin 1) (n : Fin 5) => n != 0) (by norm_num) 0 0 (fun n => by rw [ex_lh10, ex_lh10]; norm_num)
    (by rw [ex_lh10, if_pos rfl, show (1 / 2 : ℝ) ^ 10 = 2 ^ (-10 : ℤ) by norm_num, zpow_le_zpow_iff_right₀ (by norm_num)]
        norm_num)
    (by rw [ex_lh10, ex_lh10]; norm_num) 100 hp (by rw [hp1]; norm_num) ll prior srcQ srcQBack u

end SBayes.Double
