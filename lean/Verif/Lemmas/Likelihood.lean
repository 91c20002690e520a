import Verif.Spec.Likelihood
import Mathlib.Algebra.BigOperators.Ring.Finset
import Mathlib.Algebra.BigOperators.Field
import Mathlib.Algebra.Order.BigOperators.Ring.Finset
import Mathlib.Tactic.Ring
import Mathlib.Tactic.FieldSimp
/- Helper lemmas for the likelihood. -/
namespace SBayes.Lik
open scoped BigOperators
variable {𝕜 : Type} [Field 𝕜] {N F S G C K M : ℕ} {nG : Fin M → ℕ}

theorem anyGroup_iff {groups : Fin G → Fin N → Bool} {n : Fin N} :
    anyGroup groups n = true ↔ ∃ g, groups g n = true := by
  simp [anyGroup]

theorem anyGroup_false {groups : Fin G → Fin N → Bool} {n : Fin N} :
    anyGroup groups n = false ↔ ∀ g, groups g n = false := by
  simp [anyGroup]

theorem isNA_iff {x : Features N F S} {n : Fin N} {f : Fin F} :
    isNA x n f = true ↔ Missing x n f := by simp [isNA, Missing]

theorem observed_not_na {x : Features N F S} {n : Fin N} {f : Fin F} {s : Fin S}
    (h : Observed x n f s) : isNA x n f = false := by
  rw [Bool.eq_false_iff]; intro hna
  have := isNA_iff.mp hna s
  rw [(h s).mpr rfl] at this; cases this

theorem stateProb_observed {x : Features N F S} {p : Fin F → Fin S → 𝕜} {n : Fin N} {f : Fin F}
    {s : Fin S} (h : Observed x n f s) : stateProb x p n f = p f s := by
  unfold stateProb b2n
  rw [Finset.sum_eq_single s]
  · simp [(h s).mpr rfl]
  · intro b _ hb
    have : x n f b = false := by
      rw [Bool.eq_false_iff]; intro hx; exact hb ((h b).mp hx)
    simp [this]
  · simp

/-- The buffer after visiting the groups in `order`: an object of a visited group has the value of
its group, other objects keep their previous value. -/
theorem foldl_writeGroup {x : Features N F S} {probs : Fin G → Fin F → Fin S → 𝕜}
    {groups : Fin G → Fin N → Bool} (hd : DisjointGroups groups) (order : List (Fin G))
    (out : Fin N → Fin F → 𝕜) (n : Fin N) (f : Fin F) (i : Fin G) (hi : groups i n = true) :
    order.foldl (writeGroup x probs groups) out n f =
      if i ∈ order then stateProb x (probs i) n f else out n f := by
  induction order generalizing out with
  | nil => simp
  | cons j js ih =>
    rw [List.foldl_cons, ih]
    by_cases hj : i = j
    · subst hj; simp [writeGroup, hi]
    · have hjn : groups j n = false := by
        rw [Bool.eq_false_iff]; intro h; exact hj (hd i j n hi h)
      simp [writeGroup, hjn, hj]

theorem foldl_writeGroup_none {x : Features N F S} {probs : Fin G → Fin F → Fin S → 𝕜}
    {groups : Fin G → Fin N → Bool} (order : List (Fin G))
    (out : Fin N → Fin F → 𝕜) (n : Fin N) (f : Fin F) (hi : ∀ i, groups i n = false) :
    order.foldl (writeGroup x probs groups) out n f = out n f := by
  induction order generalizing out with
  | nil => rfl
  | cons j js ih => rw [List.foldl_cons, ih]; simp [writeGroup, hi j]

theorem compute_member {x : Features N F S} {probs : Fin G → Fin F → Fin S → 𝕜}
    {groups : Fin G → Fin N → Bool} (hd : DisjointGroups groups) {order : List (Fin G)}
    (out : Fin N → Fin F → 𝕜) {n : Fin N} {f : Fin F} {i : Fin G} (hi : groups i n = true)
    (ho : i ∈ order) :
    computeComponentLikelihood x probs groups order out n f = stateProb x (probs i) n f := by
  unfold computeComponentLikelihood
  rw [foldl_writeGroup hd order _ n f i hi, if_pos ho]

theorem compute_unchanged {x : Features N F S} {probs : Fin G → Fin F → Fin S → 𝕜}
    {groups : Fin G → Fin N → Bool} (hd : DisjointGroups groups) {order : List (Fin G)}
    (out : Fin N → Fin F → 𝕜) {n : Fin N} {f : Fin F} {i : Fin G} (hi : groups i n = true)
    (ho : i ∉ order) :
    computeComponentLikelihood x probs groups order out n f = out n f := by
  unfold computeComponentLikelihood
  rw [foldl_writeGroup hd order _ n f i hi, if_neg ho, if_pos (anyGroup_iff.mpr ⟨i, hi⟩)]

theorem compute_outside {x : Features N F S} {probs : Fin G → Fin F → Fin S → 𝕜}
    {groups : Fin G → Fin N → Bool} {order : List (Fin G)}
    (out : Fin N → Fin F → 𝕜) {n : Fin N} {f : Fin F} (hi : ∀ i, groups i n = false) :
    computeComponentLikelihood x probs groups order out n f = 0 := by
  unfold computeComponentLikelihood
  rw [foldl_writeGroup_none order _ n f hi]
  simp [anyGroup_false.mpr hi]

/-- The value the component likelihood should have, as a function. -/
def componentValue (x : Features N F S) (probs : Fin G → Fin F → Fin S → 𝕜)
    (groups : Fin G → Fin N → Bool) (n : Fin N) (f : Fin F) : 𝕜 :=
  overwriteNA x (computeComponentLikelihood x probs groups (List.finRange G) (fun _ _ => 0)) n f

theorem compute_all_eq {x : Features N F S} {probs : Fin G → Fin F → Fin S → 𝕜}
    {groups : Fin G → Fin N → Bool} (hd : DisjointGroups groups) {order : List (Fin G)}
    (ho : VisitsAll order) (out : Fin N → Fin F → 𝕜) (n : Fin N) (f : Fin F) :
    overwriteNA x (computeComponentLikelihood x probs groups order out) n f =
      componentValue x probs groups n f := by
  unfold componentValue overwriteNA
  congr 1
  by_cases h : ∃ i, groups i n = true
  · obtain ⟨i, hi⟩ := h
    rw [compute_member hd _ hi (ho i), compute_member hd _ hi (by simp)]
  · have h' : ∀ i, groups i n = false := by simpa using h
    rw [compute_outside _ h', compute_outside _ h']

theorem sum_prod_list_flatMap {α β : Type} (l : List α) (g : α → List β) (h : β → 𝕜) :
    ((l.flatMap g).map h).prod = (l.map fun a => ((g a).map h).prod).prod := by
  induction l with
  | nil => simp
  | cons a l ih => simp [ih]

theorem prod_finRange (n : ℕ) (h : Fin n → 𝕜) : ((List.finRange n).map h).prod = ∏ i, h i := by
  rw [List.prod_ofFn.symm, List.ofFn_eq_map]

/-- Product over the observation entries selected by a boolean mask. -/
theorem prod_filter_ravel (src : Fin N → Fin F → Fin C → Bool) (h : Fin N → Fin F → Fin C → 𝕜) :
    (((ravelIdx N F C).filter fun t => src t.1 t.2.1 t.2.2).map fun t => h t.1 t.2.1 t.2.2).prod =
      ∏ n, ∏ f, ∏ c, if src n f c then h n f c else 1 := by
  have key : ∀ {α : Type} (l : List α) (q : α → Bool) (u : α → 𝕜),
      ((l.filter q).map u).prod = (l.map fun a => if q a then u a else 1).prod := by
    intro α l q u
    induction l with
    | nil => simp
    | cons a l ih => by_cases hq : q a <;> simp [hq, ih]
  rw [key]
  unfold ravelIdx
  rw [sum_prod_list_flatMap, prod_finRange]
  refine Finset.prod_congr rfl fun n _ => ?_
  rw [sum_prod_list_flatMap, prod_finRange]
  refine Finset.prod_congr rfl fun f _ => ?_
  rw [List.map_map, prod_finRange]
  rfl

theorem likelihood_none (lh w : Fin N → Fin F → Fin C → 𝕜) :
    likelihood (observationLhs lh w none) = ∏ n, ∏ f, ∑ c, w n f c * lh n f c := by
  unfold likelihood observationLhs
  have : ((List.finRange N).flatMap fun n => (List.finRange F).map fun f => ∑ c, w n f c * lh n f c)
      = ((List.finRange N).flatMap fun n => (List.finRange F).map fun f => ∑ c, w n f c * lh n f c).map id := by
    simp
  rw [this, sum_prod_list_flatMap, prod_finRange]
  refine Finset.prod_congr rfl fun n _ => ?_
  rw [List.map_map, prod_finRange]; rfl

end SBayes.Lik
