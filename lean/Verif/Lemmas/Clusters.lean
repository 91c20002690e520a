import Verif.Spec.Clusters
import Verif.Lemmas.MH
import Mathlib.Data.Fintype.Card
import Mathlib.Algebra.BigOperators.Fin
set_option linter.unusedSectionVars false
/- Helper lemmas for the cluster operators. -/
namespace SBayes.Clusters
open SBayes.Lik SBayes.MH
variable {K N : ℕ}

theorem count_eq_size (c : Fin N → Bool) : count c = size c := by
  unfold count size
  rw [List.countP_eq_length_filter]
  have : (Finset.univ.filter fun n => c n = true) = ((List.finRange N).filter fun n => c n).toFinset := by
    ext n; simp
  rw [this, List.toFinset_card_of_nodup ((List.nodup_finRange N).filter _)]

theorem mem_indices {c : Fin N → Bool} {n : Fin N} : n ∈ indices c ↔ c n = true := by
  simp [indices]

theorem nodup_indices (c : Fin N → Bool) : (indices c).Nodup := (List.nodup_finRange N).filter _

theorem length_indices (c : Fin N → Bool) : (indices c).length = count c := by
  unfold indices count; rw [List.countP_eq_length_filter]

theorem indices_ne_nil {c : Fin N → Bool} : indices c ≠ [] ↔ count c ≠ 0 := by
  rw [← length_indices]; simp [List.length_eq_zero_iff]

theorem count_eq_zero {c : Fin N → Bool} : count c = 0 ↔ ∀ n, c n = false := by
  rw [← length_indices, List.length_eq_zero_iff, List.eq_nil_iff_forall_not_mem]
  simp [mem_indices]

theorem free_iff {cl : Clus K N} {n : Fin N} : free cl n = true ↔ ∀ k, cl k n = false := by
  simp [free, anyGroup]

theorem getNeighbours_iff {c occ : Fin N → Bool} {adj : Fin N → Fin N → Bool} {n : Fin N} :
    getNeighbours c occ adj n = true ↔ (∃ m, adj n m = true ∧ c m = true) ∧ occ n = false := by
  simp [getNeighbours]

theorem neighbour_free {cl : Clus K N} {z : Fin K} {adj : Fin N → Fin N → Bool} {n : Fin N}
    (h : getNeighbours (cl z) (anyGroup cl) adj n = true) : free cl n = true := by
  have := (getNeighbours_iff.mp h).2
  simp [free, this]

theorem addObject_self (cl : Clus K N) (z : Fin K) (o : Fin N) : addObject cl z o z o = true := by
  simp [addObject]

theorem removeObject_self (cl : Clus K N) (z : Fin K) (o : Fin N) : removeObject cl z o z o = false := by
  simp [removeObject]

theorem addObject_inj {cl : Clus K N} {z z' : Fin K} {o o' : Fin N} (h : cl z o = false)
    (e : addObject cl z' o' = addObject cl z o) : z' = z ∧ o' = o := by
  have := congrFun (congrFun e z) o
  rw [addObject_self] at this
  unfold addObject at this
  split at this
  · rename_i h'; exact ⟨h'.1.symm, h'.2.symm⟩
  · rw [h] at this; cases this

theorem removeObject_inj {cl : Clus K N} {z z' : Fin K} {o o' : Fin N} (h : cl z o = true)
    (e : removeObject cl z' o' = removeObject cl z o) : z' = z ∧ o' = o := by
  have := congrFun (congrFun e z) o
  rw [removeObject_self] at this
  unfold removeObject at this
  split at this
  · rename_i h'; exact ⟨h'.1.symm, h'.2.symm⟩
  · rw [h] at this; cases this

theorem addObject_ne {cl : Clus K N} {z : Fin K} {o : Fin N} (h : cl z o = false) :
    addObject cl z o ≠ cl := by
  intro e; have := congrFun (congrFun e z) o; rw [addObject_self, h] at this; cases this

theorem removeObject_ne {cl : Clus K N} {z : Fin K} {o : Fin N} (h : cl z o = true) :
    removeObject cl z o ≠ cl := by
  intro e; have := congrFun (congrFun e z) o; rw [removeObject_self, h] at this; cases this

theorem remove_ne_add {cl : Clus K N} {z z' : Fin K} {o o' : Fin N} (h : cl z o = false) :
    removeObject cl z' o' ≠ addObject cl z o := by
  intro e
  have := congrFun (congrFun e z) o
  rw [addObject_self] at this
  unfold removeObject at this
  split at this
  · cases this
  · rw [h] at this; cases this

theorem add_ne_remove {cl : Clus K N} {z z' : Fin K} {o o' : Fin N} (h : cl z o = true) :
    addObject cl z' o' ≠ removeObject cl z o := by
  intro e
  have := congrFun (congrFun e z) o
  rw [removeObject_self] at this
  unfold addObject at this
  split at this
  · cases this
  · rw [h] at this; cases this

theorem remove_add {cl : Clus K N} {z : Fin K} {o : Fin N} (h : cl z o = false) :
    removeObject (addObject cl z o) z o = cl := by
  funext k n; unfold removeObject addObject
  by_cases e : k = z ∧ n = o
  · rw [if_pos e, e.1, e.2, h]
  · rw [if_neg e, if_neg e]

theorem add_remove {cl : Clus K N} {z : Fin K} {o : Fin N} (h : cl z o = true) :
    addObject (removeObject cl z o) z o = cl := by
  funext k n; unfold removeObject addObject
  by_cases e : k = z ∧ n = o
  · rw [if_pos e, e.1, e.2, h]
  · simp only [if_neg e]

theorem size_add {cl : Clus K N} {z : Fin K} {o : Fin N} (h : cl z o = false) :
    size (addObject cl z o z) = size (cl z) + 1 := by
  unfold size
  have : (Finset.univ.filter fun n => addObject cl z o z n = true) =
      insert o (Finset.univ.filter fun n => cl z n = true) := by
    ext n
    simp only [addObject, true_and, Finset.mem_filter, Finset.mem_univ, Finset.mem_insert]
    by_cases e : n = o <;> simp [e]
  rw [this, Finset.card_insert_of_notMem]
  simp [h]

theorem size_remove {cl : Clus K N} {z : Fin K} {o : Fin N} (h : cl z o = true) :
    size (removeObject cl z o z) + 1 = size (cl z) := by
  conv_rhs => rw [← add_remove h]
  rw [size_add (removeObject_self cl z o)]

theorem add_other {cl : Clus K N} {z k : Fin K} {o : Fin N} (h : k ≠ z) : addObject cl z o k = cl k := by
  funext n; unfold addObject; rw [if_neg fun e => h e.1]

theorem remove_other {cl : Clus K N} {z k : Fin K} {o : Fin N} (h : k ≠ z) :
    removeObject cl z o k = cl k := by
  funext n; unfold removeObject; rw [if_neg fun e => h e.1]

theorem valid_add {lo hi : ℕ} {cl : Clus K N} {z : Fin K} {o : Fin N} (hv : Valid lo hi cl)
    (hf : free cl o = true) (hs : size (cl z) < hi) : Valid lo hi (addObject cl z o) := by
  have hz : cl z o = false := free_iff.mp hf z
  constructor
  · intro i j n hi hj
    unfold addObject at hi hj
    by_cases e : n = o
    · subst e
      have hall := free_iff.mp hf
      simp only [and_true, hall] at hi hj
      have : i = z := by by_contra h; simp [h] at hi
      have : j = z := by by_contra h; simp [h] at hj
      simp_all
    · simp only [e, and_false, if_false] at hi hj
      exact hv.disjoint i j n hi hj
  · intro k
    by_cases e : k = z
    · subst e; rw [size_add hz]; exact (hv.lower k).trans (Nat.le_succ _)
    · rw [add_other e]; exact hv.lower k
  · intro k
    by_cases e : k = z
    · subst e; rw [size_add hz]; exact hs
    · rw [add_other e]; exact hv.upper k

theorem valid_remove {lo hi : ℕ} {cl : Clus K N} {z : Fin K} {o : Fin N} (hv : Valid lo hi cl)
    (hz : cl z o = true) (hs : lo < size (cl z)) : Valid lo hi (removeObject cl z o) := by
  constructor
  · intro i j n hi hj
    refine hv.disjoint i j n ?_ ?_
    · unfold removeObject at hi; split at hi
      · cases hi
      · exact hi
    · unfold removeObject at hj; split at hj
      · cases hj
      · exact hj
  · intro k
    by_cases e : k = z
    · subst e; have := size_remove hz; omega
    · rw [remove_other e]; exact hv.lower k
  · intro k
    by_cases e : k = z
    · subst e; have := size_remove hz; have := hv.upper k; omega
    · rw [remove_other e]; exact hv.upper k

theorem free_remove {lo hi : ℕ} {cl : Clus K N} {z : Fin K} {o : Fin N} (hv : Valid lo hi cl)
    (hz : cl z o = true) : free (removeObject cl z o) o = true := by
  rw [free_iff]
  intro k
  by_cases e : k = z
  · subst e; exact removeObject_self cl k o
  · rw [remove_other e]
    by_contra h
    exact e (hv.disjoint k z o (by simpa using h) hz)

theorem changed_add {lo hi : ℕ} {cl : Clus K N} {z : Fin K} {o : Fin N} (_hv : Valid lo hi cl)
    (hf : free cl o = true) : OneMembershipChanged cl (addObject cl z o) := by
  have hall := free_iff.mp hf
  refine ⟨z, o, ?_, ?_, fun k _ => hall k⟩
  · rw [addObject_self, hall]; rfl
  · intro k n h; unfold addObject; rw [if_neg h]

theorem changed_remove {lo hi : ℕ} {cl : Clus K N} {z : Fin K} {o : Fin N} (hv : Valid lo hi cl)
    (hz : cl z o = true) : OneMembershipChanged cl (removeObject cl z o) := by
  refine ⟨z, o, ?_, ?_, ?_⟩
  · rw [removeObject_self, hz]; rfl
  · intro k n h; unfold removeObject; rw [if_neg h]
  · intro k hk
    by_contra h
    exact hk (hv.disjoint k z o (by simpa using h) hz)

theorem size_pos_of_mem {c : Fin N → Bool} {o : Fin N} (h : c o = true) : 0 < size c := by
  unfold size; exact Finset.card_pos.mpr ⟨o, by simp [h]⟩

/-- A uniform choice among the members of `l`, for a function supported at one element. -/
theorem E_uniform_single {α : Type} {l : List α} (hl : l.Nodup) {a : α} (ha : a ∈ l) (f : α → ℝ)
    (h : ∀ b ∈ l, b ≠ a → f b = 0) : E (uniform l) f = 1 / (l.length : ℝ) * f a := by
  classical
  rw [E_uniform, sum_map_single hl f h, if_pos ha]

theorem E_uniform_zero {α : Type} {l : List α} (f : α → ℝ)
    (h : ∀ b ∈ l, f b = 0) : E (uniform l) f = 0 :=
  E_eq_zero fun p hp => h p.1 (mem_uniform hp)

theorem propMass_half {σ : Type} (a b : σ → Rand (Result σ)) (x y : σ) :
    propMass (fun x => bind (bernoulli (1 / 2)) fun s => if s then a x else b x) x y =
      1 / 2 * propMass a x y + 1 / 2 * propMass b x y := by
  unfold propMass prob
  rw [E_bind, E_bernoulli]
  simp only [if_true, Bool.false_eq_true, if_false]
  norm_num

theorem isDist_half {σ : Type} {a b : Rand σ} (ha : IsDist a) (hb : IsDist b) :
    IsDist (bind (bernoulli (1 / 2)) fun s => if s then a else b) := by
  refine isDist_bind (isDist_bernoulli (by norm_num) (by norm_num)) fun p _ => ?_
  split
  · exact ha
  · exact hb

end SBayes.Clusters
