import Verif.Model.Results
import Verif.Spec.Log
import Mathlib.Data.List.Perm.Basic
import Mathlib.Data.List.Range
import Mathlib.Data.List.Nodup
import Mathlib.Data.Fintype.EquivFin
import Mathlib.Data.List.OfFn
import Mathlib.Data.List.FinRange
import Mathlib.Data.List.GetD
/-
Supporting lemmas for the output files: permutations, Python's `max`, lists with positions, strings split at
underscores.
-/
namespace SBayes.Log

/-! ### Permutations -/

theorem mem_lexPerms (n : ℕ) (l : List ℕ) (h : l.length = n) (p : List ℕ) : p ∈ lexPerms n l ↔ p.Perm l := by
  induction n generalizing l p with
  | zero =>
    obtain rfl := List.length_eq_zero_iff.1 h
    simp [lexPerms]
  | succ n ih =>
    simp only [lexPerms, List.mem_flatMap, List.mem_map]
    constructor
    · rintro ⟨x, hx, q, hq, rfl⟩
      have := (ih (l.erase x) (by rw [List.length_erase_of_mem hx, h]; rfl) q).1 hq
      exact (this.cons x).trans (List.perm_cons_erase hx).symm
    · intro hp
      cases p with
      | nil => simp [List.nil_perm.1 hp] at h
      | cons x q =>
        have hx : x ∈ l := hp.subset (by simp)
        refine ⟨x, hx, q, (ih _ (by rw [List.length_erase_of_mem hx, h]; rfl) q).2 ?_, rfl⟩
        exact (List.perm_cons x).1 (hp.trans (List.perm_cons_erase hx))

theorem lexPerms_head (n : ℕ) (l : List ℕ) (h : l.length = n) : (lexPerms n l).head? = some l := by
  induction n generalizing l with
  | zero => simp [lexPerms, List.length_eq_zero_iff.1 h]
  | succ n ih =>
    cases l with
    | nil => simp at h
    | cons x l =>
      have := ih l (by simpa using h)
      simp only [lexPerms, List.flatMap_cons, List.erase_cons_head]
      cases hl : lexPerms n l with
      | nil => simp [hl] at this
      | cons q qs =>
        rw [hl] at this
        simp at this
        simp [this]

theorem getPermutations_eq (n : ℕ) : ∃ ps, getPermutations n = List.range n :: ps := by
  have := lexPerms_head n (List.range n) (by simp)
  rw [getPermutations]
  cases h : lexPerms n (List.range n) with
  | nil => simp [h] at this
  | cons q qs => rw [h] at this; simp at this; exact ⟨qs, by rw [this]⟩

theorem maxKey_mem {α : Type*} (key : α → ℕ) (x : α) (xs : List α) : maxKey key x xs ∈ x :: xs := by
  induction xs generalizing x with
  | nil => simp [maxKey]
  | cons y ys ih =>
    have := ih (if key x < key y then y else x)
    simp only [maxKey]
    rcases List.mem_cons.1 this with h | h
    · rw [h]; split <;> simp
    · exact List.mem_cons_of_mem _ (List.mem_cons_of_mem _ h)

theorem le_maxKey {α : Type*} (key : α → ℕ) (x : α) (xs : List α) : ∀ y ∈ x :: xs, key y ≤ key (maxKey key x xs) := by
  induction xs generalizing x with
  | nil => simp [maxKey]
  | cons z zs ih =>
    intro y hy
    simp only [maxKey]
    have h1 := ih (if key x < key z then z else x)
    have h0 := h1 _ (List.mem_cons_self)
    rcases List.mem_cons.1 hy with rfl | hy
    · refine le_trans ?_ h0
      split <;> omega
    · rcases List.mem_cons.1 hy with rfl | hy
      · refine le_trans ?_ h0
        split <;> omega
      · exact h1 y (List.mem_cons_of_mem _ hy)

theorem maxKey_first {α : Type*} (key : α → ℕ) (x : α) (xs : List α) (h : ∀ y ∈ xs, key y ≤ key x) :
    maxKey key x xs = x := by
  induction xs with
  | nil => rfl
  | cons y ys ih =>
    simp only [maxKey]
    rw [if_neg (by have := h y (by simp); omega)]
    exact ih (fun z hz => h z (by simp [hz]))

/-- A list that is a permutation of `0..K-1` is a permutation. -/
theorem perm_of_list {K : ℕ} {p : List ℕ} (h : p.Perm (List.range K)) :
    ∃ σ : Equiv.Perm (Fin K), ∀ i : Fin K, p.getD i 0 = σ i := by
  have hl : p.length = K := by simpa using h.length_eq
  have hn : p.Nodup := h.nodup_iff.2 List.nodup_range
  have hlt : ∀ i : Fin K, p[(i : ℕ)]'(by omega) < K := by
    intro i
    have := h.subset (List.getElem_mem (l := p) (n := i) (by omega))
    simpa using this
  let f : Fin K → Fin K := fun i => ⟨p[(i : ℕ)]'(by omega), hlt i⟩
  have hf : Function.Injective f := by
    intro i j hij
    simp only [f, Fin.mk.injEq] at hij
    exact Fin.ext ((hn.getElem_inj_iff).1 hij)
  refine ⟨Equiv.ofBijective f ((Fintype.bijective_iff_injective_and_card f).2 ⟨hf, rfl⟩), fun i => ?_⟩
  simp only [Equiv.ofBijective_apply, f]
  rw [List.getD_eq_getElem]

theorem list_of_perm {K : ℕ} (σ : Equiv.Perm (Fin K)) :
    (List.ofFn (fun i => (σ i : ℕ))).Perm (List.range K) := by
  rw [List.perm_ext_iff_of_nodup ?_ List.nodup_range]
  · intro a
    simp only [List.mem_ofFn, List.mem_range]
    constructor
    · rintro ⟨i, rfl⟩; exact (σ i).2
    · intro h; exact ⟨σ.symm ⟨a, h⟩, by simp⟩
  · rw [List.nodup_ofFn]
    intro i j h
    exact σ.injective (Fin.ext h)

theorem getD_ofFn {K : ℕ} (σ : Equiv.Perm (Fin K)) (i : Fin K) :
    (List.ofFn (fun i => (σ i : ℕ))).getD i 0 = σ i := by
  rw [List.getD_eq_getElem _ _ (by simp)]
  simp

theorem bestPermutation_perm (K N : ℕ) (areas : ℕ → ℕ → Bool) (prev : ℕ → ℕ → ℕ) :
    (bestPermutation K N areas prev).Perm (List.range K) := by
  obtain ⟨ps, h⟩ := getPermutations_eq K
  rw [bestPermutation, h]
  refine (mem_lexPerms K (List.range K) (by simp) _).1 ?_
  have := maxKey_mem (agreement K N areas prev) (List.range K) ps
  rw [← h] at this
  exact this

theorem le_bestPermutation (K N : ℕ) (areas : ℕ → ℕ → Bool) (prev : ℕ → ℕ → ℕ) (q : List ℕ)
    (hq : q.Perm (List.range K)) :
    agreement K N areas prev q ≤ agreement K N areas prev (bestPermutation K N areas prev) := by
  obtain ⟨ps, h⟩ := getPermutations_eq K
  rw [bestPermutation, h]
  refine le_maxKey _ _ _ _ ?_
  rw [← h]
  exact (mem_lexPerms K _ (by simp) _).2 hq

/-! ### Lists with positions -/

theorem zipIdx_flatMap {α β : Type*} (l : List α) (d : α) (g : α → ℕ → List β) (k : ℕ) :
    (l.zipIdx k).flatMap (fun a => g a.1 a.2) = (List.range l.length).flatMap (fun i => g (l.getD i d) (i + k)) := by
  induction l generalizing k with
  | nil => rfl
  | cons a l ih =>
    simp only [List.zipIdx_cons, List.flatMap_cons, List.length_cons, List.range_succ_eq_map, List.flatMap_map]
    rw [ih]
    simp only [List.getD_cons_zero, Nat.zero_add, List.getD_cons_succ]
    congr 1
    refine List.flatMap_congr (fun i _ => ?_)
    rw [show i.succ + k = i + (k + 1) by omega]

theorem zipIdx_map {α β : Type*} (l : List α) (d : α) (g : α → ℕ → β) (k : ℕ) :
    (l.zipIdx k).map (fun a => g a.1 a.2) = (List.range l.length).map (fun i => g (l.getD i d) (i + k)) := by
  have := zipIdx_flatMap l d (fun a i => [g a i]) k
  simpa [List.map_eq_flatMap] using this

theorem flatMap_getD {α β : Type*} (l : List α) (d : α) (g : α → List β) :
    l.flatMap g = (List.range l.length).flatMap (fun i => g (l.getD i d)) := by
  induction l with
  | nil => rfl
  | cons a l ih =>
    simp only [List.flatMap_cons, List.length_cons, List.range_succ_eq_map, List.flatMap_map, ih,
      List.getD_cons_zero, List.getD_cons_succ]

theorem map_getD {α β : Type*} (l : List α) (d : α) (g : α → β) :
    l.map g = (List.range l.length).map (fun i => g (l.getD i d)) := by
  have := flatMap_getD l d (fun a => [g a])
  simpa [List.map_eq_flatMap] using this

end SBayes.Log
