import Verif.Props.Clusters
import Verif.Spec.Reach
set_option linter.unusedSectionVars false
/- Connectedness of the cluster configurations. -/
namespace SBayes.MH
variable {σ : Type}

/-- A step to a different state is possible if proposing it and proposing the way back are. -/
theorem stepMass_pos {S : σ → Prop} {op : σ → Rand (Result σ)} {c : ℝ} (hc : 0 < c) (hrep : ReportsRealMasses S op c)
    {post : σ → ℝ} (hpost : ∀ x, S x → 0 < post x) {x y : σ} (hx : S x) (hy : S y) (hxy : x ≠ y)
    (h1 : 0 < propMass op x y) (h2 : 0 < propMass op y x) : 0 < stepMass post op x y := by
  have key : stepMass post op x y = propMass op x y * acceptProb (post x) (post y) (propMass op x y) (propMass op y x) := by
    refine stepMass_ne hxy _ ?_
    rintro r w hr hw rfl
    obtain ⟨-, h1, h2⟩ := hrep x hx r w hr hw (Ne.symm hxy)
    rw [h1, h2]
    unfold acceptProb
    have e1 : c * r.qBack = 0 ↔ r.qBack = 0 := by simp [hc.ne']
    have e2 : c * r.q = 0 ↔ r.q = 0 := by simp [hc.ne']
    simp only [e1, e2]
    rw [mul_div_mul_left _ _ hc.ne']
  rw [key]
  refine mul_pos h1 ?_
  unfold acceptProb
  rw [if_neg h2.ne', if_neg h1.ne']
  exact lt_min one_pos (mul_pos (div_pos (hpost y hy) (hpost x hx)) (div_pos h2 h1))

end SBayes.MH

namespace SBayes.Clusters
open SBayes.Lik SBayes.MH Relation
variable {K N : ℕ}

/-- Exchange the member `o` of `z` with `o'`. -/
def swapObject (x : Clus K N) (z : Fin K) (o o' : Fin N) : Clus K N := addObject (removeObject x z o) z o'

theorem swap_at (x : Clus K N) (z : Fin K) (o o' : Fin N) (k : Fin K) (n : Fin N) :
    swapObject x z o o' k n = if k = z then (if n = o' then true else if n = o then false else x k n) else x k n := by
  unfold swapObject addObject removeObject
  split <;> split <;> simp_all

theorem size_eq_of_row {x y : Clus K N} {k : Fin K} (h : ∀ n, x k n = y k n) : size (x k) = size (y k) := by
  rw [show x k = y k from funext h]

theorem size_swap {x : Clus K N} {z : Fin K} {o o' : Fin N} (ho : x z o = true) (ho' : x z o' = false) (k : Fin K) :
    size (swapObject x z o o' k) = size (x k) := by
  by_cases hk : k = z
  · subst hk
    have hoo : o ≠ o' := by rintro rfl; rw [ho] at ho'; cases ho'
    have h1 : removeObject x k o k o' = false := by unfold removeObject; rw [if_neg (by rintro ⟨-, h⟩; exact hoo h.symm)]; exact ho'
    unfold swapObject
    rw [size_add h1]
    have := size_remove ho
    omega
  · exact size_eq_of_row fun n => by rw [swap_at, if_neg hk]

theorem valid_swap {lo hi : ℕ} {x : Clus K N} (hv : Valid lo hi x) {z : Fin K} {o o' : Fin N} (ho : x z o = true)
    (hf : free x o' = true) : Valid lo hi (swapObject x z o o') := by
  have hall := free_iff.mp hf
  refine ⟨fun i j n hi hj => ?_, fun k => ?_, fun k => ?_⟩
  · rw [swap_at] at hi hj
    by_cases h : n = o'
    · subst h
      by_cases h1 : i = z
      · by_cases h2 : j = z
        · rw [h1, h2]
        · rw [if_neg h2, hall j] at hj; cases hj
      · rw [if_neg h1, hall i] at hi; cases hi
    · refine hv.disjoint i j n ?_ ?_
      · split_ifs at hi <;> exact hi
      · split_ifs at hj <;> exact hj
  · rw [size_swap ho (hall z)]; exact hv.lower k
  · rw [size_swap ho (hall z)]; exact hv.upper k

/-- What can be done to clusters: add, remove, exchange. -/
structure Moves (lo hi : ℕ) (R : Clus K N → Clus K N → Prop) : Prop where
  add : ∀ x z o, Valid lo hi x → free x o = true → size (x z) < hi → R x (addObject x z o)
  remove : ∀ x z o, Valid lo hi x → x z o = true → lo < size (x z) → R x (removeObject x z o)
  swap : ∀ x z o o', Valid lo hi x → x z o = true → free x o' = true → ReflTransGen R x (swapObject x z o o')

theorem Moves.mono {lo hi : ℕ} {R R' : Clus K N → Clus K N → Prop} (h : Moves lo hi R) (hR : ∀ x y, R x y → R' x y) : Moves lo hi R' :=
  ⟨fun x z o a b c => hR _ _ (h.add x z o a b c), fun x z o a b c => hR _ _ (h.remove x z o a b c),
    fun x z o o' a b c => Relation.ReflTransGen.mono hR _ _ (h.swap x z o o' a b c)⟩

/-- Total number of objects in clusters. -/
def total (x : Clus K N) : ℕ := ∑ k, size (x k)

theorem reduce {lo hi : ℕ} {R : Clus K N → Clus K N → Prop} (hR : Moves lo hi R) : ∀ (t : ℕ) (x : Clus K N), total x = t →
    Valid lo hi x → ∃ x', ReflTransGen R x x' ∧ ReflTransGen R x' x ∧ Valid lo hi x' ∧ ∀ k, size (x' k) = lo := by
  intro t
  induction t using Nat.strong_induction_on with
  | _ t ih =>
    intro x ht hv
    by_cases h : ∀ k, size (x k) = lo
    · exact ⟨x, .refl, .refl, hv, h⟩
    push Not at h
    obtain ⟨k, hk⟩ := h
    have hlt : lo < size (x k) := lt_of_le_of_ne (hv.lower k) (Ne.symm hk)
    obtain ⟨o, ho⟩ : ∃ o, x k o = true := by
      have : 0 < size (x k) := by omega
      unfold size at this
      obtain ⟨o, ho⟩ := Finset.card_pos.mp this
      exact ⟨o, by simpa using ho⟩
    have hv' := valid_remove hv ho hlt
    have hsz := size_remove ho
    have htot : total (removeObject x k o) < t := by
      rw [← ht]
      refine Finset.sum_lt_sum (fun j _ => ?_) ⟨k, Finset.mem_univ _, by omega⟩
      by_cases hj : j = k
      · subst hj; omega
      · rw [remove_other hj]
    obtain ⟨x', h1, h2, h3, h4⟩ := ih _ htot (removeObject x k o) rfl hv'
    refine ⟨x', .head (hR.remove x k o hv ho hlt) h1, h2.trans (.single ?_), h3, h4⟩
    have := hR.add (removeObject x k o) k o hv' (free_remove hv ho) (by have := hv.upper k; omega)
    rwa [add_remove ho] at this

/-- Objects whose memberships differ. -/
def diff (x y : Clus K N) : Finset (Fin N) := Finset.univ.filter fun n => ∃ k, x k n ≠ y k n

theorem mem_diff {x y : Clus K N} {n : Fin N} : n ∈ diff x y ↔ ∃ k, x k n ≠ y k n := by simp [diff]

theorem diff_empty {x y : Clus K N} (h : diff x y = ∅) : x = y := by
  funext k n
  by_contra hne
  have : n ∈ diff x y := mem_diff.mpr ⟨k, hne⟩
  rw [h] at this
  exact absurd this (Finset.notMem_empty n)

/-- Two clusters of the same size: what is only in one is balanced by something only in the other. -/
theorem exists_other {a b : Fin N → Bool} (hs : size a = size b) {o : Fin N} (hb : b o = true) (ha : a o = false) :
    ∃ o', a o' = true ∧ b o' = false := by
  by_contra h
  push Not at h
  have hsub : (Finset.univ.filter fun n => a n = true) ⊆ (Finset.univ.filter fun n => b n = true) := fun n hn => by
    simp only [Finset.mem_filter, Finset.mem_univ, true_and] at hn ⊢
    simpa using h n hn
  have heq := Finset.eq_of_subset_of_card_le hsub (by unfold size at hs; omega)
  have : o ∈ (Finset.univ.filter fun n => a n = true) := by rw [heq]; simpa using hb
  simp only [Finset.mem_filter, Finset.mem_univ, true_and] at this
  rw [ha] at this; cases this

theorem exists_free {lo : ℕ} {x : Clus K N} (hs : ∀ k, size (x k) = lo) (hN : K * lo < N) :
    ∃ o, free x o = true := by
  by_contra h
  push Not at h
  have hcov : (Finset.univ : Finset (Fin N)) ⊆ Finset.univ.biUnion fun k => Finset.univ.filter fun n => x k n = true := by
    intro n _
    have := h n
    rw [Ne, free_iff] at this
    push Not at this
    obtain ⟨k, hk⟩ := this
    simp only [Finset.mem_biUnion, Finset.mem_univ, true_and, Finset.mem_filter]
    exact ⟨k, by simpa using hk⟩
  have h1 := Finset.card_le_card hcov
  have h2 : (Finset.univ.biUnion fun k => Finset.univ.filter fun n => x k n = true).card ≤ ∑ k, size (x k) := Finset.card_biUnion_le
  rw [Finset.card_univ, Fintype.card_fin] at h1
  simp only [hs, Finset.sum_const, Finset.card_univ, Fintype.card_fin, smul_eq_mul] at h2
  omega

theorem free_swap_self {lo hi : ℕ} {x : Clus K N} (hv : Valid lo hi x) {z : Fin K} {o o' : Fin N} (ho : x z o = true)
    (hoo : o ≠ o') : free (swapObject x z o o') o = true := by
  refine free_iff.mpr fun k => ?_
  rw [swap_at]
  by_cases hk : k = z
  · rw [if_pos hk, if_neg hoo, if_pos rfl]
  · rw [if_neg hk]
    by_contra h
    exact hk (hv.disjoint k z o (by simpa using h) ho)

theorem connect_min {lo hi : ℕ} {R : Clus K N → Clus K N → Prop} (hR : Moves lo hi R) (hN : K * lo < N) (y : Clus K N)
    (hy : Valid lo hi y) (hys : ∀ k, size (y k) = lo) : ∀ (t : ℕ) (x : Clus K N), (diff x y).card = t → Valid lo hi x →
    (∀ k, size (x k) = lo) → ReflTransGen R x y := by
  intro t
  induction t using Nat.strong_induction_on with
  | _ t ih =>
    intro x ht hx hxs
    by_cases hemp : diff x y = ∅
    · rw [diff_empty hemp]
    -- something is in a cluster of `y` but not of `x`
    obtain ⟨d, o, hyo, hxo⟩ : ∃ d o, y d o = true ∧ x d o = false := by
      by_contra h
      push Not at h
      apply hemp
      refine Finset.eq_empty_of_forall_notMem fun n hn => ?_
      obtain ⟨k, hk⟩ := mem_diff.mp hn
      have hsub : ∀ n, y k n = true → x k n = true := fun n hn => by simpa using h k n hn
      cases hyk : y k n with
      | true => rw [hyk, hsub n hyk] at hk; exact hk rfl
      | false =>
        have hxk : x k n = true := by rw [hyk] at hk; simpa using hk
        obtain ⟨o', h1, h2⟩ := exists_other ((hys k).trans (hxs k).symm) hxk hyk
        rw [hsub o' h1] at h2; cases h2
    obtain ⟨o', hxo', hyo'⟩ := exists_other ((hxs d).trans (hys d).symm) hyo hxo
    have hoo : o ≠ o' := by rintro rfl; rw [hxo] at hxo'; cases hxo'
    have ho_mem : o ∈ diff x y := mem_diff.mpr ⟨d, by rw [hyo, hxo]; decide⟩
    have ho'_mem : o' ∈ diff x y := mem_diff.mpr ⟨d, by rw [hxo', hyo']; decide⟩
    have hyk : ∀ k, k ≠ d → y k o = false := fun k hk => by
      by_contra h
      exact hk (hy.disjoint k d o (by simpa using h) hyo)
    by_cases hfree : free x o = true
    · -- exchange `o'` for `o`
      have hall := free_iff.mp hfree
      have hlt : (diff (swapObject x d o' o) y).card < t := by
        rw [← ht]
        refine Finset.card_lt_card ⟨fun n hn => ?_, fun h => ?_⟩
        · obtain ⟨k, hk⟩ := mem_diff.mp hn
          by_cases hn' : n = o'
          · rw [hn']; exact ho'_mem
          by_cases hno : n = o
          · rw [hno]; exact ho_mem
          refine mem_diff.mpr ⟨k, ?_⟩
          rw [swap_at] at hk
          simpa [hn', hno] using hk
        · obtain ⟨k, hk⟩ := mem_diff.mp (h ho_mem)
          apply hk
          rw [swap_at]
          by_cases hkd : k = d
          · rw [if_pos hkd, if_pos rfl, hkd, hyo]
          · rw [if_neg hkd, hall k, hyk k hkd]
      exact (hR.swap x d o' o hx hxo' hfree).trans (ih _ hlt _ rfl (valid_swap hx hxo' hfree)
        fun k => by rw [size_swap hxo' (hall d), hxs])
    · -- `o` is in another cluster: exchange `o` and `o'` through a free object
      rw [free_iff] at hfree
      push Not at hfree
      obtain ⟨c, hc⟩ := hfree
      have hxc : x c o = true := by simpa using hc
      have hcd : c ≠ d := by rintro rfl; rw [hxo] at hxc; cases hxc
      obtain ⟨f, hf⟩ := exists_free hxs hN
      have hfall := free_iff.mp hf
      have hfo : f ≠ o := by rintro rfl; rw [hfall c] at hxc; cases hxc
      have hfo' : f ≠ o' := by rintro rfl; rw [hfall d] at hxo'; cases hxo'
      have hxo'k : ∀ k, k ≠ d → x k o' = false := fun k hk => by
        by_contra h
        exact hk (hx.disjoint k d o' (by simpa using h) hxo')
      have hxok : ∀ k, k ≠ c → x k o = false := fun k hk => by
        by_contra h
        exact hk (hx.disjoint k c o (by simpa using h) hxc)
      set x1 := swapObject x c o f with hx1
      have v1 : Valid lo hi x1 := valid_swap hx hxc hf
      have s1 : ∀ k, size (x1 k) = lo := fun k => by rw [hx1, size_swap hxc (hfall c), hxs]
      have f1 : free x1 o = true := free_swap_self hx hxc hfo.symm
      have m1 : x1 d o' = true := by rw [hx1, swap_at, if_neg hcd.symm, hxo']
      set x2 := swapObject x1 d o' o with hx2
      have v2 : Valid lo hi x2 := valid_swap v1 m1 f1
      have s2 : ∀ k, size (x2 k) = lo := fun k => by rw [hx2, size_swap m1 (free_iff.mp f1 d), s1]
      have f2 : free x2 o' = true := free_swap_self v1 m1 hoo.symm
      have m2 : x2 c f = true := by rw [hx2, swap_at, if_neg hcd, hx1, swap_at, if_pos rfl, if_pos rfl]
      set x3 := swapObject x2 c f o' with hx3
      have v3 : Valid lo hi x3 := valid_swap v2 m2 f2
      have s3 : ∀ k, size (x3 k) = lo := fun k => by rw [hx3, size_swap m2 (free_iff.mp f2 c), s2]
      have hother : ∀ n, n ≠ o → n ≠ o' → ∀ k, x3 k n = x k n := by
        intro n h1 h2 k
        rw [hx3, swap_at, hx2, swap_at, hx1, swap_at]
        by_cases hnf : n = f
        · subst hnf
          by_cases hk : k = c
          · simp [hk, h2, hfall c]
          · simp [hk, h1, h2, hfall k]
        · simp [h1, h2, hnf]
      have hat : ∀ k, x3 k o = y k o := by
        intro k
        rw [hx3, swap_at, hx2, swap_at, hx1, swap_at]
        by_cases hk : k = d
        · subst hk
          simp [hcd.symm, hyo]
        · by_cases hkc : k = c
          · subst hkc
            simp [hk, hoo, hfo.symm, hyk k hk]
          · simp [hk, hkc, hyk k hk, hxok k hkc]
      have hlt : (diff x3 y).card < t := by
        rw [← ht]
        refine Finset.card_lt_card ⟨fun n hn => ?_, fun h => ?_⟩
        · obtain ⟨k, hk⟩ := mem_diff.mp hn
          by_cases hn' : n = o'
          · rw [hn']; exact ho'_mem
          by_cases hno : n = o
          · rw [hno]; exact ho_mem
          exact mem_diff.mpr ⟨k, by rwa [hother n hno hn' k] at hk⟩
        · obtain ⟨k, hk⟩ := mem_diff.mp (h ho_mem)
          exact hk (hat k)
      exact (((hR.swap x c o f hx hxc hf).trans (hR.swap x1 d o' o v1 m1 f1)).trans
        (hR.swap x2 c f o' v2 m2 f2)).trans (ih _ hlt x3 rfl v3 s3)

/-- All configurations are connected. -/
theorem connect {lo hi : ℕ} {R : Clus K N → Clus K N → Prop} (hR : Moves lo hi R) (hN : K * lo < N) {x y : Clus K N}
    (hx : Valid lo hi x) (hy : Valid lo hi y) : ReflTransGen R x y := by
  obtain ⟨x', a1, -, a3, a4⟩ := reduce hR _ x rfl hx
  obtain ⟨y', -, b2, b3, b4⟩ := reduce hR _ y rfl hy
  exact (a1.trans (connect_min hR hN y' b3 b4 _ x' rfl a3 a4)).trans b2

/-- Adding and removing suffice if the bounds leave room. -/
theorem Moves.of_add_remove {lo hi : ℕ} (h : lo < hi) {R : Clus K N → Clus K N → Prop}
    (ha : ∀ x z o, Valid lo hi x → free x o = true → size (x z) < hi → R x (addObject x z o))
    (hr : ∀ x z o, Valid lo hi x → x z o = true → lo < size (x z) → R x (removeObject x z o)) : Moves lo hi R := by
  refine ⟨ha, hr, fun x z o o' hv ho hf => ?_⟩
  have hall := free_iff.mp hf
  have hoo : o ≠ o' := by rintro rfl; rw [hall z] at ho; cases ho
  by_cases hlo : lo < size (x z)
  · have hv' := valid_remove hv ho hlo
    have hsz := size_remove ho
    refine .head (hr x z o hv ho hlo) (.single (ha _ z o' hv' ?_ ?_))
    · refine free_iff.mpr fun k => ?_
      unfold removeObject
      split
      · rfl
      · exact hall k
    · have := hv.upper z; omega
  · have hhi : size (x z) < hi := by have := hv.lower z; omega
    have hv' := valid_add hv hf hhi
    have hsz := size_add (hall z)
    have e : swapObject x z o o' = removeObject (addObject x z o') z o := by
      funext k n
      rw [swap_at]
      unfold removeObject addObject
      by_cases hk : k = z <;> by_cases hn : n = o <;> by_cases hn' : n = o' <;> simp_all
    rw [e]
    refine .head (ha x z o' hv hf hhi) (.single (hr _ z o hv' ?_ ?_))
    · unfold addObject
      split
      · rfl
      · exact ho
    · have := hv.lower z; omega

end SBayes.Clusters
