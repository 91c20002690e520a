import Verif.Spec.Prior
import Mathlib.Tactic.Ring
import Mathlib.Tactic.FieldSimp
import Mathlib.Tactic.Linarith
/- Helper lemmas for the prior terms. -/
namespace SBayes.Prior
open scoped BigOperators
variable {K N : ℕ}

/-! ### log_multinom -/

theorem logI_sum (n : ℕ) : (logI n).sum = Real.log (n.factorial : ℝ) := by
  induction n with
  | zero => simp [logI]
  | succ n ih =>
    unfold logI at ih ⊢
    rw [List.range_succ, List.map_append, List.sum_append, ih, Nat.factorial_succ, Nat.cast_mul,
      Real.log_mul (by positivity) (by positivity)]
    simp [add_comm]

theorem logI_length (n : ℕ) : (logI n).length = n := by simp [logI]

theorem logI_take (n k : ℕ) (h : k ≤ n) : (logI n).take k = logI k := by
  unfold logI
  rw [← List.map_take, List.take_range, Nat.min_eq_left h]

theorem cumsum_getD (n k : ℕ) (h1 : 0 < k) (h2 : k ≤ n) :
    (cumsum (logI n)).getD (k - 1) 0 = Real.log (k.factorial : ℝ) := by
  unfold cumsum
  have : k - 1 < n := by omega
  simp only [List.getD_eq_getElem?_getD, List.getElem?_map, logI_length,
    List.getElem?_range this, Option.map_some, Option.getD_some]
  rw [Nat.sub_add_cancel h1, logI_take n k h2, logI_sum]

theorem sum_filter_pos (ks : List ℕ) : (ks.filter (0 < ·)).sum = ks.sum := by
  induction ks with
  | nil => rfl
  | cons k ks ih =>
    by_cases h : 0 < k
    · simp [h, ih]
    · have : k = 0 := by omega
      subst this; simpa using ih

theorem map_filter_pos (n : ℕ) (ks : List ℕ) (h : ∀ k ∈ ks, k ≤ n) :
    ((ks.filter (0 < ·)).map fun k => (cumsum (logI n)).getD (k - 1) 0).sum =
      (ks.map fun k => Real.log (k.factorial : ℝ)).sum := by
  induction ks with
  | nil => rfl
  | cons k ks ih =>
    have ih := ih (fun j hj => h j (List.mem_cons_of_mem _ hj))
    by_cases hk : 0 < k
    · rw [List.filter_cons_of_pos (by simpa using hk), List.map_cons, List.sum_cons, ih,
        cumsum_getD n k hk (h k List.mem_cons_self)]
      simp
    · have : k = 0 := by omega
      subst this; simpa using ih

theorem logMultinom_eq (n : ℕ) (ks : List ℕ) (h : ks.sum ≤ n) :
    logMultinom n ks = Real.log (n.factorial : ℝ) - (ks.map fun k => Real.log (k.factorial : ℝ)).sum
      - Real.log ((n - ks.sum).factorial : ℝ) := by
  have hle : ∀ k ∈ ks, k ≤ n := fun k hk => (List.le_sum_of_mem hk).trans h
  unfold logMultinom
  split
  · rename_i h0
    have hz : ∀ k ∈ ks, k = 0 := by
      intro k hk; have := List.le_sum_of_mem hk; omega
    have : (ks.map fun k => Real.log (k.factorial : ℝ)).sum = 0 := by
      apply List.sum_eq_zero
      intro x hx
      obtain ⟨k, hk, rfl⟩ := List.mem_map.mp hx
      rw [hz k hk]; simp
    rw [h0, this]; simp
  · simp only
    rw [map_filter_pos n ks hle, sum_filter_pos, logI_sum]
    split
    · rename_i hr
      have e : ((n : ℤ) - (ks.sum : ℤ)).toNat = n - ks.sum := by omega
      rw [e, cumsum_getD n _ (by omega) (by omega)]
    · rename_i hr
      have e : n - ks.sum = 0 := by omega
      rw [e]; simp

theorem exp_logMultinom (n : ℕ) (ks : List ℕ) (h : ks.sum ≤ n) :
    Real.exp (logMultinom n ks) * ((ks.map Nat.factorial).prod * (n - ks.sum).factorial : ℕ) =
      (n.factorial : ℝ) := by
  have hp : ∀ l : List ℕ, (l.map fun k => Real.log (k.factorial : ℝ)).sum =
      Real.log (((l.map Nat.factorial).prod : ℕ) : ℝ) := by
    intro l
    induction l with
    | nil => simp
    | cons k l ih =>
      have : (l.map Nat.factorial).prod ≠ 0 := by
        apply List.prod_ne_zero
        intro h0
        obtain ⟨x, hx, he⟩ := List.mem_map.mp h0
        exact Nat.factorial_ne_zero x he
      rw [List.map_cons, List.sum_cons, ih, List.map_cons, List.prod_cons, Nat.cast_mul,
        Real.log_mul (by positivity)]
      exact_mod_cast this
  have hpos : 0 < (ks.map Nat.factorial).prod := by
    apply List.prod_pos
    intro x hx; obtain ⟨y, hy, rfl⟩ := List.mem_map.mp hx; exact Nat.factorial_pos y
  rw [logMultinom_eq n ks h, hp, Real.exp_sub, Real.exp_sub, Real.exp_log (by positivity),
    Real.exp_log (by exact_mod_cast hpos), Real.exp_log (by positivity)]
  have : ((ks.map Nat.factorial).prod : ℝ) ≠ 0 := by exact_mod_cast hpos.ne'
  have h2 : ((n - ks.sum).factorial : ℝ) ≠ 0 := by positivity
  push_cast at this ⊢
  field_simp

/-! ### counting placements -/

/-- Families of pairwise disjoint subsets of `V` of given sizes. -/
def fams {α : Type} [DecidableEq α] [Fintype α] (V : Finset α) (ks : Fin K → ℕ) :
    Finset (Fin K → Finset α) :=
  Finset.univ.filter fun cl => (∀ i, cl i ⊆ V) ∧ (∀ i j, i ≠ j → Disjoint (cl i) (cl j)) ∧
    ∀ i, (cl i).card = ks i

theorem card_fams {α : Type} [DecidableEq α] [Fintype α] (V : Finset α) (ks : Fin K → ℕ)
    (h : ∑ i, ks i ≤ V.card) :
    (fams V ks).card * ((∏ i, (ks i).factorial) * (V.card - ∑ i, ks i).factorial) =
      V.card.factorial := by
  induction K generalizing V with
  | zero =>
    have : fams V ks = {fun i => i.elim0} := by
      ext cl
      simp only [fams, Finset.mem_filter, Finset.mem_univ, true_and, Finset.mem_singleton]
      constructor
      · intro _; funext i; exact i.elim0
      · intro _; exact ⟨fun i => i.elim0, fun i => i.elim0, fun i => i.elim0⟩
    simp [this]
  | succ K ih =>
    rw [Fin.sum_univ_succ] at h
    have hfib : (fams V ks).card =
        ∑ A ∈ V.powersetCard (ks 0), (fams (V \ A) (fun i => ks i.succ)).card := by
      rw [Finset.card_eq_sum_card_fiberwise (f := fun cl => cl 0) (t := V.powersetCard (ks 0))]
      · refine Finset.sum_congr rfl fun A hA => ?_
        obtain ⟨hAV, hAc⟩ := Finset.mem_powersetCard.mp hA
        refine Finset.card_bij' (fun cl _ => fun i => cl i.succ) (fun cl _ => Fin.cons A cl) ?_ ?_ ?_ ?_
        · intro cl hcl
          simp only [fams, Finset.mem_filter, Finset.mem_univ, true_and] at hcl ⊢
          obtain ⟨⟨h1, h2, h3⟩, rfl⟩ := hcl
          refine ⟨fun i => ?_, fun i j hij => h2 _ _ (by simpa using hij), fun i => h3 _⟩
          exact Finset.subset_sdiff.mpr ⟨h1 _, h2 _ _ (Fin.succ_ne_zero i)⟩
        · intro cl hcl
          simp only [fams, Finset.mem_filter, Finset.mem_univ, true_and] at hcl ⊢
          obtain ⟨h1, h2, h3⟩ := hcl
          refine ⟨⟨?_, ?_, ?_⟩, by simp⟩
          · intro i
            refine Fin.cases (by simpa using hAV) (fun i => ?_) i
            simpa using (Finset.subset_sdiff.mp (h1 i)).1
          · intro i j hij
            rcases Fin.eq_zero_or_eq_succ i with rfl | ⟨i, rfl⟩ <;>
              rcases Fin.eq_zero_or_eq_succ j with rfl | ⟨j, rfl⟩
            · exact absurd rfl hij
            · simpa using (Finset.subset_sdiff.mp (h1 j)).2.symm
            · simpa using (Finset.subset_sdiff.mp (h1 i)).2
            · simpa using h2 i j (by simpa using hij)
          · intro i
            refine Fin.cases (by simpa using hAc) (fun i => ?_) i
            simpa using h3 i
        · intro cl hcl
          simp only [Finset.mem_filter] at hcl
          rw [← hcl.2]
          funext i; refine Fin.cases rfl (fun i => rfl) i
        · intro cl hcl; funext i; rfl
      · intro cl hcl
        simp only [fams, Finset.coe_filter, Set.mem_ofPred_eq, Finset.mem_univ, true_and] at hcl
        exact Finset.mem_coe.mpr (Finset.mem_powersetCard.mpr ⟨hcl.1 0, hcl.2.2 0⟩)
    have hterm : ∀ A ∈ V.powersetCard (ks 0),
        (fams (V \ A) (fun i => ks i.succ)).card *
          ((∏ i : Fin K, (ks i.succ).factorial) *
            (V.card - ∑ i, ks i).factorial) = (V.card - ks 0).factorial := by
      intro A hA
      obtain ⟨hAV, hAc⟩ := Finset.mem_powersetCard.mp hA
      have hc : (V \ A).card = V.card - ks 0 := by rw [Finset.card_sdiff_of_subset hAV, hAc]
      have := ih (V \ A) (fun i => ks i.succ) (by rw [hc]; omega)
      rw [hc] at this
      rw [Fin.sum_univ_succ, ← Nat.sub_sub]
      exact this
    rw [hfib, Fin.prod_univ_succ]
    have : ∀ s a b c : ℕ, s * (a * b * c) = (s * (b * c)) * a := by intros; ring
    rw [this, Finset.sum_mul, Finset.sum_congr rfl hterm, Finset.sum_const, Finset.card_powersetCard,
      smul_eq_mul]
    have := Nat.choose_mul_factorial_mul_factorial (n := V.card) (k := ks 0) (by omega)
    rw [← this]; ring

theorem card_placements (sizes : Fin K → ℕ) :
    (placements N sizes).card = (fams (Finset.univ : Finset (Fin N)) sizes).card := by
  refine Finset.card_bij' (fun cl _ => fun k => Finset.univ.filter fun n => cl k n = true)
    (fun cl _ => fun k n => decide (n ∈ cl k)) ?_ ?_ ?_ ?_
  · intro cl hcl
    simp only [placements, fams, Finset.mem_filter, Finset.mem_univ, true_and] at hcl ⊢
    refine ⟨fun i => Finset.subset_univ _, fun i j hij => ?_, hcl.2⟩
    rw [Finset.disjoint_left]
    intro n hi hj
    simp only [Finset.mem_filter, Finset.mem_univ, true_and] at hi hj
    exact hij (hcl.1 i j n hi hj)
  · intro cl hcl
    simp only [placements, fams, Finset.mem_filter, Finset.mem_univ, true_and] at hcl ⊢
    refine ⟨fun i j n hi hj => ?_, fun k => ?_⟩
    · by_contra hij
      exact Finset.disjoint_left.mp (hcl.2.1 i j hij) (by simpa using hi) (by simpa using hj)
    · rw [← hcl.2.2 k]; congr 1; ext n; simp
  · intro cl _; funext k n; simp
  · intro cl _; funext k; ext n; simp

theorem clusterSize_eq (c : Fin N → Bool) :
    clusterSize c = (Finset.univ.filter fun n => c n = true).card := by
  unfold clusterSize
  have h : (List.finRange N).filter (fun n => c n) = (List.finRange N).filter (fun n => decide (c n = true)) := by
    congr 1; funext n; simp
  rw [List.countP_eq_length_filter, h, Finset.card_def]
  rfl

/-! ### spanning trees -/

open SimpleGraph in
/-- Exchange property of spanning trees. -/
theorem exists_exchange {V : Type} {T T' : SimpleGraph V} (hT : T.IsTree) (hT' : T'.Connected)
    {e : Sym2 V} (he : e ∈ T.edgeSet) :
    ∃ f ∈ T'.edgeSet, f ∉ T.edgeSet \ {e} ∧
      ∃ U : SimpleGraph V, U.IsTree ∧ U.edgeSet = insert f (T.edgeSet \ {e}) := by
  induction e using Sym2.ind with
  | _ u v =>
  have hadj : T.Adj u v := he
  set H := T.deleteEdges {s(u, v)} with hH
  have hHT : H ≤ T := deleteEdges_le _
  have hbr : ¬ H.Reachable u v := by
    have := isAcyclic_iff_forall_isBridge.mp hT.isAcyclic he
    rw [isBridge_iff] at this
    exact this
  obtain ⟨p⟩ := hT'.preconnected u v
  obtain ⟨dart, -, hx, hy⟩ := p.exists_boundary_dart {x | H.Reachable u x} (Reachable.refl u) hbr
  obtain ⟨⟨x, y⟩, hxy⟩ := dart
  simp only [Set.mem_ofPred_eq] at hx hy
  have hxyH : ¬ H.Reachable x y := fun h => hy (hx.trans h)
  have hne : x ≠ y := hxy.ne
  -- every vertex is connected to u or v in H
  have hside : ∀ {a b : V}, T.Walk a b → (H.Reachable u a ∨ H.Reachable v a) →
      (H.Reachable u b ∨ H.Reachable v b) := by
    intro a b w
    induction w with
    | nil => exact id
    | @cons a c b hab _ ih =>
      intro h
      apply ih
      by_cases hed : s(a, c) = s(u, v)
      · rcases Sym2.eq_iff.mp hed with ⟨rfl, rfl⟩ | ⟨rfl, rfl⟩
        · exact .inr (Reachable.refl _)
        · exact .inl (Reachable.refl _)
      · have : H.Adj a c := by
          rw [hH, deleteEdges_adj]; exact ⟨hab, by simpa using hed⟩
        rcases h with h | h
        · exact .inl (h.trans this.reachable)
        · exact .inr (h.trans this.reachable)
  have hvy : H.Reachable v y := by
    obtain ⟨w⟩ := hT.connected.preconnected u y
    rcases hside w (.inl (Reachable.refl _)) with h | h
    · exact absurd h hy
    · exact h
  set U := H ⊔ edge x y with hU
  have hHU : H ≤ U := le_sup_left
  have hxyU : U.Adj x y := by
    rw [hU, sup_adj]; right; rw [edge_adj]; exact ⟨.inl ⟨rfl, rfl⟩, hne⟩
  have huvU : U.Reachable u v :=
    ((hx.mono hHU).trans hxyU.reachable).trans (hvy.mono hHU).symm
  have hUconn : U.Connected := by
    have hw : ∀ {a b : V}, T.Walk a b → U.Reachable a b := by
      intro a b w
      induction w with
      | nil => exact Reachable.refl _
      | @cons a c b hab _ ih =>
        refine Reachable.trans ?_ ih
        by_cases hed : s(a, c) = s(u, v)
        · rcases Sym2.eq_iff.mp hed with ⟨rfl, rfl⟩ | ⟨rfl, rfl⟩
          · exact huvU
          · exact huvU.symm
        · have : H.Adj a c := by
            rw [hH, deleteEdges_adj]; exact ⟨hab, by simpa using hed⟩
          exact this.reachable.mono hHU
    have := hT.connected.nonempty
    exact ⟨fun a b => (hT.connected.preconnected a b).elim hw⟩
  have hUac : U.IsAcyclic := (hT.isAcyclic.anti hHT).sup_edge_of_not_reachable hxyH
  refine ⟨s(x, y), hxy, ?_, U, ⟨hUconn, hUac⟩, ?_⟩
  · intro hmem
    have : H.Adj x y := by
      rw [hH, deleteEdges_adj]; exact ⟨hmem.1, by simpa using hmem.2⟩
    exact hxyH this.reachable
  · rw [hU, edgeSet_sup, hH, edgeSet_deleteEdges, edgeSet_edge_of_ne hne]
    ext f; simp

end SBayes.Prior
