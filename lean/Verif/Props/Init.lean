import Verif.Spec.Init
import Verif.Lemmas.Clusters
import Mathlib.Tactic.Linarith
import Mathlib.Tactic.NormNum
import Mathlib.Tactic.FinCases
import Mathlib.Tactic.Positivity
import Mathlib.Algebra.Order.BigOperators.Group.Finset
/- Theorems C30, C31: the initial sample. -/
namespace SBayes.Init
open SBayes.Lik SBayes.Clusters
open scoped BigOperators
variable {K N F S C G : ℕ}

theorem pick_mem {α : Type} {l : List α} {r : ℕ} {a : α} (h : pick l r = some a) : a ∈ l :=
  List.mem_of_getElem? h

theorem pick_none {α : Type} {l : List α} {r : ℕ} (h : pick l r = none) : l = [] := by
  unfold pick at h
  rw [List.getElem?_eq_none_iff] at h
  by_contra hne
  have : 0 < l.length := List.length_pos_iff.mpr hne
  exact absurd (Nat.mod_lt r this) (by omega)

theorem mark_iff {v : Fin N → Bool} {i n : Fin N} : mark v i n = true ↔ n = i ∨ v n = true := by
  unfold mark; split <;> simp_all

theorem size_mark {v : Fin N → Bool} {i : Fin N} (h : v i = false) : size (mark v i) = size v + 1 := by
  unfold size
  have : (Finset.univ.filter fun n => mark v i n = true) = insert i (Finset.univ.filter fun n => v n = true) := by
    ext n; simp [mark_iff]
  rw [this, Finset.card_insert_of_notMem (by simp [h])]

/-- Reachable from the seed inside the cluster. -/
def From (adj : Fin N → Fin N → Bool) (seed : Fin N) (c : Fin N → Bool) : Prop :=
  c seed = true ∧ ∀ a, c a = true →
    Relation.ReflTransGen (fun i j => c i = true ∧ c j = true ∧ adj j i = true) seed a

theorem From.mark {adj : Fin N → Fin N → Bool} {seed : Fin N} {c : Fin N → Bool} (h : From adj seed c)
    {i m : Fin N} (hm : c m = true) (ha : adj i m = true) : From adj seed (mark c i) := by
  have hmono : ∀ a b, Relation.ReflTransGen (fun i j => c i = true ∧ c j = true ∧ adj j i = true) a b →
      Relation.ReflTransGen (fun x j => Init.mark c i x = true ∧ Init.mark c i j = true ∧ adj j x = true) a b :=
    fun a b h => Relation.ReflTransGen.mono (fun x y h' => ⟨mark_iff.mpr (Or.inr h'.1), mark_iff.mpr (Or.inr h'.2.1), h'.2.2⟩) a b h
  refine ⟨mark_iff.mpr (Or.inr h.1), fun a hca => ?_⟩
  rcases mark_iff.mp hca with rfl | hca
  · exact (hmono _ _ (h.2 m hm)).tail ⟨mark_iff.mpr (Or.inr hm), mark_iff.mpr (Or.inl rfl), ha⟩
  · exact hmono _ _ (h.2 a hca)

theorem connected_of_from {adj : Fin N → Fin N → Bool} (hsym : ∀ i j, adj i j = adj j i) {seed : Fin N}
    {c : Fin N → Bool} (h : From adj seed c) : Connected adj c := by
  have hR : ∀ i j, (c i = true ∧ c j = true ∧ adj j i = true) → (c i = true ∧ c j = true ∧ adj i j = true) :=
    fun i j ⟨h1, h2, h3⟩ => ⟨h1, h2, by rw [hsym]; exact h3⟩
  have hfwd : ∀ a, c a = true → Relation.ReflTransGen (fun i j => c i = true ∧ c j = true ∧ adj i j = true) seed a :=
    fun a ha => Relation.ReflTransGen.mono hR _ _ (h.2 a ha)
  intro a b ha hb
  refine Relation.ReflTransGen.trans ?_ (hfwd b hb)
  have := hfwd a ha
  induction this with
  | refl => exact .refl
  | tail h1 h2 ih =>
    have := h2
    exact Relation.ReflTransGen.head ⟨this.2.1, this.1, by rw [hsym]; exact this.2.2⟩ (ih this.1)

/-- The loop: what it guarantees for a successful result, and that occupied sites stay occupied. -/
theorem growLoop_spec (adj : Fin N → Fin N → Bool) (rnd : ℕ → ℕ) (seed : Fin N) (occ₀ : Fin N → Bool) (k : ℕ) :
    ∀ (c occ : Fin N → Bool) (pos : ℕ), From adj seed c → (∀ n, occ n = true ↔ occ₀ n = true ∨ c n = true) →
      (∀ n, c n = true → occ₀ n = false) →
      let r := growLoop adj rnd k c occ pos
      (∀ n, occ₀ n = true → r.occupied n = true) ∧
      ∀ c', r.cluster = some c' → From adj seed c' ∧ (∀ n, r.occupied n = true ↔ occ₀ n = true ∨ c' n = true) ∧
        (∀ n, c' n = true → occ₀ n = false) ∧ size c' = size c + k := by
  induction k with
  | zero =>
    intro c occ pos h1 h2 h3 r
    refine ⟨fun n hn => (h2 n).mpr (Or.inl hn), fun c' hc' => ?_⟩
    have : c = c' := by simpa [r, growLoop] using hc'
    subst this
    exact ⟨h1, h2, h3, rfl⟩
  | succ k ih =>
    intro c occ pos h1 h2 h3 r
    have hr : r = growLoop adj rnd (k + 1) c occ pos := rfl
    simp only [growLoop] at hr
    cases hp : pick (indices (getNeighbours c occ adj)) (rnd pos) with
    | none =>
      rw [hp] at hr
      rw [hr]
      exact ⟨fun n hn => (h2 n).mpr (Or.inl hn), fun c' hc' => by simp at hc'⟩
    | some site =>
      rw [hp] at hr
      simp only at hr
      obtain ⟨⟨m, ham, hcm⟩, hocc⟩ := getNeighbours_iff.mp (mem_indices.mp (pick_mem hp))
      have hnot : occ₀ site ≠ true ∧ c site ≠ true := by
        constructor <;> intro h
        · rw [(h2 site).mpr (Or.inl h)] at hocc; cases hocc
        · rw [(h2 site).mpr (Or.inr h)] at hocc; cases hocc
      have hc' : c site = false := by simpa using hnot.2
      have := ih (mark c site) (mark occ site) (pos + 1) (h1.mark hcm ham)
        (fun n => by rw [mark_iff, mark_iff, h2]; tauto)
        (fun n hn => by
          rcases mark_iff.mp hn with rfl | hn
          · simpa using hnot.1
          · exact h3 n hn)
      rw [← hr] at this
      refine ⟨this.1, fun c' hc'' => ?_⟩
      obtain ⟨a1, a2, a3, a4⟩ := this.2 c' hc''
      exact ⟨a1, a2, a3, by rw [a4, size_mark hc']; omega⟩

theorem growCluster_spec (adj : Fin N → Fin N → Bool) (rnd : ℕ → ℕ) (k : ℕ) (occ : Fin N → Bool) (pos : ℕ) :
    let r := growCluster adj rnd k occ pos
    (∀ n, occ n = true → r.occupied n = true) ∧
    ∀ c, r.cluster = some c → (∃ seed, From adj seed c) ∧ (∀ n, r.occupied n = true ↔ occ n = true ∨ c n = true) ∧
      (∀ n, c n = true → occ n = false) ∧ size c = max k 1 := by
  intro r
  have hr : r = growCluster adj rnd k occ pos := rfl
  unfold growCluster at hr
  cases hp : pick (indices fun n => !occ n) (rnd pos) with
  | none =>
    rw [hp] at hr; rw [hr]
    exact ⟨fun n hn => hn, fun c hc => by simp at hc⟩
  | some seed =>
    rw [hp] at hr
    simp only at hr
    have hs : occ seed = false := by simpa using mem_indices.mp (pick_mem hp)
    have hsz : size (mark (fun _ : Fin N => false) seed) = 1 := by
      rw [size_mark rfl]; simp [size]
    have := growLoop_spec adj rnd seed occ (k - 1) (mark (fun _ => false) seed) (mark occ seed) (pos + 1)
      ⟨mark_iff.mpr (Or.inl rfl), fun a ha => by
        rcases mark_iff.mp ha with rfl | h
        · exact .refl
        · cases h⟩
      (fun n => by rw [mark_iff, mark_iff]; simp only [Bool.false_eq_true, or_false]; tauto)
      (fun n hn => by
        rcases mark_iff.mp hn with rfl | h
        · exact hs
        · cases h)
    rw [← hr] at this
    refine ⟨this.1, fun c hc => ?_⟩
    obtain ⟨a1, a2, a3, a4⟩ := this.2 c hc
    exact ⟨⟨seed, a1⟩, a2, a3, by rw [a4, hsz]; omega⟩

theorem initLoop_spec (adj : Fin N → Fin N → Bool) (rnd : ℕ → ℕ) (sz maxAttempts attempts gen : ℕ) (cl : Clus K N)
    (occ : Fin N → Bool) (pos : ℕ) (m : ℕ) (hm : m ≤ gen)
    (hdis : ∀ i j n, cl i n = true → cl j n = true → i = j)
    (hocc : ∀ k n, cl k n = true → occ n = true)
    (hempty : ∀ k : Fin K, gen ≤ k.val → ∀ n, cl k n = false)
    (hnew : ∀ k : Fin K, m ≤ k.val → k.val < gen → size (cl k) = max sz 1 ∧ ∃ seed, From adj seed (cl k))
    (out : Clus K N) (h : initLoop adj rnd sz maxAttempts attempts gen cl occ pos = some out) :
    (∀ i j n, out i n = true → out j n = true → i = j) ∧
    (∀ k : Fin K, k.val < m → out k = cl k) ∧
    ∀ k : Fin K, m ≤ k.val → size (out k) = max sz 1 ∧ ∃ seed, From adj seed (out k) := by
  rw [initLoop] at h
  split at h
  next hgen =>
    have hspec := growCluster_spec adj rnd sz occ pos
    dsimp only at h
    generalize growCluster adj rnd sz occ pos = r at hspec h
    obtain ⟨hs1, hs2⟩ := hspec
    cases hc : r.cluster with
    | none =>
      rw [hc] at h
      dsimp only at h
      split at h
      · exact initLoop_spec adj rnd sz maxAttempts (attempts + 1) gen cl r.occupied r.pos m hm hdis
          (fun k n hk => hs1 n (hocc k n hk)) hempty hnew out h
      · cases h
    | some c =>
      rw [hc] at h
      dsimp only at h
      obtain ⟨hf, ho, hd, hsz⟩ := hs2 c hc
      have hupd : ∀ k, k ≠ ⟨gen, hgen⟩ → Function.update cl ⟨gen, hgen⟩ c k = cl k := fun k hk => Function.update_of_ne hk _ _
      have hself : Function.update cl ⟨gen, hgen⟩ c ⟨gen, hgen⟩ = c := Function.update_self _ _ _
      have hcase : ∀ k : Fin K, k = ⟨gen, hgen⟩ ∨ k ≠ ⟨gen, hgen⟩ := fun k => em _
      have ih := initLoop_spec adj rnd sz maxAttempts attempts (gen + 1) (Function.update cl ⟨gen, hgen⟩ c) r.occupied r.pos m
        (by omega)
        (fun i j n hi hj => by
          rcases hcase i with hi' | hi' <;> rcases hcase j with hj' | hj'
          · rw [hi', hj']
          · rw [hi', hself] at hi; rw [hupd j hj'] at hj
            have := hd n hi; rw [hocc j n hj] at this; cases this
          · rw [hj', hself] at hj; rw [hupd i hi'] at hi
            have := hd n hj; rw [hocc i n hi] at this; cases this
          · rw [hupd i hi'] at hi; rw [hupd j hj'] at hj; exact hdis i j n hi hj)
        (fun k n hk => by
          rcases hcase k with hk' | hk'
          · rw [hk', hself] at hk; exact (ho n).mpr (Or.inr hk)
          · rw [hupd k hk'] at hk; exact hs1 n (hocc k n hk))
        (fun k hk n => by
          rw [hupd k (by intro e; rw [e] at hk; simp at hk)]
          exact hempty k (by omega) n)
        (fun k hk1 hk2 => by
          rcases hcase k with hk' | hk'
          · rw [hk', hself]; exact ⟨hsz, hf⟩
          · rw [hupd k hk']
            exact hnew k hk1 (by
              have : k.val ≠ gen := fun e => hk' (Fin.ext e)
              omega))
        out h
      refine ⟨ih.1, fun k hk => ?_, ih.2.2⟩
      rw [ih.2.1 k hk, hupd k (by intro e; rw [e] at hk; simp at hk; omega)]
  next hgen =>
    cases h
    exact ⟨hdis, fun k _ => rfl, fun k hk => hnew k hk (by omega)⟩
termination_by (K - gen) + (maxAttempts - attempts)

/-- **C30.** If the initial clusters are generated (on a symmetric neighbourhood graph, taking over the
disjoint clusters of a previous run), no object is in two clusters, the clusters of the previous run are
kept as they were, and every other cluster has exactly the configured size (at least one object) and is
connected. -/
theorem C30_initial_clusters {m : ℕ} (adj : Fin N → Fin N → Bool) (hsym : ∀ i j, adj i j = adj j i)
    (rnd : ℕ → ℕ) (sz : ℕ) (prev : Clus m N) (hprev : ∀ i j n, prev i n = true → prev j n = true → i = j)
    (out : Clus K N) (h : initialClusters adj rnd sz prev = some out) :
    (∀ i j n, out i n = true → out j n = true → i = j) ∧
    (∀ i : Fin m, ∃ hi : i.val < K, out ⟨i, hi⟩ = prev i) ∧
    ∀ k : Fin K, m ≤ k.val → size (out k) = max sz 1 ∧ Connected adj (out k) := by
  unfold initialClusters at h
  split at h
  next hmK =>
    have := initLoop_spec adj rnd sz 1000 0 m _ (anyGroup prev) 0 m le_rfl
      (fun i j n hi hj => by
        split at hi
        next h1 =>
          split at hj
          next h2 =>
            have := hprev _ _ n hi hj
            exact Fin.ext (by simpa using this)
          · cases hj
        · cases hi)
      (fun k n hk => by
        split at hk
        · simp only [anyGroup, List.any_eq_true, List.mem_finRange, true_and]; exact ⟨_, hk⟩
        · cases hk)
      (fun k hk n => by rw [dif_neg (by omega)])
      (fun k h1 h2 => by omega)
      out h
    refine ⟨this.1, fun i => ⟨by omega, ?_⟩, fun k hk => ?_⟩
    · rw [this.2.1 _ i.isLt]
      funext n
      rw [dif_pos i.isLt]
    · obtain ⟨h1, seed, h2⟩ := this.2.2 k hk
      exact ⟨h1, connected_of_from hsym h2⟩
  · cases h

/-- **C30**, a fresh start: with the initial size within the bounds the clusters satisfy the constraints that
the operators then preserve (C16). -/
theorem C30_initial_clusters_valid (adj : Fin N → Fin N → Bool) (hsym : ∀ i j, adj i j = adj j i)
    (rnd : ℕ → ℕ) (sz lo hi : ℕ) (h1 : 1 ≤ sz) (hlo : lo ≤ sz) (hhi : sz ≤ hi)
    (out : Clus K N) (h : initialClusters (m := 0) adj rnd sz (fun k => k.elim0) = some out) :
    Valid lo hi out := by
  obtain ⟨hd, -, hc⟩ := C30_initial_clusters adj hsym rnd sz _ (fun i => i.elim0) out h
  exact ⟨hd, fun k => by rw [(hc k (Nat.zero_le _)).1]; omega, fun k => by rw [(hc k (Nat.zero_le _)).1]; omega⟩

/-- A path of three objects and one cluster of size two. -/
theorem exInit : ∃ out : Clus 1 3, initialClusters (m := 0) (fun i j => i.val + 1 == j.val || j.val + 1 == i.val) (fun _ => 0) 2
    (fun k => k.elim0) = some out ∧ out = fun _ => ![true, true, false] := by
  refine ⟨_, ?_, rfl⟩
  unfold initialClusters
  rw [if_pos (by omega), initLoop, dif_pos (by omega)]
  have h : growCluster (N := 3) (fun i j => i.val + 1 == j.val || j.val + 1 == i.val) (fun _ => 0) 2
      (anyGroup fun k : Fin 0 => k.elim0) 0 = ⟨some ![true, true, false], ![true, true, false], 2⟩ := by
    have e : ∀ g : Grown 3, g.cluster = some ![true, true, false] → g.occupied = ![true, true, false] → g.pos = 2 →
        g = ⟨some ![true, true, false], ![true, true, false], 2⟩ := by
      rintro ⟨a, b, c⟩ h1 h2 h3; cases h1; cases h2; cases h3; rfl
    refine e _ ?_ ?_ ?_ <;> decide
  rw [h]
  dsimp only
  rw [initLoop, dif_neg (by omega)]
  congr 1
  funext k n
  fin_cases k
  simp

/-- Once every site is occupied, cluster initialisation fails. -/
theorem initLoop_stuck (adj : Fin N → Fin N → Bool) (rnd : ℕ → ℕ) (sz maxAttempts attempts gen : ℕ) (cl : Clus K N)
    (occ : Fin N → Bool) (pos : ℕ) (hocc : ∀ n, occ n = true) (hgen : gen < K) :
    initLoop adj rnd sz maxAttempts attempts gen cl occ pos = none := by
  have hg : growCluster adj rnd sz occ pos = ⟨none, occ, pos⟩ := by
    unfold growCluster
    have : (indices fun n => !occ n) = [] := by simp [indices, hocc]
    rw [this]; rfl
  rw [initLoop, dif_pos hgen, hg]
  dsimp only
  split
  · exact initLoop_stuck adj rnd sz maxAttempts (attempts + 1) gen cl occ pos hocc hgen
  · rfl
termination_by maxAttempts - attempts

/-- The path 0 - 1 - 2 - 3. -/
def path4 (i j : Fin 4) : Bool := i.val + 1 == j.val || j.val + 1 == i.val

theorem grow_eq {g : Grown N} {a : Option (Fin N → Bool)} {b : Fin N → Bool} {c : ℕ} (h1 : g.cluster = a)
    (h2 : g.occupied = b) (h3 : g.pos = c) : g = ⟨a, b, c⟩ := by
  obtain ⟨x, y, z⟩ := g; cases h1; cases h2; cases h3; rfl

/-- What C30 does not promise: the sites of failed attempts stay marked as occupied, so the repeated attempts
can run out of sites although the clusters would fit.  Here two connected clusters of size 2 exist on a path
of four objects, but with these draws all 1000 attempts fail. -/
theorem C30_may_give_up : ∃ rnd : ℕ → ℕ,
    initialClusters (K := 2) (m := 0) path4 rnd 2 (fun k => k.elim0) = none ∧
    ∃ cl : Clus 2 4, (∀ i j n, cl i n = true → cl j n = true → i = j) ∧ ∀ k, size (cl k) = 2 ∧ Connected path4 (cl k) := by
  refine ⟨fun n => if n < 2 then 1 else 0, ?_, ![![true, true, false, false], ![false, false, true, true]], by decide, ?_⟩
  · unfold initialClusters
    rw [if_pos (by omega), initLoop, dif_pos (by omega)]
    have h1 : growCluster path4 (fun n => if n < 2 then 1 else 0) 2 (anyGroup fun k : Fin 0 => k.elim0) 0 =
        ⟨some ![false, true, true, false], ![false, true, true, false], 2⟩ :=
      grow_eq (by decide) (by decide) (by decide)
    rw [h1]; dsimp only
    rw [initLoop, dif_pos (by omega)]
    have h2 : growCluster path4 (fun n => if n < 2 then 1 else 0) 2 ![false, true, true, false] 2 =
        ⟨none, ![true, true, true, false], 3⟩ := grow_eq (by decide) (by decide) (by decide)
    rw [h2]; dsimp only
    rw [if_pos (by omega), initLoop, dif_pos (by omega)]
    have h3 : growCluster path4 (fun n => if n < 2 then 1 else 0) 2 ![true, true, true, false] 3 =
        ⟨none, ![true, true, true, true], 4⟩ := grow_eq (by decide) (by decide) (by decide)
    rw [h3]; dsimp only
    rw [if_pos (by omega)]
    exact initLoop_stuck _ _ _ _ _ _ _ _ _ (by decide) (by omega)
  · intro k
    refine ⟨by revert k; decide, fun a b ha hb => ?_⟩
    by_cases hab : a = b
    · subst hab; exact .refl
    · refine .single ⟨ha, hb, ?_⟩
      revert a b k; decide

/-- A free neighbour can be found for every part of a cluster. -/
theorem growLoop_some (adj : Fin N → Fin N → Bool) (rnd : ℕ → ℕ) (occ₀ : Fin N → Bool) (sz : ℕ)
    (H : ∀ c : Fin N → Bool, (∃ n, c n = true) → size c < sz → ∃ n, (∃ m, adj n m = true ∧ c m = true) ∧ occ₀ n = false ∧ c n = false)
    (k : ℕ) : ∀ (c occ : Fin N → Bool) (pos : ℕ), (∃ n, c n = true) → size c + k ≤ sz → (∀ n, occ n = true ↔ occ₀ n = true ∨ c n = true) →
      (growLoop adj rnd k c occ pos).cluster.isSome := by
  induction k with
  | zero => exact fun c occ pos _ _ _ => rfl
  | succ k ih =>
    intro c occ pos hne hsz hocc
    obtain ⟨n, ⟨m, h1, h2⟩, h3, h4⟩ := H c hne (by omega)
    have hmem : n ∈ indices (getNeighbours c occ adj) := by
      rw [mem_indices]
      have : occ n = false := by
        rcases h : occ n with _ | _
        · rfl
        · rcases (hocc n).mp h with h | h <;> simp_all
      simp only [getNeighbours, Bool.and_eq_true, List.any_eq_true, Bool.not_eq_true', this, and_true]
      exact ⟨m, List.mem_finRange m, h1, h2⟩
    unfold growLoop
    cases hp : pick (indices (getNeighbours c occ adj)) (rnd pos) with
    | none => rw [pick_none hp] at hmem; cases hmem
    | some site =>
      dsimp only
      have hs := mem_indices.mp (pick_mem hp)
      simp only [getNeighbours, Bool.and_eq_true, Bool.not_eq_true'] at hs
      have hcs : c site = false := by
        rcases h : c site with _ | _
        · rfl
        · have := (hocc site).mpr (Or.inr h)
          rw [hs.2] at this
          cases this
      refine ih _ _ _ ⟨site, mark_iff.mpr (Or.inl rfl)⟩ (by rw [size_mark hcs]; omega) fun n => ?_
      rw [mark_iff, mark_iff, hocc]
      tauto

theorem growCluster_some (adj : Fin N → Fin N → Bool) (rnd : ℕ → ℕ) (occ : Fin N → Bool) (pos sz : ℕ) (hsz : 1 ≤ sz) (hfree : ∃ n, occ n = false)
    (H : ∀ c : Fin N → Bool, (∃ n, c n = true) → size c < sz → ∃ n, (∃ m, adj n m = true ∧ c m = true) ∧ occ n = false ∧ c n = false) :
    (growCluster adj rnd sz occ pos).cluster.isSome := by
  obtain ⟨n, hn⟩ := hfree
  have hmem : n ∈ indices fun n => !occ n := by rw [mem_indices]; simp [hn]
  unfold growCluster
  cases hp : pick (indices fun n => !occ n) (rnd pos) with
  | none => rw [pick_none hp] at hmem; cases hmem
  | some seed =>
    dsimp only
    have h1 : size (mark (fun _ : Fin N => false) seed) = 1 := by rw [size_mark rfl]; simp [size]
    refine growLoop_some adj rnd occ sz H _ _ _ _ ⟨seed, mark_iff.mpr (Or.inl rfl)⟩ (by omega) fun n => ?_
    rw [mark_iff, mark_iff]
    simp only [Bool.false_eq_true, or_false]
    tauto

/-- **C30.** When the network is connected and one cluster is to be found, the initialisation succeeds, whatever the random numbers are. -/
theorem C30_one_cluster_is_always_found (adj : Fin N → Fin N → Bool) (hcon : Connected adj fun _ => true) (rnd : ℕ → ℕ) (sz : ℕ)
    (h1 : 1 ≤ sz) (hN : sz ≤ N) : (initialClusters (m := 0) adj rnd sz (fun k => k.elim0) : Option (Clus 1 N)).isSome := by
  have hocc : ∀ n : Fin N, anyGroup (fun k : Fin 0 => (k.elim0 : Fin N → Bool)) n = false := fun n => rfl
  have hg : (growCluster adj rnd sz (anyGroup fun k : Fin 0 => (k.elim0 : Fin N → Bool)) 0).cluster.isSome := by
    refine growCluster_some adj rnd _ 0 sz h1 ⟨⟨0, by omega⟩, hocc _⟩ fun c hne hlt => ?_
    by_contra hno
    push Not at hno
    obtain ⟨a, ha⟩ := hne
    have hall : ∀ b, c b = true := by
      intro b
      have hpath := hcon b a rfl rfl
      induction hpath using Relation.ReflTransGen.head_induction_on with
      | refl => exact ha
      | head hab _ ih => simpa using hno _ ⟨_, hab.2.2, ih⟩ (hocc _)
    have : size c = N := by simp [size, hall]
    omega
  obtain ⟨c, hc⟩ := Option.isSome_iff_exists.mp hg
  unfold initialClusters
  rw [if_pos (Nat.zero_le _), initLoop, dif_pos Nat.one_pos]
  dsimp only
  rw [hc]
  dsimp only
  rw [initLoop, dif_neg (by omega)]
  rfl

theorem initLoop_some (adj : Fin N → Fin N → Bool) (hadj : ∀ i j, adj i j = true) (rnd : ℕ → ℕ) (sz maxAttempts : ℕ) (h1 : 1 ≤ sz) (hN : K * sz ≤ N)
    (d : ℕ) : ∀ (gen : ℕ) (cl : Clus K N) (occ : Fin N → Bool) (pos : ℕ), gen + d = K → size occ = gen * sz →
      (initLoop adj rnd sz maxAttempts 0 gen cl occ pos).isSome := by
  induction d with
  | zero =>
    intro gen cl occ pos hd _
    rw [initLoop, dif_neg (by omega)]
    rfl
  | succ d ih =>
    intro gen cl occ pos hd hsz
    have hle : (gen + 1) * sz ≤ K * sz := Nat.mul_le_mul_right sz (by omega)
    have hfree : ∀ c : Fin N → Bool, size c < sz → ∃ n, occ n = false ∧ c n = false := by
      intro c hc
      by_contra hno
      push Not at hno
      have hun : (Finset.univ.filter fun n => occ n = true) ∪ (Finset.univ.filter fun n => c n = true) = Finset.univ := by
        ext n
        simp only [Finset.mem_union, Finset.mem_filter, Finset.mem_univ, true_and, iff_true]
        rcases h : occ n with _ | _
        · exact Or.inr (by simpa using hno n h)
        · exact Or.inl rfl
      have hcard := Finset.card_union_le (Finset.univ.filter fun n => occ n = true) (Finset.univ.filter fun n => c n = true)
      rw [hun, Finset.card_univ, Fintype.card_fin] at hcard
      have e : (gen + 1) * sz = gen * sz + sz := by ring
      unfold size at hc hsz
      omega
    have hg : (growCluster adj rnd sz occ pos).cluster.isSome := by
      obtain ⟨n, hn, -⟩ := hfree (fun _ => false) (by simp [size]; omega)
      refine growCluster_some adj rnd occ pos sz h1 ⟨n, hn⟩ fun c hne hlt => ?_
      obtain ⟨n, hn, hcn⟩ := hfree c hlt
      obtain ⟨m, hm⟩ := hne
      exact ⟨n, ⟨m, hadj n m, hm⟩, hn, hcn⟩
    obtain ⟨c, hc⟩ := Option.isSome_iff_exists.mp hg
    obtain ⟨-, hs⟩ := growCluster_spec adj rnd sz occ pos
    obtain ⟨-, ho, hdis, hcs⟩ := hs c hc
    rw [initLoop, dif_pos (by omega)]
    dsimp only
    rw [hc]
    dsimp only
    refine ih _ _ _ _ (by omega) ?_
    have e : size (growCluster adj rnd sz occ pos).occupied = size occ + size c := by
      unfold size
      rw [← Finset.card_union_of_disjoint]
      · congr 1
        ext n
        simp [ho n]
      · rw [Finset.disjoint_filter]
        intro n _ h1 h2
        rw [hdis n h2] at h1
        cases h1
    rw [e, hsz, hcs, Nat.max_eq_left h1]
    ring

/-- **C30.** When all objects are neighbours of each other, the initialisation succeeds whenever the clusters fit, whatever the random numbers are. -/
theorem C30_succeeds_among_neighbours (adj : Fin N → Fin N → Bool) (hadj : ∀ i j, adj i j = true) (rnd : ℕ → ℕ) (sz : ℕ)
    (h1 : 1 ≤ sz) (hN : K * sz ≤ N) : (initialClusters (m := 0) adj rnd sz (fun k => k.elim0) : Option (Clus K N)).isSome := by
  unfold initialClusters
  rw [if_pos (Nat.zero_le _)]
  refine initLoop_some adj hadj rnd sz 1000 h1 hN K 0 _ _ 0 (by omega) ?_
  have : ∀ n : Fin N, anyGroup (fun k : Fin 0 => (k.elim0 : Fin N → Bool)) n = false := fun n => rfl
  simp [size, this]

/-- For example: two clusters of two objects among four objects; one cluster of two objects on a path of four objects. -/
example (rnd : ℕ → ℕ) : (initialClusters (m := 0) (fun _ _ => true) rnd 2 (fun k => k.elim0) : Option (Clus 2 4)).isSome :=
  C30_succeeds_among_neighbours _ (fun _ _ => rfl) rnd 2 (by norm_num) (by norm_num)

theorem path4_connected : Connected path4 fun _ => true := by
  refine connected_of_from (seed := 0) (by decide) ⟨rfl, fun a _ => ?_⟩
  have h1 : Relation.ReflTransGen (fun i j : Fin 4 => true = true ∧ true = true ∧ path4 j i = true) 0 1 := .single (by decide)
  have h2 := h1.tail (c := 2) (by decide)
  have h3 := h2.tail (c := 3) (by decide)
  fin_cases a
  exacts [.refl, h1, h2, h3]

example (rnd : ℕ → ℕ) : (initialClusters (m := 0) path4 rnd 2 (fun k => k.elim0) : Option (Clus 1 4)).isSome :=
  C30_one_cluster_is_always_found _ path4_connected rnd 2 (by norm_num) (by norm_num)

/-! ### C31 -/

/-- **C31.** The initial weights of each feature are positive and sum to one, from scratch or from (positive)
weights of a previous run; weights that already sum to one are kept. -/
theorem C31_initial_weights (prev : Option (Fin F → Fin (C + 1) → ℝ)) (hprev : ∀ w ∈ prev, ∀ f c, 0 < w f c) :
    (∀ f, Effects.OpenSimplex (initialWeights prev f)) ∧
    (∀ w ∈ prev, (∀ f, ∑ c, w f c = 1) → initialWeights prev = w) ∧
    (prev = none → ∀ f c c', initialWeights prev f c = initialWeights prev f c') := by
  have hpos : ∀ f c, 0 < (prev.getD fun _ _ => 1) f c := by
    intro f c
    cases prev with
    | none => simp
    | some w => exact hprev w rfl f c
  have hsum : ∀ f, 0 < ∑ c, (prev.getD fun _ _ => 1) f c := fun f => Finset.sum_pos (fun c _ => hpos f c) ⟨0, Finset.mem_univ _⟩
  refine ⟨fun f => ⟨fun c => div_pos (hpos f c) (hsum f), ?_⟩, ?_, ?_⟩
  · unfold initialWeights Effects.normalize
    rw [← Finset.sum_div, div_self (hsum f).ne']
  · rintro w hw h1
    cases hw
    funext f c
    simp [initialWeights, Effects.normalize, h1 f]
  · rintro rfl f c c'
    rfl

theorem sitesPerState_nonneg (x : Features N F S) (app : Fin F → Fin S → Bool) (group : Fin N → Bool) (f : Fin F) (s : Fin S) :
    0 ≤ sitesPerState x app group f s := by
  unfold sitesPerState
  exact add_nonneg (Finset.sum_nonneg fun n _ => by split <;> norm_num) (by split <;> norm_num)

theorem sitesPerState_pos (x : Features N F S) (app : Fin F → Fin S → Bool) (group : Fin N → Bool) (f : Fin F) (s : Fin S)
    (h : app f s = true) : 0 < sitesPerState x app group f s := by
  unfold sitesPerState
  exact add_pos_of_nonneg_of_pos (Finset.sum_nonneg fun n _ => by split <;> norm_num) (by simp [h])

theorem sitesPerState_sum_pos (x : Features N F S) (app : Fin F → Fin S → Bool) (hx : Observable x app) (group : Fin N → Bool) (f : Fin F) :
    0 < ∑ s, sitesPerState x app group f s := by
  obtain ⟨s, hs⟩ := hx.some_state f
  exact Finset.sum_pos' (fun s _ => sitesPerState_nonneg x app group f s) ⟨s, Finset.mem_univ _, sitesPerState_pos x app group f s hs⟩

/-- **C31.** The effect computed for a group of objects is a probability vector on the applicable states,
positive on all of them, and `(count + 1) / (total + number of applicable states)`. -/
theorem C31_group_effect (x : Features N F S) (app : Fin F → Fin S → Bool) (hx : Observable x app)
    (group : Fin N → Bool) (f : Fin F) :
    Effects.EffectOn (app f) (groupEffect x app group f) ∧ (∀ s, app f s = true → 0 < groupEffect x app group f s) ∧
    ∀ s, app f s = true → groupEffect x app group f s =
      (((Finset.univ.filter fun n => group n = true ∧ x n f s = true).card : ℝ) + 1) /
        (∑ t, ((Finset.univ.filter fun n => group n = true ∧ x n f t = true).card : ℝ) +
          ((Finset.univ.filter fun t => app f t = true).card : ℝ)) := by
  have hpos := sitesPerState_sum_pos x app hx group f
  have hcount : ∀ t, ∑ n, (if group n && x n f t then (1 : ℝ) else 0) =
      ((Finset.univ.filter fun n => group n = true ∧ x n f t = true).card : ℝ) := by
    intro t
    rw [Finset.sum_ite, Finset.sum_const_zero, add_zero, Finset.sum_const, nsmul_eq_mul, mul_one]
    simp
  refine ⟨⟨fun s => div_nonneg (sitesPerState_nonneg ..) hpos.le, fun s hs => ?_, ?_⟩, fun s hs => ?_, fun s hs => ?_⟩
  · have : sitesPerState x app group f s = 0 := by
      unfold sitesPerState
      rw [hs, Finset.sum_eq_zero]
      · simp
      · intro n _
        rw [if_neg]
        intro h
        simp only [Bool.and_eq_true] at h
        rw [hx.observed n f s h.2] at hs; cases hs
    unfold groupEffect; rw [this, zero_div]
  · unfold groupEffect; rw [← Finset.sum_div, div_self hpos.ne']
  · exact div_pos (sitesPerState_pos x app group f s hs) hpos
  · unfold groupEffect sitesPerState
    rw [Finset.sum_add_distrib, hcount s]
    simp only [hcount, hs, if_true]
    congr 2
    rw [Finset.sum_ite, Finset.sum_const_zero, add_zero, Finset.sum_const, nsmul_eq_mul, mul_one]

/-- **C31.** The initial effects of all clusters and confounder groups are such probability vectors, positive on
the applicable states, if the effects taken over from a previous run are. -/
theorem C31_initial_effects {m : ℕ} (x : Features N F S) (app : Fin F → Fin S → Bool) (hx : Observable x app)
    (prev : Fin m → Fin F → Fin S → ℝ)
    (hprev : ∀ k f, Effects.EffectOn (app f) (prev k f) ∧ ∀ s, app f s = true → 0 < prev k f s) (cl : Clus K N)
    (prevC : Option (Fin G → Fin F → Fin S → ℝ))
    (hprevC : ∀ e ∈ prevC, ∀ g f, Effects.EffectOn (app f) (e g f) ∧ ∀ s, app f s = true → 0 < e g f s)
    (groups : Fin G → Fin N → Bool) :
    (∀ k f, Effects.EffectOn (app f) (initialClusterEffect x app prev cl k f) ∧
      ∀ s, app f s = true → 0 < initialClusterEffect x app prev cl k f s) ∧
    (∀ g f, Effects.EffectOn (app f) (initialConfEffect x app prevC groups g f) ∧
      ∀ s, app f s = true → 0 < initialConfEffect x app prevC groups g f s) ∧
    (∀ k : Fin K, ∀ h : k.val < m, initialClusterEffect x app prev cl k = prev ⟨k, h⟩) := by
  refine ⟨fun k f => ?_, fun g f => ?_, fun k h => ?_⟩
  · unfold initialClusterEffect
    split
    · exact hprev _ f
    · exact ⟨(C31_group_effect x app hx _ f).1, (C31_group_effect x app hx _ f).2.1⟩
  · unfold initialConfEffect
    cases prevC with
    | none => exact ⟨(C31_group_effect x app hx _ f).1, (C31_group_effect x app hx _ f).2.1⟩
    | some e => exact hprevC e rfl g f
  · unfold initialClusterEffect; rw [dif_pos h]

/-- Two objects, one feature with three states of which two are applicable, one object missing. -/
example : Observable (N := 2) (F := 1) (S := 3) (fun n _ s => n == 0 && s == 1) (fun _ s => s != 2) :=
  ⟨by decide, by decide⟩

end SBayes.Init
