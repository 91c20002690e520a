import Verif.Lemmas.Reach
/- C82: the cluster operators can reach every admissible configuration. -/
namespace SBayes.Clusters
open SBayes.Lik SBayes.MH Relation
variable {K N F S M : ℕ} {nG : Fin M → ℕ}

theorem growProb_pos {cfg : Cfg N} (h0 : 0 ≤ cfg.pConn) (h1 : cfg.pConn < 1) {x : Clus K N} {z : Fin K} {o : Fin N}
    (hf : free x o = true) : 0 < growProb cfg x z o := by
  have hc : 0 < count (free x) := by rw [count_eq_size]; exact size_pos_of_mem hf
  have a : 0 < (1 - cfg.pConn) * (1 / (count (free x) : ℝ)) := by
    have : (0 : ℝ) < count (free x) := by exact_mod_cast hc
    have : 0 < 1 - cfg.pConn := by linarith
    positivity
  unfold growProb
  dsimp only
  split
  · have : 0 ≤ cfg.pConn * (1 / (count (getNeighbours (x z) (anyGroup x) cfg.adj) : ℝ)) := by positivity
    linarith
  · linarith

theorem alterCluster_moves {cfg : Cfg N} (hK : 0 < K) (h0 : 0 ≤ cfg.pConn) (h1 : cfg.pConn < 1) (hs : cfg.minSize < cfg.maxSize)
    {post : Clus K N → ℝ} (hpost : ∀ x, Valid cfg.minSize cfg.maxSize x → 0 < post x) :
    Moves cfg.minSize cfg.maxSize fun x y : Clus K N => 0 < stepMass post (alterCluster cfg) x y := by
  have hK' : (0 : ℝ) < 1 / (2 * (K : ℝ)) := by positivity
  have hadd : ∀ (x : Clus K N) z o, free x o = true → size (x z) < cfg.maxSize →
      0 < propMass (alterCluster cfg) x (addObject x z o) := fun x z o hf hz => by
    rw [propMass_add hf hz]
    exact mul_pos hK' (growProb_pos h0 h1 hf)
  have hrem : ∀ (x : Clus K N) z o, x z o = true → cfg.minSize < size (x z) →
      0 < propMass (alterCluster cfg) x (removeObject x z o) := fun x z o ho hz => by
    rw [propMass_remove ho hz]
    have : (0 : ℝ) < size (x z) := by exact_mod_cast size_pos_of_mem ho
    positivity
  refine Moves.of_add_remove hs (fun x z o hv hf hz => ?_) (fun x z o hv ho hz => ?_)
  · have hzo := free_iff.mp hf z
    refine stepMass_pos hK' (alterCluster_reports cfg) hpost hv (valid_add hv hf hz) (addObject_ne hzo).symm (hadd x z o hf hz) ?_
    have := hrem (addObject x z o) z o (addObject_self x z o) (by have := size_add hzo; have := hv.lower z; omega)
    rwa [remove_add hzo] at this
  · refine stepMass_pos hK' (alterCluster_reports cfg) hpost hv (valid_remove hv ho hz) (removeObject_ne ho).symm (hrem x z o ho hz) ?_
    have := hadd (removeObject x z o) z o (free_remove hv ho) (by have := size_remove ho; have := hv.upper z; omega)
    rwa [add_remove ho] at this

/-- **C82.** `AlterCluster`: if the limits on the cluster sizes leave room and growing is not confined to neighbours, the
chain can get from every admissible configuration of clusters to every other. -/
theorem C82_alterCluster_reaches_every_configuration (cfg : Cfg N) (hK : 0 < K) (h0 : 0 ≤ cfg.pConn) (h1 : cfg.pConn < 1)
    (hs : cfg.minSize < cfg.maxSize) (hN : K * cfg.minSize < N) (post : Clus K N → ℝ)
    (hpost : ∀ x, Valid cfg.minSize cfg.maxSize x → 0 < post x) (x y : Clus K N) (hx : Valid cfg.minSize cfg.maxSize x)
    (hy : Valid cfg.minSize cfg.maxSize y) : CanReach post (alterCluster cfg) x y :=
  connect (alterCluster_moves hK h0 h1 hs hpost) hN hx hy

theorem normalizeVec_pos {x : Fin N → ℝ} (h0 : ∀ n, 0 ≤ x n) {o : Fin N} (h1 : 0 < x o) : 0 < normalizeVec x o :=
  lt_of_le_of_ne ((isDist_normalize h0 h1).1 (o, normalizeVec x o) (List.mem_map.mpr ⟨o, List.mem_finRange o, rfl⟩)) fun e => by
    have hsum : 0 < (List.map x (List.finRange N)).sum :=
      lt_of_lt_of_le h1 (List.single_le_sum (fun a ha => by
        obtain ⟨n, -, rfl⟩ := List.mem_map.mp ha
        exact h0 n) _ (List.mem_map.mpr ⟨o, List.mem_finRange o, rfl⟩))
    exact absurd (div_pos h1 hsum) (by rw [show x o / _ = normalizeVec x o from rfl, ← e]; exact lt_irrefl 0)

theorem gibbsish_moves {cfg : Cfg N} {p : Clus K N → Fin K → Fin N → ℝ} (hp : GoodPost p) (hK : 0 < K) (hs : cfg.minSize < cfg.maxSize)
    {post : Clus K N → ℝ} (hpost : ∀ x, Valid cfg.minSize cfg.maxSize x → 0 < post x) :
    Moves cfg.minSize cfg.maxSize fun x y : Clus K N => 0 < stepMass post (gibbsish cfg p) x y := by
  have hK' : (0 : ℝ) < 1 / (2 * (K : ℝ)) := by positivity
  have hind : ∀ b, 0 ≤ ind b := fun b => by cases b <;> simp [ind]
  have hadd : ∀ (x : Clus K N) z o, free x o = true → size (x z) ≠ cfg.maxSize →
      0 < propMass (gibbsish cfg p) x (addObject x z o) := fun x z o hf hz => by
    rw [gibbsish_propMass_add hf hz]
    refine mul_pos hK' (normalizeVec_pos (fun n => mul_nonneg (hp.pos x z n).le (hind _)) ?_)
    simpa [ind, hf] using hp.pos x z o
  have hrem : ∀ (x : Clus K N) z o, x z o = true → size (x z) ≠ cfg.minSize →
      0 < propMass (gibbsish cfg p) x (removeObject x z o) := fun x z o ho hz => by
    rw [gibbsish_propMass_remove ho hz]
    refine mul_pos hK' (normalizeVec_pos (fun n => mul_nonneg (by have := hp.lt_one x z n; linarith) (hind _)) ?_)
    simpa [ind, ho] using hp.lt_one x z o
  have hrep := gibbsish_reports cfg hp.indep
  refine Moves.of_add_remove hs (fun x z o hv hf hz => ?_) (fun x z o hv ho hz => ?_)
  · have hzo := free_iff.mp hf z
    refine stepMass_pos hK' hrep hpost hv (valid_add hv hf hz) (addObject_ne hzo).symm (hadd x z o hf (by omega)) ?_
    have := hrem (addObject x z o) z o (addObject_self x z o) (by have := size_add hzo; have := hv.lower z; omega)
    rwa [remove_add hzo] at this
  · refine stepMass_pos hK' hrep hpost hv (valid_remove hv ho hz) (removeObject_ne ho).symm (hrem x z o ho (by omega)) ?_
    have := hadd (removeObject x z o) z o (free_remove hv ho) (by have := size_remove ho; have := hv.upper z; omega)
    rwa [add_remove ho] at this

/-- **C82.** `AlterClusterGibbsish`. -/
theorem C82_gibbsish_reaches_every_configuration (cfg : Cfg N) (hK : 0 < K) (hs : cfg.minSize < cfg.maxSize)
    (hN : K * cfg.minSize < N) {d : ModelData N F S M nG} {w : Fin F → Fin (M + 1) → ℝ} {ce : Fin K → Fin F → Fin S → ℝ}
    {fe : (c : Fin M) → Fin (nG c) → Fin F → Fin S → ℝ} (hm : PositiveModel d w ce fe) (post : Clus K N → ℝ)
    (hpost : ∀ x, Valid cfg.minSize cfg.maxSize x → 0 < post x) (x y : Clus K N) (hx : Valid cfg.minSize cfg.maxSize x)
    (hy : Valid cfg.minSize cfg.maxSize y) : CanReach post (gibbsish cfg (clusterPosterior d w ce fe)) x y :=
  connect (gibbsish_moves (clusterPosterior_good hm) hK hs hpost) hN hx hy

theorem gibbsish2_redraw {cfg : Cfg N} {p : Clus K N → Fin K → Fin N → ℝ} (hp : GoodPost p) (hK : 0 < K) {x : Clus K N}
    (hx : Valid cfg.minSize cfg.maxSize x) {z : Fin K} {v : Fin N → Bool} (hv : ∀ n, available x z n = false → v n = false)
    (h1 : cfg.minSize ≤ size v) (h2 : size v ≤ cfg.maxSize) (hne : v ≠ x z) :
    0 < propMass (gibbsish2 cfg p) x (redraw x z v) ∧ 0 < propMass (gibbsish2 cfg p) (redraw x z v) x := by
  have hK' : (0 : ℝ) < 1 / (K : ℝ) := by positivity
  have hrow : ∀ (y : Clus K N) z v, 0 < rowProb p y z v := fun y z v => by
    refine List.prod_pos fun a ha => ?_
    obtain ⟨n, -, rfl⟩ := List.mem_map.mp ha
    have := hp.pos y z n
    have := hp.lt_one y z n
    cases v n <;> simp [ind] <;> linarith
  constructor
  · rw [gibbsish2_propMass hv h1 h2 hne]
    exact mul_pos hK' (hrow _ _ _)
  · have := gibbsish2_propMass (cfg := cfg) (post := p) (cl := redraw x z v) (z := z) (v := x z)
      (fun n hn => by rw [available_redraw hx hv] at hn; exact (not_available hn).1)
      (hx.lower z) (hx.upper z) (by rw [redraw_row hv]; exact hne.symm)
    rw [redraw_redraw hx hv] at this
    rw [this]
    exact mul_pos hK' (hrow _ _ _)

/-- A change of the membership of available objects is a redrawing of the cluster. -/
theorem eq_redraw {x y : Clus K N} {z : Fin K} (h1 : ∀ k, k ≠ z → y k = x k) (h2 : ∀ n, available x z n = false → y z n = x z n) :
    y = redraw x z (y z) := by
  funext k n
  unfold redraw
  by_cases hk : k = z
  · subst hk
    by_cases ha : available x k n = true
    · simp [ha]
    · simp [ha, h2 n (by simpa using ha)]
  · simp [hk, h1 k hk]

/-- Moves that are possible, in both directions, whatever the posterior. -/
theorem gibbsish2_moves_all {ι : Type} {cfg : Cfg N} {p : ι → Clus K N → Fin K → Fin N → ℝ} (hp : ∀ i, GoodPost (p i)) (hK : 0 < K) :
    Moves cfg.minSize cfg.maxSize fun x y : Clus K N => Valid cfg.minSize cfg.maxSize x ∧ Valid cfg.minSize cfg.maxSize y ∧ x ≠ y ∧
      ∀ i, 0 < propMass (gibbsish2 cfg (p i)) x y ∧ 0 < propMass (gibbsish2 cfg (p i)) y x := by
  have key : ∀ (x y : Clus K N) (z : Fin K), Valid cfg.minSize cfg.maxSize x → Valid cfg.minSize cfg.maxSize y →
      (∀ k, k ≠ z → y k = x k) → (∀ n, available x z n = false → y z n = x z n) → y z ≠ x z →
      Valid cfg.minSize cfg.maxSize x ∧ Valid cfg.minSize cfg.maxSize y ∧ x ≠ y ∧
        ∀ i, 0 < propMass (gibbsish2 cfg (p i)) x y ∧ 0 < propMass (gibbsish2 cfg (p i)) y x := by
    intro x y z hx hy h1 h2 hne
    refine ⟨hx, hy, fun e => hne (by rw [e]), fun i => ?_⟩
    have := gibbsish2_redraw (hp i) hK hx (z := z) (v := y z) (fun n hn => by rw [h2 n hn]; exact (not_available hn).1)
      (hy.lower z) (hy.upper z) hne
    rwa [← eq_redraw h1 h2] at this
  have hav : ∀ (x : Clus K N) z n, available x z n = false → free x n = false ∧ x z n = false := fun x z n h => by
    unfold available at h
    exact Bool.or_eq_false_iff.mp h
  refine ⟨fun x z o hv hf hz => ?_, fun x z o hv ho hz => ?_, fun x z o o' hv ho hf => .single ?_⟩
  · refine key x _ z hv (valid_add hv hf hz) (fun k hk => add_other hk) (fun n hn => ?_) fun e => ?_
    · unfold addObject
      rw [if_neg]
      rintro ⟨-, rfl⟩
      rw [(hav x z n hn).1] at hf; cases hf
    · have := congrFun e o
      rw [addObject_self, free_iff.mp hf z] at this
      cases this
  · refine key x _ z hv (valid_remove hv ho hz) (fun k hk => remove_other hk) (fun n hn => ?_) fun e => ?_
    · unfold removeObject
      rw [if_neg]
      rintro ⟨-, rfl⟩
      rw [(hav x z n hn).2] at ho; cases ho
    · have := congrFun e o
      rw [removeObject_self, ho] at this
      cases this
  · have hz := free_iff.mp hf z
    refine key x _ z hv (valid_swap hv ho hf) (fun k hk => funext fun n => by rw [swap_at, if_neg hk]) (fun n hn => ?_) fun e => ?_
    · have h1 : n ≠ o' := by rintro rfl; rw [(hav x z n hn).1] at hf; cases hf
      have h2 : n ≠ o := by rintro rfl; rw [(hav x z n hn).2] at ho; cases ho
      rw [swap_at]; simp [h1, h2]
    · have := congrFun e o'
      rw [swap_at, hz] at this
      simp at this

theorem gibbsish2_moves {cfg : Cfg N} {p : Clus K N → Fin K → Fin N → ℝ} (hp : GoodPost p) (hK : 0 < K)
    {post : Clus K N → ℝ} (hpost : ∀ x, Valid cfg.minSize cfg.maxSize x → 0 < post x) :
    Moves cfg.minSize cfg.maxSize fun x y : Clus K N => 0 < stepMass post (gibbsish2 cfg p) x y :=
  (gibbsish2_moves_all (ι := Unit) (fun _ => hp) hK).mono fun x y ⟨hx, hy, hne, h⟩ =>
    stepMass_pos (show (0 : ℝ) < 1 / (K : ℝ) by positivity) (gibbsish2_reports cfg hp.indep) hpost hx hy hne (h ()).1 (h ()).2

/-- **C82.** `AlterClusterGibbsish2`, also with clusters of a fixed size. -/
theorem C82_gibbsish2_reaches_every_configuration (cfg : Cfg N) (hK : 0 < K)
    (hN : K * cfg.minSize < N) {d : ModelData N F S M nG} {w : Fin F → Fin (M + 1) → ℝ} {ce : Fin K → Fin F → Fin S → ℝ}
    {fe : (c : Fin M) → Fin (nG c) → Fin F → Fin S → ℝ} (hm : PositiveModel d w ce fe) (post : Clus K N → ℝ)
    (hpost : ∀ x, Valid cfg.minSize cfg.maxSize x → 0 < post x) (x y : Clus K N) (hx : Valid cfg.minSize cfg.maxSize x)
    (hy : Valid cfg.minSize cfg.maxSize y) : CanReach post (gibbsish2 cfg (clusterPosterior d w ce fe)) x y :=
  connect (gibbsish2_moves (clusterPosterior_good hm) hK hpost) hN hx hy

/-! ### Limits -/

/-- A step with positive probability comes from a path with non-zero weight. -/
theorem exists_path {σ : Type} {post : σ → ℝ} {op : σ → Rand (Result σ)} {x y : σ} (h : 0 < stepMass post op x y) (hne : y ≠ x) :
    ∃ r w, (r, w) ∈ op x ∧ w ≠ 0 ∧ r.new = y := by
  by_contra hcon
  push Not at hcon
  have : stepMass post op x y = propMass op x y * 0 := stepMass_ne hne.symm 0 fun r w hr hw he => absurd he (hcon r w hr hw)
  rw [this, mul_zero] at h
  exact lt_irrefl 0 h

/-- **C82**, limit: with clusters of a fixed size `AlterCluster` never moves. -/
theorem C82_alterCluster_fixed_size_false (cfg : Cfg N) (hs : cfg.minSize = cfg.maxSize) (post : Clus K N → ℝ) (x y : Clus K N)
    (hx : Valid cfg.minSize cfg.maxSize x) (h : CanReach post (alterCluster cfg) x y) : y = x := by
  unfold CanReach at h
  induction h with
  | refl => rfl
  | tail _ h ih =>
    subst ih
    by_contra hne
    obtain ⟨r, w, hr, -, he⟩ := exists_path h hne
    rcases alterCluster_cases hr with rfl | ⟨z, o, hf, hz, rfl⟩ | ⟨z, o, hz, hz', rfl⟩
    · exact hne he.symm
    · have := hx.lower z; omega
    · have := hx.upper z; omega

/-- **C82**, limit: if growing is confined to neighbours (`grow_to_adjacent: 1.0`) and an object has no neighbours, it never
gets into a cluster. -/
theorem C82_only_neighbours_false (cfg : Cfg N) (h1 : cfg.pConn = 1) (o : Fin N) (ho : ∀ n, cfg.adj o n = false)
    (post : Clus K N → ℝ) (x y : Clus K N) (hx : ∀ k, x k o = false) (h : CanReach post (alterCluster cfg) x y) (k : Fin K) :
    y k o = false := by
  unfold CanReach at h
  induction h generalizing k with
  | refl => exact hx k
  | @tail b c hb h ih =>
    by_cases hne : c = b
    · rw [hne]; exact ih k
    obtain ⟨r, w, hr, hw, he⟩ := exists_path h hne
    have hmass : propMass (alterCluster cfg) b c ≠ 0 := by
      intro e
      have hrw : ∀ r w, (r, w) ∈ alterCluster cfg b → 0 ≤ w := fun r w hr =>
        (alterCluster_isDist cfg (Fin.pos k) (by rw [h1]; norm_num) (by rw [h1]) b).1 (r, w) hr
      classical
      have : w ≤ propMass (alterCluster cfg) b c := by
        unfold propMass prob E
        refine le_trans (le_of_eq ?_) (List.single_le_sum (fun a ha => ?_) (w * 1) (List.mem_map.mpr ⟨(r, w), hr, by dsimp only; rw [if_pos he]⟩))
        · rw [mul_one]
        · obtain ⟨⟨r', w'⟩, hr', rfl⟩ := List.mem_map.mp ha
          dsimp only
          split
          · rw [mul_one]; exact hrw _ _ hr'
          · rw [mul_zero]
      exact hw (le_antisymm (e ▸ this) (hrw r w hr))
    rcases alterCluster_cases hr with rfl | ⟨z, o', hf, hz, rfl⟩ | ⟨z, o', hz, hz', rfl⟩
    · exact absurd he.symm hne
    · dsimp only at he
      subst he
      unfold addObject
      split
      · rename_i e
        obtain ⟨rfl, rfl⟩ := e
        exfalso
        apply hmass
        rw [propMass_add hf hz]
        unfold growProb
        dsimp only
        rw [h1, if_neg]
        · ring
        · rw [getNeighbours_iff]
          rintro ⟨⟨m, hm, -⟩, -⟩
          rw [ho m] at hm; cases hm
      · exact ih k
    · dsimp only at he
      subst he
      unfold removeObject
      split
      · rfl
      · exact ih k

/-- Two clusters among five objects; the second configuration exchanges members. -/
example : ∃ x y : Clus 2 5, Valid 1 2 x ∧ Valid 1 2 y ∧ x ≠ y ∧ 2 * 1 < 5 :=
  ⟨fun k n => decide (n.val = k.val), fun k n => decide (n.val + k.val = 1) || decide (k.val = 0 ∧ n.val = 4),
    ⟨by decide, by decide, by decide⟩, ⟨by decide, by decide, by decide⟩, by decide, by decide⟩

end SBayes.Clusters
