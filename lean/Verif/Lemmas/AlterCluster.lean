import Verif.Lemmas.Clusters
set_option linter.unusedSectionVars false
/- The operator `AlterCluster`: real proposal probabilities. -/
namespace SBayes.Clusters
open SBayes.Lik SBayes.MH
variable {K N : ℕ}

/-- Shape of a result of `AlterCluster`. -/
theorem alterCluster_cases {cfg : Cfg N} {cl : Clus K N} {r : Result (Clus K N)} {w : ℝ}
    (h : (r, w) ∈ alterCluster cfg cl) :
    r = reject cl ∨
    (∃ z o, free cl o = true ∧ size (cl z) < cfg.maxSize ∧
      r = ⟨addObject cl z o, growProb cfg cl z o, 1 / ((size (cl z) : ℝ) + 1)⟩) ∨
    (∃ z o, cl z o = true ∧ cfg.minSize < size (cl z) ∧
      r = ⟨removeObject cl z o, 1 / (size (cl z) : ℝ), growProb cfg (removeObject cl z o) z o⟩) := by
  unfold alterCluster at h
  obtain ⟨s, -, b, hb, h1, -⟩ := mem_bind h
  simp only at h1
  split at hb
  · unfold shrinkCluster at hb
    obtain ⟨z, hz, b', hb', h2, -⟩ := mem_bind hb
    dsimp only at hb'
    split at hb'
    · left; rw [h1, h2, mem_ret hb']
    · right; right
      rename_i hs
      obtain ⟨o, ho, b'', hb'', h3, -⟩ := mem_bind hb'
      refine ⟨z.1, o.1, mem_indices.mp (mem_uniform ho), ?_, ?_⟩
      · rw [count_eq_size] at hs; omega
      · rw [h1, h2, h3, mem_ret hb'', length_indices, count_eq_size]
  · unfold growCluster at hb
    obtain ⟨z, hz, b', hb', h2, -⟩ := mem_bind hb
    dsimp only at hb'
    split at hb'
    · left; rw [h1, h2, mem_ret hb']
    · rename_i hs
      obtain ⟨c, hc, b'', hb'', h3, -⟩ := mem_bind hb'
      have hcand : ∀ n, (if c.1 = true then getNeighbours (cl z.1) (anyGroup cl) cfg.adj else free cl) n =
          true → free cl n = true := by
        intro n hn
        split at hn
        · exact neighbour_free hn
        · exact hn
      generalize (if c.1 = true then getNeighbours (cl z.1) (anyGroup cl) cfg.adj else free cl) = cand
        at hb'' hcand
      split at hb''
      · left; rw [h1, h2, h3, mem_ret hb'']
      · obtain ⟨o, ho, b3, hb3, h4, -⟩ := mem_bind hb''
        right; left
        refine ⟨z.1, o.1, ?_, ?_, ?_⟩
        · exact hcand _ (mem_indices.mp (mem_uniform ho))
        · rw [count_eq_size] at hs; omega
        · rw [h1, h2, h3, h4, mem_ret hb3, count_eq_size]

theorem E_guard_uniform {c : Fin N → Bool} {cl y : Clus K N} (hne : cl ≠ y) (o : Fin N)
    (g : Fin N → Result (Clus K N)) (hg : ∀ n, (g n).new = y ↔ n = o) :
    prob (if count c = 0 then ret (reject cl) else bind (uniform (indices c)) fun n => ret (g n))
      (fun r => r.new = y) = if c o then 1 / (count c : ℝ) else 0 := by
  classical
  unfold prob
  by_cases h0 : count c = 0
  · rw [if_pos h0, E_ret]
    have := count_eq_zero.mp h0 o
    simp [reject, hne, this]
  · rw [if_neg h0, E_bind]
    simp only [E_ret, hg]
    by_cases hc : c o = true
    · rw [E_uniform_single (nodup_indices c) (mem_indices.mpr hc), length_indices]
      · simp [hc]
      · intro b _ hb; simp [hb]
    · rw [E_uniform_zero]
      · simp [hc]
      · intro b hb
        have : b ≠ o := by rintro rfl; exact hc (mem_indices.mp hb)
        simp [this]

theorem E_guard_zero {c : Fin N → Bool} {cl y : Clus K N} (hne : cl ≠ y)
    (g : Fin N → Result (Clus K N)) (hg : ∀ n, (g n).new ≠ y) :
    prob (if count c = 0 then ret (reject cl) else bind (uniform (indices c)) fun n => ret (g n))
      (fun r => r.new = y) = 0 := by
  classical
  unfold prob
  split
  · rw [E_ret]; simp [reject, hne]
  · rw [E_bind]
    refine E_eq_zero fun p' _ => ?_
    rw [E_ret]; simp [hg]

/-- Real probability of adding `o` to `z`. -/
theorem propMass_add {cfg : Cfg N} {cl : Clus K N} {z : Fin K} {o : Fin N}
    (hf : free cl o = true) (hs : size (cl z) < cfg.maxSize) :
    propMass (alterCluster cfg) cl (addObject cl z o) = 1 / (2 * (K : ℝ)) * growProb cfg cl z o := by
  classical
  have hall := free_iff.mp hf
  have hne : cl ≠ addObject cl z o := (addObject_ne (hall z)).symm
  have h1 : propMass (shrinkCluster cfg) cl (addObject cl z o) = 0 := by
    unfold propMass prob shrinkCluster
    rw [E_bind]
    refine E_eq_zero fun p _ => ?_
    try dsimp only
    split
    · rw [E_ret]; simp [reject, hne]
    · rw [E_bind]
      refine E_eq_zero fun p' _ => ?_
      rw [E_ret]; simp [remove_ne_add (hall z)]
  have h2 : propMass (growCluster cfg) cl (addObject cl z o) = 1 / (K : ℝ) * growProb cfg cl z o := by
    unfold propMass prob growCluster
    rw [E_bind, E_uniform_single (List.nodup_finRange K) (List.mem_finRange z)]
    · rw [List.length_finRange]
      congr 1
      try dsimp only
      rw [count_eq_size, if_neg (by omega), E_bind, E_bernoulli]
      have hg : ∀ n, (addObject cl z n = addObject cl z o) ↔ n = o := fun n =>
        ⟨fun e => (addObject_inj (hall z) e).2, fun e => by rw [e]⟩
      have e1 := E_guard_uniform (c := getNeighbours (cl z) (anyGroup cl) cfg.adj) hne o
        (fun n => ⟨addObject cl z n, growProb cfg cl z n, 1 / ((size (cl z) : ℝ) + 1)⟩) hg
      have e2 := E_guard_uniform (c := free cl) hne o
        (fun n => ⟨addObject cl z n, growProb cfg cl z n, 1 / ((size (cl z) : ℝ) + 1)⟩) hg
      unfold prob at e1 e2
      simp only [if_true, Bool.false_eq_true, if_false]
      rw [e1, e2, hf]
      unfold growProb
      try dsimp only
      split <;> simp <;> ring
    · intro b _ hb
      try dsimp only
      split
      · rw [E_ret]; simp [reject, hne]
      · rw [E_bind]
        refine E_eq_zero fun p _ => ?_
        exact E_guard_zero hne _ fun n e => hb (addObject_inj (hall z) e).1
  have := propMass_half (shrinkCluster cfg) (growCluster cfg) cl (addObject cl z o)
  unfold alterCluster
  rw [this, h1, h2]
  by_cases hK : (K : ℝ) = 0
  · simp [hK]
  · field_simp; ring

/-- Real probability of removing `o` from `z`. -/
theorem propMass_remove {cfg : Cfg N} {cl : Clus K N} {z : Fin K} {o : Fin N}
    (hz : cl z o = true) (hs : cfg.minSize < size (cl z)) :
    propMass (alterCluster cfg) cl (removeObject cl z o) =
      1 / (2 * (K : ℝ)) * (1 / (size (cl z) : ℝ)) := by
  classical
  have hne : cl ≠ removeObject cl z o := (removeObject_ne hz).symm
  have h1 : propMass (growCluster cfg) cl (removeObject cl z o) = 0 := by
    unfold propMass prob growCluster
    rw [E_bind]
    refine E_eq_zero fun p _ => ?_
    try dsimp only
    split
    · rw [E_ret]; simp [reject, hne]
    · rw [E_bind]
      refine E_eq_zero fun p' _ => ?_
      exact E_guard_zero hne _ fun n e => add_ne_remove hz e
  have h2 : propMass (shrinkCluster cfg) cl (removeObject cl z o) = 1 / (K : ℝ) * (1 / (size (cl z) : ℝ)) := by
    unfold propMass prob shrinkCluster
    rw [E_bind, E_uniform_single (List.nodup_finRange K) (List.mem_finRange z)]
    · rw [List.length_finRange]
      congr 1
      try dsimp only
      rw [count_eq_size, if_neg (by omega), E_bind,
        E_uniform_single (nodup_indices (cl z)) (mem_indices.mpr hz)]
      · rw [E_ret, length_indices, count_eq_size]; simp
      · intro b _ hb
        rw [E_ret]
        have : removeObject cl z b ≠ removeObject cl z o := fun e => hb (removeObject_inj hz e).2
        simp [this]
    · intro b _ hb
      try dsimp only
      split
      · rw [E_ret]; simp [reject, hne]
      · rw [E_bind]
        refine E_eq_zero fun p _ => ?_
        rw [E_ret]
        have : removeObject cl b p.1 ≠ removeObject cl z o := fun e => hb (removeObject_inj hz e).1
        simp [this]
  have := propMass_half (shrinkCluster cfg) (growCluster cfg) cl (removeObject cl z o)
  unfold alterCluster
  rw [this, h1, h2]
  by_cases hK : (K : ℝ) = 0
  · simp [hK]
  · field_simp; ring

theorem alterCluster_reports (cfg : Cfg N) :
    ReportsRealMasses (Valid cfg.minSize cfg.maxSize) (alterCluster (K := K) cfg) (1 / (2 * (K : ℝ))) := by
  intro cl hv r w hr _ hne
  rcases alterCluster_cases hr with rfl | ⟨z, o, hf, hs, rfl⟩ | ⟨z, o, hz, hs, rfl⟩
  · exact absurd rfl hne
  · have hz : cl z o = false := free_iff.mp hf z
    refine ⟨valid_add hv hf hs, propMass_add hf hs, ?_⟩
    have hsz := size_add hz
    have := propMass_remove (cfg := cfg) (addObject_self cl z o) (by have := hv.lower z; omega)
    rw [remove_add hz, hsz] at this
    push_cast at this
    exact this
  · refine ⟨valid_remove hv hz hs, propMass_remove hz hs, ?_⟩
    have hsz := size_remove hz
    have := propMass_add (cfg := cfg) (cl := removeObject cl z o) (z := z) (free_remove hv hz) (by have := hv.upper z; omega)
    rwa [add_remove hz] at this

theorem isDist_guard {cl : Clus K N} {c : Fin N → Bool} (g : Fin N → Result (Clus K N)) :
    IsDist (if count c = 0 then ret (reject cl) else bind (uniform (indices c)) fun n => ret (g n)) := by
  split
  · exact isDist_ret _
  · rename_i h
    exact isDist_bind (isDist_uniform (indices_ne_nil.mpr h)) fun _ _ => isDist_ret _

theorem finRange_ne_nil (h : 0 < K) : List.finRange K ≠ [] := by
  intro e; have := congrArg List.length e; simp at this; omega

theorem alterCluster_isDist (cfg : Cfg N) (hK : 0 < K) (h0 : 0 ≤ cfg.pConn) (h1 : cfg.pConn ≤ 1)
    (cl : Clus K N) : IsDist (alterCluster cfg cl) := by
  refine isDist_half ?_ ?_
  · refine isDist_bind (isDist_uniform (finRange_ne_nil hK)) fun z _ => ?_
    try dsimp only
    split
    · exact isDist_ret _
    · rename_i h
      refine isDist_bind (isDist_uniform (indices_ne_nil.mpr (by omega))) fun o _ => isDist_ret _
  · refine isDist_bind (isDist_uniform (finRange_ne_nil hK)) fun z _ => ?_
    try dsimp only
    split
    · exact isDist_ret _
    · exact isDist_bind (isDist_bernoulli h0 h1) fun c _ => isDist_guard _

end SBayes.Clusters
