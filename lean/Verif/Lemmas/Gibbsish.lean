import Verif.Lemmas.AlterCluster
set_option linter.unusedSectionVars false
/- The operators `AlterClusterGibbsish` and `AlterClusterGibbsish2`: real proposal probabilities. -/
namespace SBayes.Clusters
open SBayes.Lik SBayes.MH
variable {K N : ℕ}

/-- The cluster posterior does not depend on the current clusters and lies strictly between 0 and 1. -/
structure GoodPost (post : Clus K N → Fin K → Fin N → ℝ) : Prop where
  indep : ∀ x y z n, post x z n = post y z n
  pos : ∀ x z n, 0 < post x z n
  lt_one : ∀ x z n, post x z n < 1

/-- Probability of adding `o` to `z`. -/
noncomputable def pAdd (post : Clus K N → Fin K → Fin N → ℝ) (cl : Clus K N) (z : Fin K) (o : Fin N) : ℝ :=
  normalizeVec (fun n => post cl z n * ind (free cl n)) o

/-- Probability of removing `o` from `z`. -/
noncomputable def pRemove (post : Clus K N → Fin K → Fin N → ℝ) (cl : Clus K N) (z : Fin K) (o : Fin N) : ℝ :=
  normalizeVec (fun n => (1 - post cl z n) * ind (cl z n)) o

theorem gibbsish_cases {cfg : Cfg N} {post : Clus K N → Fin K → Fin N → ℝ} {cl : Clus K N}
    {r : Result (Clus K N)} {w : ℝ} (h : (r, w) ∈ gibbsish cfg post cl) :
    r = reject cl ∨
    (∃ z o, (w ≠ 0 → pAdd post cl z o ≠ 0) ∧ size (cl z) ≠ cfg.maxSize ∧
      r = ⟨addObject cl z o, pAdd post cl z o,
        normalizeVec (fun n => (1 - post cl z n) * ind (addObject cl z o z n)) o⟩) ∨
    (∃ z o, (w ≠ 0 → pRemove post cl z o ≠ 0) ∧ size (cl z) ≠ cfg.minSize ∧
      r = ⟨removeObject cl z o, pRemove post cl z o,
        normalizeVec (fun n => post cl z n * ind (free (removeObject cl z o) n)) o⟩) := by
  unfold gibbsish at h
  obtain ⟨s, -, b, hb, h1, hw1⟩ := mem_bind h
  simp only at h1 hw1
  split at hb
  · unfold gibbsishShrink at hb
    obtain ⟨z, hz, b', hb', h2, hw2⟩ := mem_bind hb
    split at hb'
    · left; rw [h1, h2, mem_ret hb']
    · rename_i hs
      right; right
      obtain ⟨o, ho, b'', hb'', h3, hw3⟩ := mem_bind hb'
      refine ⟨z.1, o.1, ?_, ?_, ?_⟩
      · intro hw e
        apply hw
        rw [hw1, hw2, hw3, (mem_choice ho).2, show normalizeVec _ o.1 = 0 from e]; ring
      · rwa [count_eq_size] at hs
      · rw [h1, h2, h3, mem_ret hb'']; rfl
  · unfold gibbsishGrow at hb
    obtain ⟨z, hz, b', hb', h2, hw2⟩ := mem_bind hb
    split at hb'
    · left; rw [h1, h2, mem_ret hb']
    · split at hb'
      · left; rw [h1, h2, mem_ret hb']
      · rename_i hs
        right; left
        obtain ⟨o, ho, b'', hb'', h3, hw3⟩ := mem_bind hb'
        refine ⟨z.1, o.1, ?_, ?_, ?_⟩
        · intro hw e
          apply hw
          rw [hw1, hw2, hw3, (mem_choice ho).2, show normalizeVec _ o.1 = 0 from e]; ring
        · rwa [count_eq_size] at hs
        · rw [h1, h2, h3, mem_ret hb'']; rfl

theorem free_of_pAdd {post : Clus K N → Fin K → Fin N → ℝ} {cl : Clus K N} {z : Fin K} {o : Fin N}
    (h : pAdd post cl z o ≠ 0) : free cl o = true := by
  by_contra h'
  apply h
  simp [pAdd, normalizeVec, ind, h']

theorem mem_of_pRemove {post : Clus K N → Fin K → Fin N → ℝ} {cl : Clus K N} {z : Fin K} {o : Fin N}
    (h : pRemove post cl z o ≠ 0) : cl z o = true := by
  by_contra h'
  apply h
  simp [pRemove, normalizeVec, ind, h']

theorem gibbsish_propMass_add {cfg : Cfg N} {post : Clus K N → Fin K → Fin N → ℝ} {cl : Clus K N}
    {z : Fin K} {o : Fin N} (hf : free cl o = true) (hs : size (cl z) ≠ cfg.maxSize) :
    propMass (gibbsish cfg post) cl (addObject cl z o) = 1 / (2 * (K : ℝ)) * pAdd post cl z o := by
  classical
  have hall := free_iff.mp hf
  have hne : cl ≠ addObject cl z o := (addObject_ne (hall z)).symm
  have h1 : propMass (gibbsishShrink cfg post) cl (addObject cl z o) = 0 := by
    unfold propMass prob gibbsishShrink
    rw [E_bind]
    refine E_eq_zero fun p _ => ?_
    split
    · rw [E_ret]; simp [reject, hne]
    · rw [E_bind]
      refine E_eq_zero fun p' _ => ?_
      rw [E_ret]; simp [remove_ne_add (hall z)]
  have h0 : count (free cl) ≠ 0 := fun e => by
    have := count_eq_zero.mp e o; rw [hf] at this; cases this
  have h2 : propMass (gibbsishGrow cfg post) cl (addObject cl z o) = 1 / (K : ℝ) * pAdd post cl z o := by
    unfold propMass prob gibbsishGrow
    rw [E_bind, E_uniform_single (List.nodup_finRange K) (List.mem_finRange z)]
    · rw [List.length_finRange]
      congr 1
      rw [if_neg h0, count_eq_size, if_neg hs, E_bind, E_supported o]
      · rw [prob_choice (List.nodup_finRange N), if_pos (List.mem_finRange o), E_ret]
        simp only [if_true, mul_one]
        rfl
      · intro p _ hp
        rw [E_ret]
        have : addObject cl z p.1 ≠ addObject cl z o := fun e => hp (addObject_inj (hall z) e).2
        simp [this]
    · intro b _ hb
      rw [if_neg h0]
      split
      · rw [E_ret]; simp [reject, hne]
      · rw [E_bind]
        refine E_eq_zero fun p _ => ?_
        rw [E_ret]
        have : addObject cl b p.1 ≠ addObject cl z o := fun e => hb (addObject_inj (hall z) e).1
        simp [this]
  have := propMass_half (gibbsishShrink cfg post) (gibbsishGrow cfg post) cl (addObject cl z o)
  unfold gibbsish
  rw [this, h1, h2]
  by_cases hK : (K : ℝ) = 0
  · simp [hK]
  · field_simp; ring

theorem gibbsish_propMass_remove {cfg : Cfg N} {post : Clus K N → Fin K → Fin N → ℝ} {cl : Clus K N}
    {z : Fin K} {o : Fin N} (hz : cl z o = true) (hs : size (cl z) ≠ cfg.minSize) :
    propMass (gibbsish cfg post) cl (removeObject cl z o) = 1 / (2 * (K : ℝ)) * pRemove post cl z o := by
  classical
  have hne : cl ≠ removeObject cl z o := (removeObject_ne hz).symm
  have h1 : propMass (gibbsishGrow cfg post) cl (removeObject cl z o) = 0 := by
    unfold propMass prob gibbsishGrow
    rw [E_bind]
    refine E_eq_zero fun p _ => ?_
    split
    · rw [E_ret]; simp [reject, hne]
    · split
      · rw [E_ret]; simp [reject, hne]
      · rw [E_bind]
        refine E_eq_zero fun p' _ => ?_
        rw [E_ret]; simp [add_ne_remove hz]
  have h2 : propMass (gibbsishShrink cfg post) cl (removeObject cl z o) = 1 / (K : ℝ) * pRemove post cl z o := by
    unfold propMass prob gibbsishShrink
    rw [E_bind, E_uniform_single (List.nodup_finRange K) (List.mem_finRange z)]
    · rw [List.length_finRange]
      congr 1
      rw [count_eq_size, if_neg hs, E_bind, E_supported o]
      · rw [prob_choice (List.nodup_finRange N), if_pos (List.mem_finRange o), E_ret]
        simp only [if_true, mul_one]
        rfl
      · intro p _ hp
        rw [E_ret]
        have : removeObject cl z p.1 ≠ removeObject cl z o := fun e => hp (removeObject_inj hz e).2
        simp [this]
    · intro b _ hb
      split
      · rw [E_ret]; simp [reject, hne]
      · rw [E_bind]
        refine E_eq_zero fun p _ => ?_
        rw [E_ret]
        have : removeObject cl b p.1 ≠ removeObject cl z o := fun e => hb (removeObject_inj hz e).1
        simp [this]
  have := propMass_half (gibbsishShrink cfg post) (gibbsishGrow cfg post) cl (removeObject cl z o)
  unfold gibbsish
  rw [this, h1, h2]
  by_cases hK : (K : ℝ) = 0
  · simp [hK]
  · field_simp; ring

theorem gibbsish_reports (cfg : Cfg N) {post : Clus K N → Fin K → Fin N → ℝ}
    (hp : ∀ x y z n, post x z n = post y z n) :
    ReportsRealMasses (Valid cfg.minSize cfg.maxSize) (gibbsish cfg post) (1 / (2 * (K : ℝ))) := by
  intro cl hv r w hr hw hne
  rcases gibbsish_cases hr with rfl | ⟨z, o, hf, hs, rfl⟩ | ⟨z, o, hz, hs, rfl⟩
  · exact absurd rfl hne
  · have hf := free_of_pAdd (hf hw)
    have hz : cl z o = false := free_iff.mp hf z
    refine ⟨valid_add hv hf (by have := hv.upper z; omega), gibbsish_propMass_add hf hs, ?_⟩
    have hsz := size_add hz
    have := gibbsish_propMass_remove (cfg := cfg) (post := post) (addObject_self cl z o)
      (by have := hv.lower z; omega)
    rw [remove_add hz] at this
    rw [this]
    unfold pRemove
    simp only [hp (addObject cl z o) cl]
  · have hz := mem_of_pRemove (hz hw)
    refine ⟨valid_remove hv hz (by have := hv.lower z; omega), gibbsish_propMass_remove hz hs, ?_⟩
    have hsz := size_remove hz
    have := gibbsish_propMass_add (cfg := cfg) (post := post) (cl := removeObject cl z o) (z := z)
      (free_remove hv hz) (by have := hv.upper z; omega)
    rw [add_remove hz] at this
    rw [this]
    unfold pAdd
    simp only [hp (removeObject cl z o) cl]

theorem isDist_normalize {x : Fin N → ℝ} (h0 : ∀ n, 0 ≤ x n) {o : Fin N} (h1 : 0 < x o) :
    IsDist (choice (List.finRange N) (normalizeVec x)) := by
  have hs : 0 < ((List.finRange N).map x).sum := by
    rw [← List.ofFn_eq_map, List.sum_ofFn]
    exact Finset.sum_pos' (fun n _ => h0 n) ⟨o, Finset.mem_univ o, h1⟩
  refine isDist_choice (fun n _ => div_nonneg (h0 n) hs.le) ?_
  unfold normalizeVec
  simp only [div_eq_mul_inv]
  rw [List.sum_map_mul_right, mul_inv_cancel₀ hs.ne']

theorem gibbsish_isDist (cfg : Cfg N) {post : Clus K N → Fin K → Fin N → ℝ} (hp : GoodPost post)
    (hK : 0 < K) (cl : Clus K N) (hv : Valid cfg.minSize cfg.maxSize cl) :
    IsDist (gibbsish cfg post cl) := by
  have hind : ∀ b : Bool, 0 ≤ ind b := fun b => by cases b <;> simp [ind]
  refine isDist_half ?_ ?_
  · refine isDist_bind (isDist_uniform (finRange_ne_nil hK)) fun z _ => ?_
    split
    · exact isDist_ret _
    · rename_i h
      have hlo := hv.lower z.1
      rw [count_eq_size] at h
      have : count (cl z.1) ≠ 0 := by rw [count_eq_size]; omega
      obtain ⟨o, ho⟩ : ∃ o, cl z.1 o = true := by
        by_contra hh; push Not at hh
        exact this (count_eq_zero.mpr fun n => by simpa using hh n)
      refine isDist_bind (isDist_normalize (o := o) ?_ ?_) fun _ _ => isDist_ret _
      · intro n; exact mul_nonneg (by have := hp.lt_one cl z.1 n; linarith) (hind _)
      · rw [ho]; have := hp.lt_one cl z.1 o; simp [ind]; exact this
  · refine isDist_bind (isDist_uniform (finRange_ne_nil hK)) fun z _ => ?_
    split
    · exact isDist_ret _
    · split
      · exact isDist_ret _
      · rename_i h _
        obtain ⟨o, ho⟩ : ∃ o, free cl o = true := by
          by_contra hh; push Not at hh
          exact h (count_eq_zero.mpr fun n => by simpa using hh n)
        refine isDist_bind (isDist_normalize (o := o) ?_ ?_) fun _ _ => isDist_ret _
        · intro n; exact mul_nonneg (hp.pos cl z.1 n).le (hind _)
        · rw [ho]; simpa [ind] using hp.pos cl z.1 o

/-! ### The all-at-once operator -/

/-- Redraw row `z` on the available objects. -/
def redraw (cl : Clus K N) (z : Fin K) (v : Fin N → Bool) : Clus K N :=
  fun k n => if k = z ∧ available cl z n = true then v n else cl k n

/-- Product of the Bernoulli probabilities of `v` on the available objects. -/
noncomputable def rowProb (post : Clus K N → Fin K → Fin N → ℝ) (cl : Clus K N) (z : Fin K)
    (v : Fin N → Bool) : ℝ :=
  ((indices (available cl z)).map fun n => post cl z n * ind (v n) + (1 - post cl z n) * (1 - ind (v n))).prod

theorem gibbsish2_cases {cfg : Cfg N} {post : Clus K N → Fin K → Fin N → ℝ} {cl : Clus K N}
    {r : Result (Clus K N)} {w : ℝ} (h : (r, w) ∈ gibbsish2 cfg post cl) :
    r = reject cl ∨
    (∃ z v, (∀ n, available cl z n = false → v n = false) ∧ cfg.minSize ≤ size v ∧ size v ≤ cfg.maxSize ∧
      (∃ n, available cl z n = true ∧ v n ≠ cl z n) ∧
      r = ⟨redraw cl z v, rowProb post cl z v, rowProb post cl z (cl z)⟩) := by
  unfold gibbsish2 at h
  obtain ⟨z, hz, b, hb, h1, -⟩ := mem_bind h
  simp only at h1
  obtain ⟨v, hv, b', hb', h2, -⟩ := mem_bind hb
  obtain ⟨hv1, -⟩ := mem_indep _ _ (nodup_indices _) _ _ hv
  have hav : ∀ n, available cl z.1 n = false → v.1 n = false := fun n hn =>
    hv1 n fun hm => by rw [mem_indices.mp hm] at hn; cases hn
  have hcv : (fun n => available cl z.1 n && v.1 n) = v.1 := by
    funext n
    by_cases h : available cl z.1 n = true
    · simp [h]
    · simp [h, hav n (by simpa using h)]
  dsimp only at hb'
  rw [hcv, count_eq_size] at hb'
  split at hb'
  · left; rw [h1, h2, mem_ret hb']
  · split at hb'
    · left; rw [h1, h2, mem_ret hb']
    · right
      rename_i hs hne
      push Not at hs
      refine ⟨z.1, v.1, hav, hs.1, hs.2, ?_, ?_⟩
      · simp only [List.all_eq_true, mem_indices, beq_iff_eq] at hne
        push Not at hne
        exact hne
      · rw [h1, h2, mem_ret hb']; rfl

theorem available_other {cl : Clus K N} {lo hi : ℕ} (hv : Valid lo hi cl) {z k : Fin K} (hk : k ≠ z)
    {n : Fin N} (ha : available cl z n = true) : cl k n = false := by
  unfold available at ha
  rcases Bool.or_eq_true_iff.mp ha with h | h
  · exact free_iff.mp h k
  · by_contra h'
    exact hk (hv.disjoint k z n (by simpa using h') h)

theorem not_available {cl : Clus K N} {z : Fin K} {n : Fin N} (ha : available cl z n = false) :
    cl z n = false ∧ ∃ k, k ≠ z ∧ cl k n = true := by
  unfold available at ha
  obtain ⟨h1, h2⟩ := Bool.or_eq_false_iff.mp ha
  refine ⟨h2, ?_⟩
  have : ¬ ∀ k, cl k n = false := fun h => by rw [free_iff.mpr h] at h1; cases h1
  push Not at this
  obtain ⟨k, hk⟩ := this
  exact ⟨k, by rintro rfl; exact hk h2, by simpa using hk⟩

theorem redraw_row {cl : Clus K N} {z : Fin K} {v : Fin N → Bool}
    (hv : ∀ n, available cl z n = false → v n = false) : redraw cl z v z = v := by
  funext n
  unfold redraw
  by_cases h : available cl z n = true
  · simp [h]
  · have h : available cl z n = false := by simpa using h
    simp [h, hv n h, (not_available h).1]

theorem redraw_other {cl : Clus K N} {z k : Fin K} {v : Fin N → Bool} (hk : k ≠ z) :
    redraw cl z v k = cl k := by
  funext n; unfold redraw; rw [if_neg fun e => hk e.1]

theorem valid_redraw {lo hi : ℕ} {cl : Clus K N} (hc : Valid lo hi cl) {z : Fin K} {v : Fin N → Bool}
    (hv : ∀ n, available cl z n = false → v n = false) (h1 : lo ≤ size v) (h2 : size v ≤ hi) :
    Valid lo hi (redraw cl z v) := by
  have key : ∀ k n, k ≠ z → cl k n = true → v n = false := by
    intro k n hk h
    apply hv
    by_contra h'
    rw [available_other hc hk (by simpa using h')] at h; cases h
  constructor
  · intro i j n hi hj
    by_cases ei : i = z <;> by_cases ej : j = z
    · rw [ei, ej]
    · subst ei; rw [redraw_row hv] at hi; rw [redraw_other ej] at hj
      rw [key j n ej hj] at hi; cases hi
    · subst ej; rw [redraw_row hv] at hj; rw [redraw_other ei] at hi
      rw [key i n ei hi] at hj; cases hj
    · rw [redraw_other ei] at hi; rw [redraw_other ej] at hj; exact hc.disjoint i j n hi hj
  · intro k
    by_cases e : k = z
    · subst e; rw [redraw_row hv]; exact h1
    · rw [redraw_other e]; exact hc.lower k
  · intro k
    by_cases e : k = z
    · subst e; rw [redraw_row hv]; exact h2
    · rw [redraw_other e]; exact hc.upper k

theorem available_redraw {lo hi : ℕ} {cl : Clus K N} (hc : Valid lo hi cl) {z : Fin K} {v : Fin N → Bool}
    (hv : ∀ n, available cl z n = false → v n = false) :
    available (redraw cl z v) z = available cl z := by
  funext n
  by_cases h : available cl z n = true
  · rw [h]
    unfold available
    by_cases hvn : redraw cl z v z n = true
    · simp [hvn]
    · rw [Bool.or_eq_true_iff]; left
      rw [free_iff]
      intro k
      by_cases e : k = z
      · subst e; simpa using hvn
      · rw [redraw_other e]; exact available_other hc e h
  · have h : available cl z n = false := by simpa using h
    rw [h]
    obtain ⟨h1, k, hk, hkn⟩ := not_available h
    unfold available
    rw [Bool.or_eq_false_iff]
    constructor
    · by_contra h'
      have := free_iff.mp (by simpa using h') k
      rw [redraw_other hk, hkn] at this; cases this
    · rw [redraw_row hv]; exact hv n h

theorem redraw_redraw {lo hi : ℕ} {cl : Clus K N} (hc : Valid lo hi cl) {z : Fin K} {v : Fin N → Bool}
    (hv : ∀ n, available cl z n = false → v n = false) : redraw (redraw cl z v) z (cl z) = cl := by
  funext k
  by_cases e : k = z
  · subst e
    apply redraw_row
    intro n hn
    rw [available_redraw hc hv] at hn
    exact (not_available hn).1
  · rw [redraw_other e, redraw_other e]

theorem gibbsish2_propMass {cfg : Cfg N} {post : Clus K N → Fin K → Fin N → ℝ} {cl : Clus K N}
    {z : Fin K} {v : Fin N → Bool}
    (hv : ∀ n, available cl z n = false → v n = false) (h1 : cfg.minSize ≤ size v)
    (h2 : size v ≤ cfg.maxSize) (hne : v ≠ cl z) :
    propMass (gibbsish2 cfg post) cl (redraw cl z v) = 1 / (K : ℝ) * rowProb post cl z v := by
  classical
  have hne' : cl ≠ redraw cl z v := fun e => hne (by rw [← redraw_row hv, ← e])
  unfold propMass prob gibbsish2
  rw [E_bind, E_uniform_single (List.nodup_finRange K) (List.mem_finRange z)]
  · rw [List.length_finRange]
    congr 1
    rw [E_bind, E_supported v]
    · have hcv : (fun n => available cl z n && v n) = v := by
        funext n
        by_cases h : available cl z n = true
        · simp [h]
        · simp [h, hv n (by simpa using h)]
      have hall : ¬ ((indices (available cl z)).all (fun n => v n == cl z n)) = true := by
        simp only [List.all_eq_true, mem_indices, beq_iff_eq]
        intro hh
        apply hne
        funext n
        by_cases h : available cl z n = true
        · exact hh n h
        · have h : available cl z n = false := by simpa using h
          rw [hv n h, (not_available h).1]
      dsimp only
      rw [hcv, count_eq_size, if_neg (not_not.mpr ⟨h1, h2⟩), if_neg hall, E_ret,
        prob_indep _ _ (nodup_indices _), if_pos, if_pos]
      · rw [mul_one]
        unfold rowProb
        congr 1
        refine List.map_congr_left fun n _ => ?_
        rw [prob_bernoulli]
        cases v n <;> simp [ind]
      · rfl
      · intro n hn
        apply hv
        by_contra h
        exact hn (mem_indices.mpr (by simpa using h))
    · intro p hp hpv
      obtain ⟨hp1, -⟩ := mem_indep _ _ (nodup_indices _) _ _ hp
      have hp2 : ∀ n, available cl z n = false → p.1 n = false := fun n hn =>
        hp1 n fun hm => by rw [mem_indices.mp hm] at hn; cases hn
      dsimp only
      split
      · rw [E_ret]; simp [reject, hne']
      · split
        · rw [E_ret]; simp [reject, hne']
        · rw [E_ret]
          have : redraw cl z p.1 ≠ redraw cl z v := fun e => hpv (by
            rw [← redraw_row hp2, e, redraw_row hv])
          exact if_neg this
  · intro b _ hb
    rw [E_bind]
    refine E_eq_zero fun p _ => ?_
    dsimp only
    split
    · rw [E_ret]; simp [reject, hne']
    · split
      · rw [E_ret]; simp [reject, hne']
      · rw [E_ret]
        have : redraw cl b p.1 ≠ redraw cl z v := fun e => by
          apply hne
          have := congrFun e z
          rw [redraw_row hv, redraw_other (Ne.symm hb)] at this
          exact this.symm
        exact if_neg this

theorem gibbsish2_reports (cfg : Cfg N) {post : Clus K N → Fin K → Fin N → ℝ}
    (hp : ∀ x y z n, post x z n = post y z n) :
    ReportsRealMasses (Valid cfg.minSize cfg.maxSize) (gibbsish2 cfg post) (1 / (K : ℝ)) := by
  intro cl hc r w hr _ hne
  rcases gibbsish2_cases hr with rfl | ⟨z, v, hv, h1, h2, ⟨n, hn, hn'⟩, rfl⟩
  · exact absurd rfl hne
  · have hvne : v ≠ cl z := fun e => hn' (by rw [e])
    refine ⟨valid_redraw hc hv h1 h2, gibbsish2_propMass hv h1 h2 hvne, ?_⟩
    have := gibbsish2_propMass (cfg := cfg) (post := post) (cl := redraw cl z v) (z := z) (v := cl z)
      (fun n hn => by rw [available_redraw hc hv] at hn; exact (not_available hn).1)
      (hc.lower z) (hc.upper z) (by rw [redraw_row hv]; exact hvne.symm)
    rw [redraw_redraw hc hv] at this
    rw [this]
    unfold rowProb
    rw [available_redraw hc hv]
    congr 2
    refine List.map_congr_left fun n _ => ?_
    rw [hp (redraw cl z v) cl]

theorem gibbsish2_isDist (cfg : Cfg N) {post : Clus K N → Fin K → Fin N → ℝ}
    (h0 : ∀ x z n, 0 ≤ post x z n) (h1 : ∀ x z n, post x z n ≤ 1)
    (hK : 0 < K) (cl : Clus K N) : IsDist (gibbsish2 cfg post cl) := by
  refine isDist_bind (isDist_uniform (finRange_ne_nil hK)) fun z _ => ?_
  refine isDist_bind (isDist_indep _ _ (fun n _ => isDist_bernoulli (h0 _ _ n) (h1 _ _ n)) _) fun v _ => ?_
  dsimp only
  split
  · exact isDist_ret _
  · split <;> exact isDist_ret _

end SBayes.Clusters
