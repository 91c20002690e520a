import Verif.Lemmas.ErgoCont
/- Redistributing the mass of some entries of a probability vector. -/
namespace SBayes.Meas
set_option linter.unusedSectionVars false
open SBayes.Effects SBayes.Draws MeasureTheory
open scoped BigOperators ENNReal

variable {C : ℕ} {B : Finset (Fin C)} {i j : Fin C} {v u : Fin C → ℝ}

/-- The mass of the entries `B` is shared out as in `u`. -/
noncomputable def spread (B : Finset (Fin C)) (v u : Fin C → ℝ) : Fin C → ℝ := fun k => if k ∈ B then (∑ l ∈ B, v l) * u k else v k

theorem spread_mem {k : Fin C} (h : k ∈ B) : spread B v u k = (∑ l ∈ B, v l) * u k := if_pos h

theorem spread_not {k : Fin C} (h : k ∉ B) : spread B v u k = v k := if_neg h

theorem meas_spread (B : Finset (Fin C)) : Measurable (Function.uncurry (spread B)) := by
  rw [measurable_pi_iff]
  intro k
  by_cases h : k ∈ B
  · have : (fun p : (Fin C → ℝ) × (Fin C → ℝ) => Function.uncurry (spread B) p k) = fun p => (∑ l ∈ B, p.1 l) * p.2 k :=
      funext fun p => spread_mem h
    rw [this]; fun_prop
  · have : (fun p : (Fin C → ℝ) × (Fin C → ℝ) => Function.uncurry (spread B) p k) = fun p => p.1 k :=
      funext fun p => spread_not h
    rw [this]; fun_prop

theorem Row.sum_on (hu : Row B u) : ∑ k ∈ B, u k = 1 := by
  rw [← hu.2]
  exact Finset.sum_subset (Finset.subset_univ B) fun k _ hk => hu.zero hk

theorem sum_spread (hu : Row B u) : ∑ k ∈ B, spread B v u k = ∑ k ∈ B, v k := by
  rw [Finset.sum_congr rfl fun k hk => spread_mem hk, ← Finset.mul_sum, hu.sum_on, mul_one]

theorem Row.sum_pos (hv : Row Finset.univ v) (hB : B.Nonempty) : 0 < ∑ k ∈ B, v k :=
  Finset.sum_pos (fun k _ => hv.pos (Finset.mem_univ k)) hB

theorem Row.spread (hv : Row Finset.univ v) (hB : B.Nonempty) (hu : Row B u) : Row Finset.univ (spread B v u) := by
  refine ⟨fun k => ?_, ?_⟩
  · rw [if_pos (Finset.mem_univ k)]
    by_cases h : k ∈ B
    · rw [spread_mem h]; exact mul_pos (hv.sum_pos hB) (hu.pos h)
    · rw [spread_not h]; exact hv.pos (Finset.mem_univ k)
  · have h1 := Finset.sum_add_sum_compl B (Meas.spread B v u)
    have h2 := Finset.sum_add_sum_compl B v
    rw [← h1, sum_spread hu, Finset.sum_congr rfl fun k hk => spread_not (Finset.mem_compl.mp hk), h2]
    exact hv.2

theorem spread_single {k : Fin C} (hu : Row {k} u) : spread {k} v u = v := by
  funext l
  by_cases h : l ∈ ({k} : Finset (Fin C))
  · rw [spread_mem h, Finset.sum_singleton]
    rw [Finset.mem_singleton] at h
    subst h
    have := hu.sum_on
    rw [Finset.sum_singleton] at this
    rw [this, mul_one]
  · exact spread_not h

theorem spread_univ (hv : Row Finset.univ v) : spread Finset.univ v u = u := by
  funext k
  rw [spread_mem (Finset.mem_univ k), hv.2, one_mul]

theorem along_spread_in (hi : i ∈ B) (hj : j ∈ B) (t : ℝ) : along (spread B v u) i j t = spread B v (along u i j t) := by
  funext k
  unfold along
  rw [spread_mem hi, spread_mem hj]
  by_cases hkj : k = j
  · subst hkj
    rw [Function.update_self, spread_mem hj, Function.update_self]; ring
  by_cases hki : k = i
  · subst hki
    rw [Function.update_of_ne hkj, Function.update_self, spread_mem hi, Function.update_of_ne hkj, Function.update_self]; ring
  rw [Function.update_of_ne hkj, Function.update_of_ne hki]
  by_cases hk : k ∈ B
  · rw [spread_mem hk, spread_mem hk, Function.update_of_ne hkj, Function.update_of_ne hki]
  · rw [spread_not hk, spread_not hk]

theorem along_spread_out (hi : i ∉ B) (hj : j ∉ B) (t : ℝ) : along (spread B v u) i j t = spread B (along v i j t) u := by
  have hs : ∑ l ∈ B, along v i j t l = ∑ l ∈ B, v l := Finset.sum_congr rfl fun l hl => by
    unfold along
    have h1 : l ≠ j := fun h => hj (h ▸ hl)
    have h2 : l ≠ i := fun h => hi (h ▸ hl)
    rw [Function.update_of_ne h1, Function.update_of_ne h2]
  funext k
  by_cases hk : k ∈ B
  · rw [spread_mem hk, hs]
    unfold along
    have h1 : k ≠ j := fun h => hj (h ▸ hk)
    have h2 : k ≠ i := fun h => hi (h ▸ hk)
    rw [Function.update_of_ne h1, Function.update_of_ne h2, spread_mem hk]
  · rw [spread_not hk]
    unfold along
    rw [spread_not hi, spread_not hj]
    by_cases hkj : k = j
    · subst hkj; rw [Function.update_self, Function.update_self]
    by_cases hki : k = i
    · subst hki; rw [Function.update_of_ne hkj, Function.update_self, Function.update_of_ne hkj, Function.update_self]
    rw [Function.update_of_ne hkj, Function.update_of_ne hki, Function.update_of_ne hkj, Function.update_of_ne hki, spread_not hk]

theorem sum_along_out (hi : i ∉ B) (hj : j ∉ B) (t : ℝ) : ∑ l ∈ B, along v i j t l = ∑ l ∈ B, v l :=
  Finset.sum_congr rfl fun l hl => by
    unfold along
    have h1 : l ≠ j := fun h => hj (h ▸ hl)
    have h2 : l ≠ i := fun h => hi (h ▸ hl)
    rw [Function.update_of_ne h1, Function.update_of_ne h2]

theorem sum_along_in (hi : i ∈ B) (hj : j ∈ B) (hij : i ≠ j) (t : ℝ) : ∑ l ∈ B, along v i j t l = ∑ l ∈ B, v l := by
  have h1 := Finset.sum_add_sum_compl B (along v i j t)
  have h2 := Finset.sum_add_sum_compl B v
  have h3 : ∑ k, along v i j t k = ∑ k, v k := Meas.sum_along hij v t
  have h4 : ∑ l ∈ Bᶜ, along v i j t l = ∑ l ∈ Bᶜ, v l :=
    sum_along_out (B := Bᶜ) (by simpa using hi) (by simpa using hj) t
  linarith

/-- What holds almost everywhere, holds almost everywhere for multiples. -/
theorem base_ae_scale (A : Finset (Fin C)) {c : ℝ} (hc : 0 < c) {P : (Fin C → ℝ) → Prop} (h : ∀ᵐ x ∂base A, P x) :
    ∀ᵐ x ∂base A, P (c • x) := by
  obtain ⟨s, hsub, hsm, h0⟩ := exists_measurable_superset_of_null (ae_iff.mp h)
  rw [base_scale A hc, Measure.smul_apply, smul_eq_mul, Measure.map_apply (measurable_const_smul c) hsm, mul_eq_zero] at h0
  have : base A ((fun x : Fin C → ℝ => c • x) ⁻¹' s) = 0 := h0.resolve_left (by
    rw [ENNReal.ofReal_eq_zero, not_le]; positivity)
  refine (measure_eq_zero_iff_ae_notMem.mp this).mono fun x hx => ?_
  by_contra hP
  exact hx (hsub hP)

theorem base_ae_erase {A : Finset (Fin C)} {p : Fin C} (hp : p ∈ A) {P : (Fin C → ℝ) → Prop} (h : ∀ᵐ x ∂base A, P x) :
    ∀ᵐ x ∂base (A.erase p), ∀ᵐ a ∂volume.restrict (Set.Ioi (0 : ℝ)), P (Function.update x p a) := by
  obtain ⟨s, hsub, hsm, h0⟩ := exists_measurable_superset_of_null (ae_iff.mp h)
  rw [base_erase hp, Measure.map_apply (measurable_update_pair (X := fun _ : Fin C => ℝ) p) hsm] at h0
  have h1 := Measure.ae_ae_of_ae_prod (measure_eq_zero_iff_ae_notMem.mp h0)
  filter_upwards [h1] with x hx
  refine hx.mono fun a ha => ?_
  by_contra hP
  exact ha (hsub hP)

/-- Sharing out the mass of `B`, and then that of one entry in `B` and one outside `B`, is no more special than sharing out the mass of
all these entries. -/
theorem spread_merge' (hi : i ∈ B) (hj : j ∉ B) (hs0 : 0 < ∑ l ∈ B, v l) (hq : 0 < v j) {Z : Set (Fin C → ℝ)} (hZ : MeasurableSet Z)
    (h : ∀ᵐ u ∂uniformSimplex (insert j B), spread (insert j B) v u ∈ Z) :
    ∀ᵐ u ∂uniformSimplex B, ∀ᵐ t ∂volume.restrict (Set.Ioo (0 : ℝ) 1), along (spread B v u) i j t ∈ Z := by
  have hij : i ≠ j := fun e => hj (e ▸ hi)
  set s := ∑ l ∈ B, v l with hs
  have hS : ∑ l ∈ insert j B, v l = s + v j := by rw [Finset.sum_insert hj, add_comm]
  have hZ1 : MeasurableSet {u : Fin C → ℝ | spread (insert j B) v u ∈ Z} :=
    ((meas_spread (insert j B)).comp (measurable_const.prodMk measurable_id)) hZ
  have h1 := (ae_simplex_iff (Finset.mem_insert_self j B) hZ1).mp h
  rw [Finset.erase_insert hj, ae_expo_iff] at h1
  have hR : MeasurableSet {p : (Fin C → ℝ) × ℝ | along (spread B v p.1) i j p.2 ∈ Z} := by
    have hm : Measurable fun p : (Fin C → ℝ) × ℝ => spread B v p.1 :=
      (meas_spread B).comp (measurable_const.prodMk measurable_fst)
    exact ((measurable_along i j).comp (hm.prodMk measurable_snd)) hZ
  have hZ2 : MeasurableSet {u : Fin C → ℝ | ∀ᵐ t ∂volume.restrict (Set.Ioo (0 : ℝ) 1), along (spread B v u) i j t ∈ Z} :=
    measurableSet_ae hR
  have goal := (ae_simplex_iff hi hZ2).mpr
  refine goal ?_
  rw [ae_expo_iff]
  have hc : 0 < s / (s + v j) := by positivity
  filter_upwards [base_ae_scale _ hc (base_ae_erase hi h1), base_ae (B.erase i)] with x hx hx0 hsum
  have hxi : x i = 0 := by simpa using hx0 i
  have hℓ : 0 < (s * (1 - ∑ k, x k) + v j) / (s + v j) := by
    have : 0 < 1 - ∑ k, x k := by linarith
    positivity
  set ℓ := (s * (1 - ∑ k, x k) + v j) / (s + v j) with hℓd
  rw [ae_restrict_iff' measurableSet_Ioi] at hx
  show ∀ᵐ t ∂volume.restrict (Set.Ioo (0 : ℝ) 1), along (spread B v (fillIn i x)) i j t ∈ Z
  rw [ae_restrict_iff' measurableSet_Ioo]
  filter_upwards [(quasi_scale hℓ.ne').ae hx] with t ht ht01
  have ht' := ht (show 0 < ℓ * t from mul_pos hℓ ht01.1)
  have hsy : ∑ k, Function.update ((s / (s + v j)) • x) i (ℓ * t) k = s / (s + v j) * ∑ k, x k + ℓ * t := by
    rw [sum_update_eq, Pi.smul_apply, hxi, smul_zero, sub_zero]
    simp only [Pi.smul_apply, smul_eq_mul, Finset.mul_sum]
  have hlt : ∑ k, Function.update ((s / (s + v j)) • x) i (ℓ * t) k < 1 := by
    have e : s / (s + v j) * ∑ k, x k + ℓ = 1 := by rw [hℓd]; field_simp; ring
    rw [hsy]
    nlinarith [ht01.2]
  have hmem := ht' hlt
  have e : along (spread B v (fillIn i x)) i j t =
      spread (insert j B) v (fillIn j (Function.update ((s / (s + v j)) • x) i (ℓ * t))) := by
    have hfi : fillIn i x i = 1 - ∑ k, x k := Function.update_self _ _ _
    funext k
    unfold along
    rw [spread_mem hi, spread_not hj, hfi, ← hs]
    by_cases hkj : k = j
    · subst hkj
      rw [Function.update_self, spread_mem (Finset.mem_insert_self k B), hS]
      unfold fillIn
      rw [Function.update_self, hsy, hℓd]
      field_simp
      ring
    by_cases hki : k = i
    · subst hki
      rw [Function.update_of_ne hkj, Function.update_self, spread_mem (Finset.mem_insert_of_mem hi), hS]
      unfold fillIn
      rw [Function.update_of_ne hkj, Function.update_self, hℓd]
      field_simp
    rw [Function.update_of_ne hkj, Function.update_of_ne hki]
    by_cases hk : k ∈ B
    · rw [spread_mem hk, spread_mem (Finset.mem_insert_of_mem hk), hS, ← hs]
      unfold fillIn
      rw [Function.update_of_ne hki, Function.update_of_ne hkj, Function.update_of_ne hki, Pi.smul_apply, smul_eq_mul]
      field_simp
    · rw [spread_not hk, spread_not (by simp [hk, hkj])]
  rw [e]
  exact hmem

theorem spread_merge (hi : i ∈ B) (hj : j ∉ B) (hv : Row Finset.univ v) {Z : Set (Fin C → ℝ)} (hZ : MeasurableSet Z)
    (h : ∀ᵐ u ∂uniformSimplex (insert j B), spread (insert j B) v u ∈ Z) :
    ∀ᵐ u ∂uniformSimplex B, ∀ᵐ t ∂volume.restrict (Set.Ioo (0 : ℝ) 1), along (spread B v u) i j t ∈ Z :=
  spread_merge' hi hj (hv.sum_pos ⟨i, hi⟩) (hv.pos (Finset.mem_univ j)) hZ h

theorem Row.sum_pos' {A : Finset (Fin C)} (hv : Row A v) (hB : B.Nonempty) (hBA : B ⊆ A) : 0 < ∑ k ∈ B, v k :=
  Finset.sum_pos (fun _ hk => hv.pos (hBA hk)) hB

theorem Row.spread' {A : Finset (Fin C)} (hv : Row A v) (hB : B.Nonempty) (hBA : B ⊆ A) (hu : Row B u) : Row A (Meas.spread B v u) := by
  refine ⟨fun k => ?_, ?_⟩
  · by_cases h : k ∈ B
    · rw [if_pos (hBA h), spread_mem h]; exact mul_pos (hv.sum_pos' hB hBA) (hu.pos h)
    · rw [spread_not h]; exact hv.1 k
  · have h1 := Finset.sum_add_sum_compl B (Meas.spread B v u)
    have h2 := Finset.sum_add_sum_compl B v
    rw [← h1, sum_spread hu, Finset.sum_congr rfl fun k hk => spread_not (Finset.mem_compl.mp hk), h2]
    exact hv.2

/-- All mass is shared out. -/
theorem spread_full {A : Finset (Fin C)} (hv : Row A v) (hu : Row A u) : Meas.spread A v u = u := by
  funext k
  by_cases h : k ∈ A
  · rw [spread_mem h, hv.sum_on, one_mul]
  · rw [spread_not h, hv.zero h, hu.zero h]

end SBayes.Meas
