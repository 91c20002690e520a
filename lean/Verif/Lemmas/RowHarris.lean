import Verif.Lemmas.RowMoves
import Verif.Lemmas.Subharm
/- Chains that move discrete parameters and redistribute the mass of pairs of entries of rows: functions that never decrease on average and
vanish almost everywhere vanish everywhere. -/
namespace SBayes.Meas
set_option linter.unusedSectionVars false
open SBayes.MH SBayes.Effects SBayes.Draws SBayes.Kernel MeasureTheory
open scoped BigOperators ENNReal

variable {X ι D : Type} [MeasurableSpace X] [DecidableEq ι] [MeasurableSpace D] [Fintype D] {R : Rows X ι} {good : D → Prop}

/-- A step that proposes new shares of two entries of a row, and stays with probability `ρ`. -/
structure PairLaw (R : Rows X ι) (good : D → Prop) (b : ι) (i j : Fin (R.C b)) (T : D × X → Law (D × X)) (ρ : D → X → ℝ≥0∞) : Prop where
  ne : i ≠ j
  mi : i ∈ R.sup b
  mj : j ∈ R.sup b
  law : ∀ d, good d → ∀ c ∈ R.Int, ∃ α : ℝ → ℝ≥0∞, Measurable α ∧ (∫⁻ t in Set.Ioo (0 : ℝ) 1, α t) + ρ d c = 1 ∧
    ∀ s, Measurable s → T (d, c) s =
      (∫⁻ t in Set.Ioo (0 : ℝ) 1, α t * s (d, (R.len b).set c (along ((R.len b).get c) i j t))) + ρ d c * s (d, c)
  moves : ∀ ε : ℝ, 0 < ε → ∃ δ : ℝ≥0∞, δ ≠ 0 ∧ ∀ d, good d → ∀ c ∈ R.Int, ε ≤ (R.len b).get c i → ε ≤ (R.len b).get c j → ρ d c + δ ≤ 1

namespace PairLaw
variable {b : ι} {i j : Fin (R.C b)} {T : D × X → Law (D × X)} {ρ : D → X → ℝ≥0∞} {G : Set X} {l : List (Move X)} {s : D × X → ℝ≥0∞} {a : ℝ≥0∞}

theorem le_one (h : PairLaw R good b i j T ρ) {d : D} (hd : good d) {c : X} (hc : c ∈ R.Int) : ρ d c ≤ 1 := by
  obtain ⟨α, -, h1, -⟩ := h.law d hd c hc
  rw [← h1]
  exact le_add_self

theorem weighted_le (L : Lens X (Fin (R.C b) → ℝ)) {h : X → ℝ≥0∞} (hh : Measurable h) (α : ℝ → ℝ≥0∞) (c : X) :
    ∫⁻ t in Set.Ioo (0 : ℝ) 1, α t * h (L.set c (along (L.get c) i j t)) ≤ ⊤ * (L.resplit i j).op h c := by
  have hm : Measurable fun t : ℝ => h (L.set c (along (L.get c) i j t)) :=
    hh.comp (L.mset.comp (measurable_const.prodMk ((measurable_along i j).comp (measurable_const.prodMk measurable_id))))
  by_cases h0 : (L.resplit i j).op h c = 0
  · rw [L.resplit_op, lintegral_eq_zero_iff hm] at h0
    refine ((lintegral_congr_ae (h0.mono fun t ht => ?_)).trans lintegral_zero).trans_le bot_le
    have ht' : h (L.set c (along (L.get c) i j t)) = 0 := ht
    rw [ht', mul_zero]
  · rw [ENNReal.top_mul h0]
    exact le_top

theorem contr_same (h : PairLaw R good b i j T ρ) (hs : Measurable s) (hn : ∀ d, good d → Null G l fun c => s (d, c) - a)
    (hG : G ⊆ R.Int) (hP : Pres G l ((R.len b).resplit i j)) : Contr good G l s a T fun _ _ => 1 := by
  have hsm : ∀ d, Measurable fun c => s (d, c) := fun d => hs.comp (measurable_const.prodMk measurable_id)
  have hsa : ∀ d, Measurable fun c => s (d, c) - a := fun d => (hsm d).sub measurable_const
  have hop : ∀ d, Measurable (((R.len b).resplit i j).op fun c => s (d, c) - a) := fun d => Move.op_meas _ (hsa d)
  refine ⟨fun d c => ⊤ * ((R.len b).resplit i j).op (fun c => s (d, c) - a) c + (s (d, c) - a), fun d => ((hop d).const_mul _).add (hsa d),
    fun d hd => Null.add ((hop d).const_mul _) ((hP _ (hsa d) (hn d hd)).const_mul (hop d) _) (hn d hd), fun d hd c hc => ?_⟩
  obtain ⟨α, hα, h1, hT⟩ := h.law d hd c (hG hc)
  rw [hT s hs, mul_one]
  have e1 : ∫⁻ t in Set.Ioo (0 : ℝ) 1, α t * s (d, (R.len b).set c (along ((R.len b).get c) i j t)) ≤
      (∫⁻ t in Set.Ioo (0 : ℝ) 1, α t) * a + ⊤ * ((R.len b).resplit i j).op (fun c => s (d, c) - a) c := by
    refine le_trans ?_ (add_le_add le_rfl (weighted_le (R.len b) (hsa d) α c))
    rw [← lintegral_mul_const _ hα, ← lintegral_add_left (hα.mul_const a)]
    refine lintegral_mono fun t => ?_
    rw [← mul_add]
    exact mul_le_mul_right le_add_tsub _
  have e2 : ρ d c * s (d, c) ≤ ρ d c * a + (s (d, c) - a) := by
    calc ρ d c * s (d, c) ≤ ρ d c * (a + (s (d, c) - a)) := mul_le_mul_right le_add_tsub _
      _ = ρ d c * a + ρ d c * (s (d, c) - a) := mul_add _ _ _
      _ ≤ _ := add_le_add le_rfl (mul_le_of_le_one_left bot_le (h.le_one hd (hG hc)))
  calc _ ≤ _ := add_le_add e1 e2
    _ = ((∫⁻ t in Set.Ioo (0 : ℝ) 1, α t) + ρ d c) * a + (⊤ * ((R.len b).resplit i j).op (fun c => s (d, c) - a) c + (s (d, c) - a)) := by ring
    _ = _ := by rw [h1, one_mul]

theorem contr_cross (h : PairLaw R good b i j T ρ) (hs : Measurable s) (hn : ∀ d, good d → Null G l fun c => s (d, c) - a)
    (hG : G ⊆ R.Int) (hx : ∀ d, good d → Null G l (((R.len b).resplit i j).op fun c => s (d, c))) : Contr good G l s a T ρ := by
  have hsm : ∀ d, Measurable fun c => s (d, c) := fun d => hs.comp (measurable_const.prodMk measurable_id)
  have hsa : ∀ d, Measurable fun c => s (d, c) - a := fun d => (hsm d).sub measurable_const
  have hop : ∀ d, Measurable (((R.len b).resplit i j).op fun c => s (d, c)) := fun d => Move.op_meas _ (hsm d)
  refine ⟨fun d c => ⊤ * ((R.len b).resplit i j).op (fun c => s (d, c)) c + (s (d, c) - a), fun d => ((hop d).const_mul _).add (hsa d),
    fun d hd => Null.add ((hop d).const_mul _) ((hx d hd).const_mul (hop d) _) (hn d hd), fun d hd c hc => ?_⟩
  obtain ⟨α, hα, h1, hT⟩ := h.law d hd c (hG hc)
  rw [hT s hs]
  have e2 : ρ d c * s (d, c) ≤ ρ d c * a + (s (d, c) - a) := by
    calc ρ d c * s (d, c) ≤ ρ d c * (a + (s (d, c) - a)) := mul_le_mul_right le_add_tsub _
      _ = ρ d c * a + ρ d c * (s (d, c) - a) := mul_add _ _ _
      _ ≤ _ := add_le_add le_rfl (mul_le_of_le_one_left bot_le (h.le_one hd (hG hc)))
  calc _ ≤ _ := add_le_add (weighted_le (R.len b) (hsm d) α c) e2
    _ = _ := by ring

end PairLaw

/-- What a step moves: the discrete parameters, or two entries of a row. -/
abbrev Leaf (R : Rows X ι) : Type := Option (Σ b, Fin (R.C b) × Fin (R.C b))

/-- A chain that chooses at random what to move, and can move all pairs of entries in the support of their row. -/
structure PairChain (R : Rows X ι) (good : D → Prop) (leafs : Rand (Leaf R)) (T : Leaf R → D × X → Law (D × X))
    (ρ : Leaf R → D → X → ℝ≥0∞) : Prop where
  dist : IsDist leafs
  disc : ∀ d, good d → ∀ c ∈ R.Int, ∃ r : Rand D, IsDist r ∧ (∀ p ∈ r, p.2 ≠ 0 → good p.1) ∧ ∀ s : D × X → ℝ≥0∞,
    T none (d, c) s = Law.ofRand r fun d' => s (d', c)
  pair : ∀ b i j p, (some ⟨b, i, j⟩, p) ∈ leafs → PairLaw R good b i j (T (some ⟨b, i, j⟩)) (ρ (some ⟨b, i, j⟩))
  all : ∀ b, ∀ i ∈ R.sup b, ∀ j ∈ R.sup b, i ≠ j → ∃ p, 0 < p ∧ (some ⟨b, i, j⟩, p) ∈ leafs

/-- A pair of which one entry is in `B`. -/
def Crosses (R : Rows X ι) (b : ι) (B : Finset (Fin (R.C b))) (leaf : Leaf R) : Prop := ∃ i j, leaf = some ⟨b, i, j⟩ ∧ ¬ (i ∈ B ↔ j ∈ B)

/-- Drawing rows anew, except that only the mass of the entries `B` of row `b` is shared out. -/
noncomputable def Rows.renewIn (R : Rows X ι) (b : ι) (B : Finset (Fin (R.C b))) : ι → Move X :=
  Function.update R.renew b ((R.len b).share B)

theorem Rows.on_renew (b : ι) : R.On b (R.renew b) := (R.len b).share_only _

theorem Rows.on_renewIn (b : ι) (B : Finset (Fin (R.C b))) (b' : ι) : R.On b' (R.renewIn b B b') := by
  unfold renewIn
  by_cases h : b' = b
  · subst h
    rw [Function.update_self]
    exact (R.len b').share_only B
  · rw [Function.update_of_ne h]
    exact Rows.on_renew b'

theorem Rows.map_renewIn {b : ι} {B : Finset (Fin (R.C b))} {js : List ι} (hb : b ∉ js) :
    (b :: js).map (R.renewIn b B) = (R.len b).share B :: js.map R.renew := by
  rw [List.map_cons]
  unfold renewIn
  rw [Function.update_self]
  congr 1
  refine List.map_congr_left fun b' hb' => Function.update_of_ne ?_ _ _
  rintro rfl
  exact hb hb'

section Stage
variable {leafs : Rand (Leaf R)} {T : Leaf R → D × X → Law (D × X)} {ρ : Leaf R → D → X → ℝ≥0∞} {s : D × X → ℝ≥0∞}

set_option maxHeartbeats 1000000 in
/-- One entry less whose mass needs to be shared out. -/
theorem stage_entry (hT : PairChain R good leafs T ρ) (hs : Measurable s) (hs1 : ∀ x, s x ≤ 1)
    (hsub : ∀ d, good d → ∀ c ∈ R.Int, s (d, c) ≤ Law.bind (Law.ofRand leafs) (fun o => T o (d, c)) s)
    {b : ι} {js : List ι} (hb : b ∉ js) (hjs : js.Nodup)
    {B : Finset (Fin (R.C b))} (hB : B.Nonempty) (hBA : B ⊆ R.sup b) (hBne : B ≠ R.sup b)
    (h : ∀ k ∈ R.sup b, k ∉ B → ∀ d, good d → Null R.Int ((R.len b).share (insert k B) :: js.map R.renew) fun c => s (d, c)) :
    ∀ d, good d → Null R.Int ((R.len b).share B :: js.map R.renew) fun c => s (d, c) := by
  classical
  have hsm : ∀ d, Measurable fun c => s (d, c) := fun d => hs.comp (measurable_const.prodMk measurable_id)
  have hjs' : (b :: js).Nodup := List.nodup_cons.mpr ⟨hb, hjs⟩
  intro d0 hd0 x0 hx0
  have hBc : (R.sup b \ B).Nonempty := by
    rw [Finset.sdiff_nonempty]
    exact fun hsub' => hBne (Finset.Subset.antisymm hBA hsub')
  set s0 := ∑ k ∈ B, (R.len b).get x0 k with hs0
  have hsc : ∀ c ∈ R.Slab b B s0, ∑ k ∈ R.sup b \ B, (R.len b).get c k = 1 - s0 := by
    intro c hc
    have h1 := (hc.1 b).sum_on
    rw [← Finset.sum_sdiff hBA] at h1
    have := hc.2
    linarith
  have hx0s : x0 ∈ R.Slab b B s0 := ⟨hx0, rfl⟩
  have hs0p : 0 < s0 := Row.sum_pos' (hx0 b) hB hBA
  have hs0q : 0 < 1 - s0 := by
    rw [← hsc x0 hx0s]
    exact Row.sum_pos' (hx0 b) hBc Finset.sdiff_subset
  have hC : (0 : ℝ) < (R.C b : ℝ) := by
    obtain ⟨k, -⟩ := hB
    exact_mod_cast k.pos
  set ε := min s0 (1 - s0) / (R.C b : ℝ) with hε
  have hεp : 0 < ε := div_pos (lt_min hs0p hs0q) hC
  have hlarge : ∀ (B' : Finset (Fin (R.C b))) (v : Fin (R.C b) → ℝ) (t : ℝ), B'.Nonempty → 0 < t → ∑ k ∈ B', v k = t →
      ∃ k ∈ B', t / (R.C b : ℝ) ≤ v k := by
    intro B' v t hB' ht hv
    by_contra hno
    push Not at hno
    have h1 : ∑ k ∈ B', v k < ∑ _k ∈ B', t / (R.C b : ℝ) := Finset.sum_lt_sum_of_nonempty hB' hno
    rw [hv, Finset.sum_const, nsmul_eq_mul] at h1
    have hcard : (B'.card : ℝ) ≤ (R.C b : ℝ) := by
      have := Finset.card_le_univ B'
      rw [Fintype.card_fin] at this
      exact_mod_cast this
    have : (B'.card : ℝ) * (t / (R.C b : ℝ)) ≤ (R.C b : ℝ) * (t / (R.C b : ℝ)) := mul_le_mul_of_nonneg_right hcard (by positivity)
    rw [mul_div_cancel₀ _ hC.ne'] at this
    linarith
  have hpair : ∀ c ∈ R.Slab b B s0, ∃ i ∈ B, ∃ j ∈ R.sup b \ B, ε ≤ (R.len b).get c i ∧ ε ≤ (R.len b).get c j := by
    intro c hc
    obtain ⟨i, hi, hi'⟩ := hlarge B _ s0 hB hs0p hc.2
    obtain ⟨j, hj, hj'⟩ := hlarge (R.sup b \ B) _ (1 - s0) hBc hs0q (hsc c hc)
    exact ⟨i, hi, j, hj, (div_le_div_of_nonneg_right (min_le_left _ _) hC.le).trans hi',
      (div_le_div_of_nonneg_right (min_le_right _ _) hC.le).trans hj'⟩
  set ρ' : Leaf R → D → X → ℝ≥0∞ := fun o d c => if Crosses R b B o then ρ o d c else 1 with hρ'
  have hρ'1 : ∀ o ∈ leafs, ∀ d, good d → ∀ c ∈ R.Int, ρ' o.1 d c ≤ 1 := by
    intro o ho d hd c hc
    simp only [hρ']
    split
    · rename_i hcr
      obtain ⟨i, j, he, -⟩ := hcr
      obtain ⟨o, p⟩ := o
      dsimp only at he ⊢
      subst he
      exact (hT.pair b i j p ho).le_one hd hc
    · exact le_rfl
  have hδ : ∃ δ : ℝ≥0∞, δ ≠ 0 ∧ ∀ q : {q : Fin (R.C b) × Fin (R.C b) // q.1 ∈ B ∧ q.2 ∈ R.sup b \ B}, ∀ d, good d → ∀ c ∈ R.Int,
      ε ≤ (R.len b).get c q.1.1 → ε ≤ (R.len b).get c q.1.2 → (Law.ofRand leafs fun o => ρ' o d c) + δ ≤ 1 := by
    refine exists_common (P := fun (q : {q : Fin (R.C b) × Fin (R.C b) // q.1 ∈ B ∧ q.2 ∈ R.sup b \ B}) δ => ∀ d, good d → ∀ c ∈ R.Int,
      ε ≤ (R.len b).get c q.1.1 → ε ≤ (R.len b).get c q.1.2 → (Law.ofRand leafs fun o => ρ' o d c) + δ ≤ 1)
      (fun q x y hxy h d hd c hc h1 h2 => (add_le_add le_rfl hxy).trans (h d hd c hc h1 h2)) ?_
    rintro ⟨⟨i, j⟩, hi, hj⟩
    dsimp only at hi hj
    obtain ⟨hjA, hjB⟩ := Finset.mem_sdiff.mp hj
    have hne : i ≠ j := fun e => hjB (e ▸ hi)
    obtain ⟨p, hp, hmem⟩ := hT.all b i (hBA hi) j hjA hne
    obtain ⟨δ, hδ, hmv⟩ := (hT.pair b i j p hmem).moves ε hεp
    refine ⟨ENNReal.ofReal p * δ, mul_ne_zero (ENNReal.ofReal_pos.mpr hp).ne' hδ, fun d hd c hc h1 h2 => ?_⟩
    refine ofRand_less hT.dist hmem (ρ := fun o => ρ' o d c) (fun o ho => hρ'1 o ho d hd c hc) ?_
    have hcr : Crosses R b B (some ⟨b, i, j⟩) := ⟨i, j, rfl, fun h => hjB (h.mp hi)⟩
    simp only [hρ', hcr, if_true]
    exact hmv d hd c hc h1 h2
  obtain ⟨δ, hδ0, hδ⟩ := hδ
  have hρ1 : ∀ d, good d → ∀ c ∈ R.Slab b B s0, (Law.ofRand leafs fun o => ρ' o d c) + δ ≤ 1 := by
    intro d hd c hc
    obtain ⟨i, hi, j, hj, h1, h2⟩ := hpair c hc
    exact hδ ⟨(i, j), hi, hj⟩ d hd c hc.1 h1 h2
  have hδtop : δ ≠ ⊤ := ne_top_of_le_ne_top ENNReal.one_ne_top (le_add_self.trans (hρ1 d0 hd0 x0 hx0s))
  have hr : 1 - δ < 1 := ENNReal.sub_lt_self ENNReal.one_ne_top one_ne_zero hδ0
  have hl : ∀ P ∈ (R.len b).share B :: js.map R.renew, P.Stays (R.Slab b B s0) := by
    intro P hP
    rcases List.mem_cons.mp hP with rfl | hP
    · exact Rows.share_slab hB hBA
    · obtain ⟨b', hb', rfl⟩ := List.mem_map.mp hP
      exact Rows.stays_slab (Rows.on_renew b') (fun e => hb (e ▸ hb')) (Rows.renew_stays b')
  have hcomm : ∀ i j, ∀ P ∈ js.map R.renew, Comm ((R.len b).resplit i j) P := by
    intro i j P hP
    obtain ⟨b', hb', rfl⟩ := List.mem_map.mp hP
    exact Rows.On.comm (R := R) ((R.len b).resplit_only i j) (Rows.on_renew b') fun e => hb (e ▸ hb')
  suffices hall : ∀ d, good d → Null (R.Slab b B s0) ((R.len b).share B :: js.map R.renew) fun c => s (d, c) from hall d0 hd0 x0 hx0s
  refine null_of_shrink hs hs1 hr fun a ha hn => ?_
  have hleaf : ∀ o ∈ leafs, Contr good (R.Slab b B s0) ((R.len b).share B :: js.map R.renew) s a (T o.1) (ρ' o.1) := by
    rintro ⟨o, p⟩ ho
    rcases o with _ | ⟨b', i, j⟩
    · have hcr : ¬ Crosses R b B none := by rintro ⟨i, j, he, -⟩; cases he
      simp only [hρ', hcr, if_false]
      refine contr_disc hs hn fun d hd c hc => ?_
      obtain ⟨r, h1, h2, h3⟩ := hT.disc d hd c hc.1
      exact ⟨r, h1, h2, h3 s⟩
    · have hP := hT.pair b' i j p ho
      by_cases hbb : b' = b
      · subst hbb
        by_cases hcr : i ∈ B ↔ j ∈ B
        · have hnc : ¬ Crosses R b' B (some ⟨b', i, j⟩) := by
            rintro ⟨i', j', he, hne⟩
            simp only [Option.some.injEq, Sigma.mk.injEq, heq_eq_eq, true_and, Prod.mk.injEq] at he
            obtain ⟨rfl, rfl⟩ := he
            exact hne hcr
          simp only [hρ', hnc, if_false]
          refine hP.contr_same hs hn (fun c hc => hc.1) ?_
          by_cases hi : i ∈ B
          · rw [← Rows.map_renewIn hb]
            refine Rows.pres_rows (R := R) (Rows.on_renewIn b' B) hjs' ((R.len b').resplit_only i j) (Rows.resplit_slab hP.mi hP.mj hP.ne hcr) fun _ => ?_
            unfold Rows.renewIn
            rw [Function.update_self]
            exact (R.len b').resplit_absorb hi (hcr.mp hi) hP.ne _
          · intro g hg hgn
            refine Null.comm hg hgn (fun P hP' => ?_) (Rows.resplit_slab hP.mi hP.mj hP.ne hcr)
            rcases List.mem_cons.mp hP' with rfl | hP'
            · exact (R.len b').resplit_comm hi fun hj => hi (hcr.mpr hj)
            · exact hcomm i j P hP'
        · have hc : Crosses R b' B (some ⟨b', i, j⟩) := ⟨i, j, rfl, hcr⟩
          simp only [hρ', hc, if_true]
          refine hP.contr_cross hs hn (fun c hc => hc.1) fun d hd x hx => ?_
          show ((R.len b').share B).op (opL (js.map R.renew) (((R.len b').resplit i j).op fun c => s (d, c))) x = 0
          rw [Comm.opL (hcomm i j) (hsm d)]
          refine (R.len b').resplit_cross (by tauto) hP.mi hP.mj hBA (opL_meas _ (hsm d)) (hx.1 b') fun k hk hkB => ?_
          exact h k hk hkB d hd x hx.1
      · have hnc : ¬ Crosses R b B (some ⟨b', i, j⟩) := by
          rintro ⟨i', j', he, -⟩
          simp only [Option.some.injEq, Sigma.mk.injEq] at he
          exact hbb he.1
        simp only [hρ', hnc, if_false]
        refine hP.contr_same hs hn (fun c hc => hc.1) ?_
        have hst := Rows.resplit_stays (R := R) b' hP.mi hP.mj hP.ne
        rw [← Rows.map_renewIn hb]
        refine Rows.pres_rows (R := R) (Rows.on_renewIn b B) hjs' ((R.len b').resplit_only i j)
          (Rows.stays_slab ((R.len b').resplit_only i j) hbb hst) fun _ => ?_
        unfold Rows.renewIn
        rw [Function.update_of_ne hbb]
        exact (R.len b').resplit_absorb hP.mi hP.mj hP.ne _
  have hc := contr_mix (good := good) (G := R.Slab b B s0) (l := (R.len b).share B :: js.map R.renew) (s := s) (a := a) leafs T ρ' hleaf
  refine contr_shrink hl hc (fun d hd c hc => hsub d hd c hc.1) fun d hd c hc => ?_
  exact ENNReal.le_sub_of_add_le_right hδtop (hρ1 d hd c hc)

/-- A row need not be drawn anew. -/
theorem stage_row (hT : PairChain R good leafs T ρ) (hs : Measurable s) (hs1 : ∀ x, s x ≤ 1)
    (hsub : ∀ d, good d → ∀ c ∈ R.Int, s (d, c) ≤ Law.bind (Law.ofRand leafs) (fun o => T o (d, c)) s)
    {b : ι} {js : List ι} (hjs : (b :: js).Nodup)
    (h : ∀ d, good d → Null R.Int ((b :: js).map R.renew) fun c => s (d, c)) : ∀ d, good d → Null R.Int (js.map R.renew) fun c => s (d, c) := by
  classical
  obtain ⟨hb, hjs⟩ := List.nodup_cons.mp hjs
  have key : ∀ n, ∀ B : Finset (Fin (R.C b)), B.Nonempty → B ⊆ R.sup b → B.card + n = (R.sup b).card →
      ∀ d, good d → Null R.Int ((R.len b).share B :: js.map R.renew) fun c => s (d, c) := by
    intro n
    induction n with
    | zero =>
      intro B _ hBA hcard
      have : B = R.sup b := Finset.eq_of_subset_of_card_le hBA (by omega)
      rw [this]
      exact h
    | succ n ih =>
      intro B hB hBA hcard
      have hBu : B ≠ R.sup b := fun e => by rw [e] at hcard; omega
      refine stage_entry hT hs hs1 hsub hb hjs hB hBA hBu fun k hk hkB => ?_
      refine ih _ (Finset.insert_nonempty k B) (Finset.insert_subset hk hBA) ?_
      rw [Finset.card_insert_of_notMem hkB]
      omega
  obtain ⟨k, hk⟩ := R.ne b
  intro d hd x hx
  have hcard : ({k} : Finset (Fin (R.C b))).card + ((R.sup b).card - 1) = (R.sup b).card := by
    have := Finset.card_pos.mpr (R.ne b)
    rw [Finset.card_singleton]
    omega
  have := key _ {k} (Finset.singleton_nonempty k) (Finset.singleton_subset_iff.mpr hk) hcard d hd x hx
  have e : opL ((R.len b).share {k} :: js.map R.renew) (fun c => s (d, c)) x = opL (js.map R.renew) (fun c => s (d, c)) x :=
    (R.len b).share_single _ x
  rwa [e] at this

end Stage

/-! ### Drawing all rows anew -/

theorem opL_rows_same (js : List ι) (h : X → ℝ≥0∞) {x y : X} (hx : x ∈ R.Int) (hy : y ∈ R.Int)
    (hxy : ∀ b ∉ js, (R.len b).get x = (R.len b).get y) : opL (js.map R.renew) h x = opL (js.map R.renew) h y := by
  induction js generalizing x y with
  | nil => rw [R.ext x y fun b => hxy b (by simp)]
  | cons b js ih =>
    show ((R.len b).share (R.sup b)).op (opL (js.map R.renew) h) x = ((R.len b).share (R.sup b)).op (opL (js.map R.renew) h) y
    rw [(R.len b).share_op, (R.len b).share_op]
    have hr : ∀ᵐ u ∂uniformSimplex (R.sup b), Row (R.sup b) u := uniformSimplex_ae (R.ne b)
    refine lintegral_congr_ae (hr.mono fun u hu => ?_)
    dsimp only
    rw [spread_full (hx b) hu, spread_full (hy b) hu]
    refine ih (Rows.set_int hx b hu) (Rows.set_int hy b hu) fun b' hb' => ?_
    by_cases hbb : b' = b
    · subst hbb
      rw [(R.len b').get_set, (R.len b').get_set]
    · rw [(R.indep b' b hbb).get, (R.indep b' b hbb).get]
      exact hxy b' (by simp [hbb, hb'])

/-- What vanishes almost everywhere vanishes almost surely once all rows are drawn anew. -/
theorem null_rows {μ : Measure X} [IsProbabilityMeasure μ] (hμ : ∀ b (h : X → ℝ≥0∞), Measurable h → ∫⁻ c, (R.renew b).op h c ∂μ = ∫⁻ c, h c ∂μ)
    (hint : ∀ᵐ c ∂μ, c ∈ R.Int) {js : List ι} (hjs : ∀ b, b ∈ js) {h : X → ℝ≥0∞} (hh : Measurable h) (h0 : ∀ᵐ c ∂μ, h c = 0) :
    Null R.Int (js.map R.renew) h := by
  intro x hx
  have e : ∀ js : List ι, ∫⁻ c, opL (js.map R.renew) h c ∂μ = ∫⁻ c, h c ∂μ := by
    intro js
    induction js with
    | nil => rfl
    | cons b js ih =>
      show ∫⁻ c, (R.renew b).op (opL (js.map R.renew) h) c ∂μ = _
      rw [hμ b _ (opL_meas _ hh), ih]
  have h1 := e js
  rw [(lintegral_congr_ae h0).trans lintegral_zero, lintegral_eq_zero_iff (opL_meas _ hh)] at h1
  obtain ⟨y, hy1, hy2⟩ := (h1.and hint).exists
  rw [opL_rows_same js h hx hy2 fun b hb => absurd (hjs b) hb]
  exact hy1

/-- **A function between 0 and 1 that never decreases on average and vanishes almost everywhere vanishes everywhere.** -/
theorem rows_zero [Fintype ι] {leafs : Rand (Leaf R)} {T : Leaf R → D × X → Law (D × X)} {ρ : Leaf R → D → X → ℝ≥0∞} {s : D × X → ℝ≥0∞}
    (hT : PairChain R good leafs T ρ) (hs : Measurable s) (hs1 : ∀ x, s x ≤ 1)
    (hsub : ∀ d, good d → ∀ c ∈ R.Int, s (d, c) ≤ Law.bind (Law.ofRand leafs) (fun o => T o (d, c)) s)
    {μ : Measure X} [IsProbabilityMeasure μ] (hμ : ∀ b (h : X → ℝ≥0∞), Measurable h → ∫⁻ c, (R.renew b).op h c ∂μ = ∫⁻ c, h c ∂μ)
    (hint : ∀ᵐ c ∂μ, c ∈ R.Int) (h0 : ∀ d, good d → ∀ᵐ c ∂μ, s (d, c) = 0) : ∀ d, good d → ∀ c ∈ R.Int, s (d, c) = 0 := by
  have hsm : ∀ d, Measurable fun c => s (d, c) := fun d => hs.comp (measurable_const.prodMk measurable_id)
  have key : ∀ js : List ι, js.Nodup → (∀ d, good d → Null R.Int (js.map R.renew) fun c => s (d, c)) →
      ∀ d, good d → ∀ c ∈ R.Int, s (d, c) = 0 := by
    intro js
    induction js with
    | nil => exact fun _ h d hd c hc => h d hd c hc
    | cons b js ih => exact fun hnd h => ih (List.nodup_cons.mp hnd).2 (stage_row hT hs hs1 hsub hnd h)
  refine key (Finset.univ : Finset ι).toList (Finset.nodup_toList _) fun d hd => ?_
  exact null_rows hμ hint (fun b => Finset.mem_toList.mpr (Finset.mem_univ b)) (hsm d) (h0 d hd)

end SBayes.Meas
