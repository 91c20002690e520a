import Verif.Lemmas.Reject
import Verif.Lemmas.ChainKernel
/- What the operators do to a function of the state that is small almost surely after some moves. -/
namespace SBayes.Meas
set_option linter.unusedSectionVars false
open SBayes.Lik SBayes.Clusters SBayes.MH SBayes.Source SBayes.Effects SBayes.Posterior SBayes.Draws SBayes.Kernel MeasureTheory
open scoped BigOperators ENNReal

variable {K N F S M C : ℕ} {nG : Fin M → ℕ} {m : Setup K N F S M nG}

theorem opL_const_mul {X : Type} [MeasurableSpace X] (l : List (Move X)) (r : ℝ≥0∞) {h : X → ℝ≥0∞} (hh : Measurable h) (x : X) :
    opL l (fun y => r * h y) x = r * opL l h x := by
  induction l generalizing x with
  | nil => rfl
  | cons P l ih =>
    show P.op (opL l fun y => r * h y) x = r * P.op (opL l h) x
    have : (opL l fun y => r * h y) = fun y => r * opL l h y := funext ih
    rw [this]
    exact lintegral_const_mul r ((opL_meas l hh).comp (P.meas.comp (measurable_const.prodMk measurable_id)))

theorem Null.const_mul {X : Type} [MeasurableSpace X] {G : Set X} {l : List (Move X)} {h : X → ℝ≥0∞} (hh : Measurable h) (hn : Null G l h)
    (r : ℝ≥0∞) : Null G l fun x => r * h x := fun x hx => by rw [opL_const_mul l r hh, hn x hx, mul_zero]

section Generic
variable {D X : Type} [MeasurableSpace X] [MeasurableSpace D] {good : D → Prop}

/-- After the operator, the function is at most `a` times the given factor, up to something that vanishes almost surely after the moves. -/
def Contr (good : D → Prop) (G : Set (X)) (l : List (Move (X)))
    (s : D × X → ℝ≥0∞) (a : ℝ≥0∞) (T : D × X → Law (D × X))
    (ρ : D → X → ℝ≥0∞) : Prop :=
  ∃ H : D → X → ℝ≥0∞, (∀ d, Measurable (H d)) ∧ (∀ d, good d → Null G l (H d)) ∧
    ∀ d, good d → ∀ c ∈ G, T (d, c) s ≤ a * ρ d c + H d c

section Contr
variable {G : Set (X)} {l : List (Move (X))} {s : D × X → ℝ≥0∞} {a : ℝ≥0∞}

theorem contr_mix {α : Type} (r : Rand α) (T : α → D × X → Law (D × X))
    (ρ : α → D → X → ℝ≥0∞) (h : ∀ x ∈ r, Contr good G l s a (T x.1) (ρ x.1)) :
    Contr good G l s a (fun y => Law.bind (Law.ofRand r) fun x => T x y) fun d c => Law.ofRand r fun x => ρ x d c := by
  unfold Law.bind Law.ofRand
  induction r with
  | nil => exact ⟨fun _ _ => 0, fun _ => measurable_const, fun _ _ x _ => opL_const_zero l x, fun d _ c _ => by simp⟩
  | cons p r ih =>
    obtain ⟨H, hm1, hn1, hb1⟩ := h p List.mem_cons_self
    obtain ⟨H', hm2, hn2, hb2⟩ := ih fun x hx => h x (List.mem_cons_of_mem _ hx)
    refine ⟨fun d c => ENNReal.ofReal p.2 * H d c + H' d c, fun d => ((hm1 d).const_mul _).add (hm2 d), fun d hd =>
      Null.add ((hm1 d).const_mul _) ((hn1 d hd).const_mul (hm1 d) _) (hn2 d hd), fun d hd c hc => ?_⟩
    simp only [List.map_cons, List.sum_cons]
    have h1 := mul_le_mul_right (hb1 d hd c hc) (ENNReal.ofReal p.2)
    have h2 := hb2 d hd c hc
    refine (add_le_add h1 h2).trans_eq ?_
    ring

theorem Contr.congr {T T' : D × X → Law (D × X)} {ρ : D → X → ℝ≥0∞}
    (h : Contr good G l s a T ρ) (he : ∀ d, good d → ∀ c ∈ G, T' (d, c) s = T (d, c) s) : Contr good G l s a T' ρ := by
  obtain ⟨H, h1, h2, h3⟩ := h
  exact ⟨H, h1, h2, fun d hd c hc => (he d hd c hc).trans_le (h3 d hd c hc)⟩

/-- An operator that moves the discrete parameters. -/
theorem contr_disc [Fintype D] (hs : Measurable s) (hn : ∀ d, good d → Null G l fun c => s (d, c) - a)
    {T : D × X → Law (D × X)}
    (hT : ∀ d, good d → ∀ c ∈ G, ∃ r : Rand (D), IsDist r ∧ (∀ p ∈ r, p.2 ≠ 0 → good p.1) ∧
      T (d, c) s = Law.ofRand r fun d' => s (d', c)) : Contr good G l s a T fun _ _ => 1 := by
  classical
  have hsm : ∀ d, Measurable fun c => s (d, c) := fun d => hs.comp (measurable_const.prodMk measurable_id)
  refine ⟨fun _ c => ∑ d' ∈ Finset.univ.filter good, (s (d', c) - a), fun d => Finset.measurable_fun_sum _ fun d' _ => (hsm d').sub measurable_const,
    fun d _ => ?_, fun d hd c hc => ?_⟩
  · exact Null.sum (h := fun d' c => s (d', c) - a) _ (fun d' => (hsm d').sub measurable_const) fun d' hd' => hn d' (Finset.mem_filter.mp hd').2
  · obtain ⟨r, hr, hg, hT⟩ := hT d hd c hc
    rw [hT, mul_one]
    set H := ∑ d' ∈ Finset.univ.filter good, (s (d', c) - a) with hH
    have hone := ofRand_one hr
    calc Law.ofRand r (fun d' => s (d', c)) ≤ (r.map fun p => ENNReal.ofReal p.2 * (a + H)).sum := by
          unfold Law.ofRand
          refine List.sum_le_sum fun p hp => ?_
          by_cases h0 : p.2 = 0
          · rw [h0]; simp
          · refine mul_le_mul_right ?_ _
            have hgd := hg p hp h0
            refine le_add_tsub.trans (add_le_add le_rfl ?_)
            exact Finset.single_le_sum (f := fun d' => s (d', c) - a) (fun _ _ => bot_le) (Finset.mem_filter.mpr ⟨Finset.mem_univ _, hgd⟩)
      _ = a + H := by rw [List.sum_map_mul_right, hone, one_mul]

/-- If all operators together reduce the bound, it is reduced. -/
theorem contr_shrink {T : D × X → Law (D × X)} {ρ : D → X → ℝ≥0∞}
    (hl : ∀ P ∈ l, P.Stays G) (h : Contr good G l s a T ρ) (hsub : ∀ d, good d → ∀ c ∈ G, s (d, c) ≤ T (d, c) s) {r : ℝ≥0∞}
    (hρ : ∀ d, good d → ∀ c ∈ G, ρ d c ≤ r) : ∀ d, good d → Null G l fun c => s (d, c) - a * r := by
  obtain ⟨H, -, h2, h3⟩ := h
  intro d hd
  refine (h2 d hd).mono hl fun c hc => ?_
  rw [tsub_le_iff_left]
  exact (hsub d hd c hc).trans ((h3 d hd c hc).trans (add_le_add (mul_le_mul_right (hρ d hd c hc) _) le_rfl))

/-- If the bound can always be reduced by the same factor, the function vanishes. -/
theorem null_of_shrink (hs : Measurable s) (hs1 : ∀ x, s x ≤ 1) {r : ℝ≥0∞} (hr : r < 1)
    (h : ∀ a ≤ 1, (∀ d, good d → Null G l fun c => s (d, c) - a) → ∀ d, good d → Null G l fun c => s (d, c) - a * r) :
    ∀ d, good d → Null G l fun c => s (d, c) := by
  have hsm : ∀ d, Measurable fun c => s (d, c) := fun d => hs.comp (measurable_const.prodMk measurable_id)
  have hpow : ∀ n : ℕ, ∀ d, good d → Null G l fun c => s (d, c) - r ^ n := by
    intro n
    induction n with
    | zero =>
      intro d _ x hx
      have : (fun c => s (d, c) - r ^ 0) = fun _ => 0 := funext fun c => by rw [pow_zero]; exact tsub_eq_zero_of_le (hs1 _)
      rw [this]
      exact opL_const_zero l x
    | succ n ih =>
      intro d hd
      have := h (r ^ n) (pow_le_one₀ bot_le hr.le) ih d hd
      rwa [← pow_succ] at this
  intro d hd x hx
  have hsup : (fun c => s (d, c)) = fun c => ⨆ n : ℕ, (s (d, c) - r ^ n) := by
    funext c
    refine le_antisymm ?_ (iSup_le fun n => tsub_le_self)
    refine ENNReal.le_of_forall_pos_le_add fun ε hε hlt => ?_
    obtain ⟨n, hn⟩ := ((tendsto_order.mp (ENNReal.tendsto_pow_atTop_nhds_zero_of_lt_one hr)).2 (ε : ℝ≥0∞) (by exact_mod_cast hε)).exists
    have : s (d, c) ≤ (s (d, c) - r ^ n) + r ^ n := le_tsub_add
    exact this.trans (add_le_add (le_iSup (fun n => s (d, c) - r ^ n) n) hn.le)
  have hop : ∀ (l : List (Move (X))) x, opL l (fun c => ⨆ n : ℕ, (s (d, c) - r ^ n)) x = ⨆ n : ℕ, opL l (fun c => s (d, c) - r ^ n) x := by
    intro l
    induction l with
    | nil => intro x; rfl
    | cons P l ih =>
      intro x
      show P.op (opL l fun c => ⨆ n : ℕ, (s (d, c) - r ^ n)) x = ⨆ n : ℕ, P.op (opL l fun c => s (d, c) - r ^ n) x
      rw [show (opL l fun c => ⨆ n : ℕ, (s (d, c) - r ^ n)) = fun x => ⨆ n : ℕ, opL l (fun c => s (d, c) - r ^ n) x from funext ih]
      unfold Move.op
      refine lintegral_iSup (fun n => ?_) fun n k hnk e => ?_
      · exact (opL_meas l ((hsm d).sub measurable_const)).comp (P.meas.comp (measurable_const.prodMk measurable_id))
      · refine opL_mono (G := Set.univ) (fun _ _ _ _ => Filter.Eventually.of_forall fun _ => Set.mem_univ _) (fun c _ => ?_) _ (Set.mem_univ _)
        exact tsub_le_tsub_left (pow_le_pow_right_of_le_one' hr.le hnk) _
  rw [hsup, hop]
  simp only [ENNReal.iSup_eq_zero]
  exact fun n => hpow n d hd x hx

theorem Contr.weaken {T : D × X → Law (D × X)} {ρ ρ' : D → X → ℝ≥0∞}
    (h : Contr good G l s a T ρ) (hρ : ∀ d, good d → ∀ c ∈ G, ρ d c ≤ ρ' d c) : Contr good G l s a T ρ' := by
  obtain ⟨H, h1, h2, h3⟩ := h
  exact ⟨H, h1, h2, fun d hd c hc => (h3 d hd c hc).trans (add_le_add (mul_le_mul_right (hρ d hd c hc) _) le_rfl)⟩

end Contr
end Generic

section Contr
variable {G : Set (Cont K F S M nG)} {l : List (Move (Cont K F S M nG))} {s : Disc K N F M × Cont K F S M nG → ℝ≥0∞} {a : ℝ≥0∞}

theorem op_split {P : Move (Cont K F S M nG)} [IsProbabilityMeasure P.ν] {h : Cont K F S M nG → ℝ≥0∞} (a : ℝ≥0∞)
    (c : Cont K F S M nG) : P.op h c ≤ a + P.op (fun y => h y - a) c := by
  have h1 : P.op h c ≤ P.op (fun y => a + (h y - a)) c := lintegral_mono fun e => le_add_tsub
  rw [P.op_add measurable_const] at h1
  refine h1.trans_eq ?_
  congr 1
  unfold Move.op
  simp

/-- An operator that makes a move. -/
theorem contr_move (hs : Measurable s) (hn : ∀ d, Good m d → Null G l fun c => s (d, c) - a)
    {T : Disc K N F M × Cont K F S M nG → Law (Disc K N F M × Cont K F S M nG)} (P : Disc K N F M → Move (Cont K F S M nG))
    [∀ d, IsProbabilityMeasure (P d).ν] (hT : ∀ d c, T (d, c) s = (P d).op (fun c => s (d, c)) c) (hP : ∀ d, Good m d → Pres G l (P d)) :
    Contr (Good m) G l s a T fun _ _ => 1 := by
  have hsm : ∀ d, Measurable fun c => s (d, c) := fun d => hs.comp (measurable_const.prodMk measurable_id)
  refine ⟨fun d => (P d).op fun c => s (d, c) - a, fun d => (P d).op_meas ((hsm d).sub measurable_const), fun d hd =>
    hP d hd _ ((hsm d).sub measurable_const) (hn d hd), fun d hd c hc => ?_⟩
  rw [hT, mul_one]
  exact op_split a c

/-- A move after which the function vanishes. -/
theorem contr_gone (hs : Measurable s) {T : Disc K N F M × Cont K F S M nG → Law (Disc K N F M × Cont K F S M nG)}
    (P : Disc K N F M → Move (Cont K F S M nG)) (hT : ∀ d c, T (d, c) s = (P d).op (fun c => s (d, c)) c)
    (h0 : ∀ d, Good m d → Null G l ((P d).op fun c => s (d, c))) : Contr (Good m) G l s a T fun _ _ => 0 := by
  have hsm : ∀ d, Measurable fun c => s (d, c) := fun d => hs.comp (measurable_const.prodMk measurable_id)
  refine ⟨fun d => (P d).op fun c => s (d, c), fun d => (P d).op_meas (hsm d), h0, fun d hd c hc => ?_⟩
  rw [hT, mul_zero, zero_add]

theorem contr_weights (hs : Measurable s) (ha : a ≠ ⊤) (hn : ∀ d, Good m d → Null G l fun c => s (d, c) - a)
    (hG : ∀ c ∈ G, Interior m.cfg.app c) {ij : Fin (M + 1) × Fin (M + 1)} (hij : ij.1 ≠ ij.2)
    (hP : ∀ d, Good m d → ∀ f, Pres G l (reshare f ij.2 ij.1 (shareLaw m d ij f))) :
    Contr (Good m) G l s a (weightsMove m ij) fun _ _ => 1 := by
  have hu : IsProbabilityMeasure uniform01 := ⟨by unfold uniform01; simp⟩
  have hsm : ∀ d, Measurable fun c => s (d, c) := fun d => hs.comp (measurable_const.prodMk measurable_id)
  refine ⟨fun d c => ∑ Φ : Finset (Fin F), opL (Φ.toList.map fun f => reshare f ij.2 ij.1 (shareLaw m d ij f)) (fun c => s (d, c) - a) c,
    fun d => Finset.measurable_fun_sum _ fun Φ _ => opL_meas _ ((hsm d).sub measurable_const), fun d hd => ?_, fun d hd c hc => ?_⟩
  · refine Null.sum (h := fun (Φ : Finset (Fin F)) => opL (Φ.toList.map fun f => reshare f ij.2 ij.1 (shareLaw m d ij f)) fun c => s (d, c) - a) _
      (fun Φ => opL_meas _ ((hsm d).sub measurable_const)) fun Φ _ => ?_
    refine Pres.opL (fun P hP' => ?_) ((hsm d).sub measurable_const) (hn d hd)
    obtain ⟨f, -, rfl⟩ := List.mem_map.mp hP'
    exact hP d hd f
  · have := weights_bound hij d (hG c hc).w (m := m) (s := fun c => s (d, c)) ha (k := fun _ c => s (d, c) - a)
      (fun _ => (hsm d).sub measurable_const) (χ := fun _ => 1) (fun Φ y => by rw [mul_one]; exact le_add_tsub) (g := s) fun _ => rfl
    simpa using this

/-- A proposal that crosses: if it is accepted, the function vanishes. -/
theorem contr_cross (hs : Measurable s) (ha : a ≠ ⊤) (hn : ∀ d, Good m d → Null G l fun c => s (d, c) - a)
    (hG : ∀ c ∈ G, Interior m.cfg.app c) {ij : Fin (M + 1) × Fin (M + 1)} (hij : ij.1 ≠ ij.2) (f : Fin F)
    (hP : ∀ d, Good m d → ∀ f' ≠ f, Pres G l (reshare f' ij.2 ij.1 (shareLaw m d ij f')))
    (hx : ∀ d, Good m d → ∀ Φ : Finset (Fin F), f ∈ Φ →
      Null G l (opL (Φ.toList.map fun f => reshare f ij.2 ij.1 (shareLaw m d ij f)) fun c => s (d, c))) :
    Contr (Good m) G l s a (weightsMove m ij) fun d c => rejects m d ij c f := by
  have hsm : ∀ d, Measurable fun c => s (d, c) := fun d => hs.comp (measurable_const.prodMk measurable_id)
  have hkm : ∀ d (Φ : Finset (Fin F)), Measurable (fun c => if f ∈ Φ then s (d, c) else s (d, c) - a) := fun d Φ => by
    by_cases h : f ∈ Φ
    · simp only [h, if_true]; exact hsm d
    · simp only [h, if_false]; exact (hsm d).sub measurable_const
  refine ⟨fun d c => ∑ Φ : Finset (Fin F), opL (Φ.toList.map fun f => reshare f ij.2 ij.1 (shareLaw m d ij f))
      (fun c => if f ∈ Φ then s (d, c) else s (d, c) - a) c,
    fun d => Finset.measurable_fun_sum _ fun Φ _ => opL_meas _ (hkm d Φ), fun d hd => ?_, fun d hd c hc => ?_⟩
  · refine Null.sum (h := fun (Φ : Finset (Fin F)) => opL (Φ.toList.map fun f => reshare f ij.2 ij.1 (shareLaw m d ij f))
      fun c => if f ∈ Φ then s (d, c) else s (d, c) - a) _ (fun Φ => opL_meas _ (hkm d Φ)) fun Φ _ => ?_
    by_cases h : f ∈ Φ
    · simp only [h, if_true]
      exact hx d hd Φ h
    · simp only [h, if_false]
      refine Pres.opL (fun P hP' => ?_) ((hsm d).sub measurable_const) (hn d hd)
      obtain ⟨f', hf', rfl⟩ := List.mem_map.mp hP'
      exact hP d hd f' fun e => h (by rw [← e]; exact Finset.mem_toList.mp hf')
  · unfold rejects
    refine weights_bound hij d (hG c hc).w (m := m) (s := fun c => s (d, c)) ha (k := fun Φ c => if f ∈ Φ then s (d, c) else s (d, c) - a)
      (hkm d) (χ := fun Φ => if f ∈ Φ then 0 else 1) (fun Φ y => ?_) (g := s) fun _ => rfl
    by_cases h : f ∈ Φ
    · simp only [h, if_true, mul_zero, zero_add]; exact le_rfl
    · simp only [h, if_false, mul_one]; exact le_add_tsub

end Contr

/-- A mixture of which one part is less than one. -/
theorem ofRand_less {α : Type} {r : Rand α} (hr : IsDist r) {p : α × ℝ} (hp : p ∈ r) {ρ : α → ℝ≥0∞} {δ : ℝ≥0∞}
    (h1 : ∀ x ∈ r, ρ x.1 ≤ 1) (hδ : ρ p.1 + δ ≤ 1) : Law.ofRand r ρ + ENNReal.ofReal p.2 * δ ≤ 1 := by
  rw [← ofRand_one hr]
  unfold Law.ofRand
  obtain ⟨l1, l2, rfl⟩ := List.append_of_mem hp
  simp only [List.map_append, List.map_cons, List.sum_append, List.sum_cons]
  have e1 : (l1.map fun a => ENNReal.ofReal a.2 * ρ a.1).sum ≤ (l1.map fun a => ENNReal.ofReal a.2).sum :=
    List.sum_le_sum fun a ha => mul_le_of_le_one_right bot_le (h1 a (List.mem_append_left _ ha))
  have e2 : (l2.map fun a => ENNReal.ofReal a.2 * ρ a.1).sum ≤ (l2.map fun a => ENNReal.ofReal a.2).sum :=
    List.sum_le_sum fun a ha => mul_le_of_le_one_right bot_le (h1 a (List.mem_append_right _ (List.mem_cons_of_mem _ ha)))
  have e3 : ENNReal.ofReal p.2 * ρ p.1 + ENNReal.ofReal p.2 * δ ≤ ENNReal.ofReal p.2 := by
    rw [← mul_add]; exact mul_le_of_le_one_right bot_le hδ
  calc _ = (l1.map fun a => ENNReal.ofReal a.2 * ρ a.1).sum + ((ENNReal.ofReal p.2 * ρ p.1 + ENNReal.ofReal p.2 * δ) +
        (l2.map fun a => ENNReal.ofReal a.2 * ρ a.1).sum) := by ring
    _ ≤ _ := add_le_add e1 (add_le_add e3 e2)

end SBayes.Meas
