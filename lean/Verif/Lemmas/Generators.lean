import Verif.Spec.Generators
set_option linter.unusedSectionVars false
namespace SBayes.Gen
open MeasureTheory

variable {D ρ τ : Type} [MeasurableSpace D] (ν : Measure D) [IsProbabilityMeasure ν]

instance : IsProbabilityMeasure (tape ν) := by unfold tape; infer_instance
instance : IsProbabilityMeasure (fresh ν) := by unfold fresh; infer_instance
instance (W : ℕ) : IsProbabilityMeasure (freshAll ν W) := by unfold freshAll; infer_instance
instance (W : ℕ) : IsProbabilityMeasure (withEntropy ν W) := by unfold withEntropy; infer_instance

/-- A number in front of a sequence. -/
def front (d : D) (s : ℕ → D) : ℕ → D
  | 0 => d
  | n + 1 => s n

@[simp] theorem rest_front (d : D) (s : ℕ → D) : rest (front d s) = s := rfl
@[simp] theorem front_zero (d : D) (s : ℕ → D) : front d s 0 = d := rfl
theorem front_rest (s : ℕ → D) : front (s 0) (rest s) = s := by
  funext n; cases n <;> rfl

theorem measurable_front : Measurable fun x : D × (ℕ → D) => front x.1 x.2 := by
  refine measurable_pi_lambda _ fun n => ?_
  cases n with
  | zero => exact measurable_fst
  | succ n => exact (measurable_pi_apply n).comp measurable_snd

theorem measurable_rest : Measurable (rest : (ℕ → D) → ℕ → D) :=
  measurable_pi_lambda _ fun n => measurable_pi_apply (n + 1)

/-- The first number is independent of the others, which are again a generator. -/
theorem tape_front : (ν.prod (tape ν)).map (fun x => front x.1 x.2) = tape ν := by
  refine Measure.eq_infinitePi (μ := fun _ : ℕ => ν) fun s t ht => ?_
  classical
  rw [Measure.map_apply measurable_front (MeasurableSet.pi s.countable_toSet fun i _ => ht i)]
  let t0 : Set D := if 0 ∈ s then t 0 else Set.univ
  let s' : Finset ℕ := (s.filter (· ≠ 0)).image (· - 1)
  have hpre : (fun x : D × (ℕ → D) => front x.1 x.2) ⁻¹' (Set.pi s t) = t0 ×ˢ Set.pi (s' : Set ℕ) fun n => t (n + 1) := by
    ext ⟨d, x⟩
    simp only [Set.mem_preimage, Set.mem_pi, Set.mem_prod, t0, s', Finset.coe_image, Finset.mem_coe]
    constructor
    · intro h
      refine ⟨?_, ?_⟩
      · split_ifs with h0
        · exact h 0 h0
        · trivial
      · rintro i ⟨j, hj, rfl⟩
        have hj' := Finset.mem_filter.1 hj
        have h1 := h j hj'.1
        cases j with
        | zero => exact absurd rfl hj'.2
        | succ j => exact h1
    · rintro ⟨h0, h1⟩ i hi
      cases i with
      | zero => simpa [hi] using h0
      | succ i => exact h1 i ⟨i + 1, by simp [hi], by simp⟩
  have h1 : tape ν (Set.pi (s' : Set ℕ) fun n => t (n + 1)) = ∏ i ∈ s', ν (t (i + 1)) :=
    Measure.infinitePi_pi (μ := fun _ : ℕ => ν) fun i _ => ht (i + 1)
  rw [hpre, Measure.prod_prod, h1]
  have hs' : ∏ i ∈ s', ν (t (i + 1)) = ∏ i ∈ s.filter (· ≠ 0), ν (t i) := by
    rw [Finset.prod_image]
    · refine Finset.prod_congr rfl fun i hi => ?_
      have := (Finset.mem_filter.1 hi).2
      rw [Nat.sub_add_cancel (Nat.one_le_iff_ne_zero.2 this)]
    · intro a ha b hb hab
      have h1 := (Finset.mem_filter.1 ha).2
      have h2 := (Finset.mem_filter.1 hb).2
      dsimp only at hab
      omega
  rw [hs']
  by_cases h0 : 0 ∈ s
  · have hsplit : s = insert 0 (s.filter (· ≠ 0)) := by
      ext i
      simp only [Finset.mem_insert, Finset.mem_filter]
      constructor
      · intro h
        by_cases hi : i = 0
        · exact Or.inl hi
        · exact Or.inr ⟨h, hi⟩
      · rintro (rfl | h)
        · exact h0
        · exact h.1
    conv_rhs => rw [hsplit]
    rw [Finset.prod_insert (by simp)]
    simp [t0, h0]
  · have hsplit : s.filter (· ≠ 0) = s := by
      refine Finset.filter_true_of_mem fun i hi => ?_
      rintro rfl
      exact h0 hi
    rw [hsplit]
    simp [t0, h0]

theorem fresh_np {B : Set (Gens D)} (hB : MeasurableSet B) :
    fresh ν B = ∫⁻ d, fresh ν {g | (front d g.1, g.2) ∈ B} ∂ν := by
  have hf : Measurable fun x : D × Gens D => ((front x.1 x.2.1, x.2.2) : Gens D) :=
    (measurable_front.comp (measurable_fst.prodMk (measurable_fst.comp measurable_snd))).prodMk
      (measurable_snd.comp measurable_snd)
  have h : fresh ν = (ν.prod (fresh ν)).map fun x => (front x.1 x.2.1, x.2.2) := by
    have h1 : (ν.prod (fresh ν)).map (fun x : D × Gens D => ((front x.1 x.2.1, x.2.2) : Gens D)) =
        (((ν.prod (tape ν)).prod (tape ν)).map (Prod.map (fun x => front x.1 x.2) id)) := by
      unfold fresh
      rw [← (measurePreserving_prodAssoc ν (tape ν) (tape ν)).map_eq, Measure.map_map hf]
      · rfl
      · exact (MeasurableEquiv.prodAssoc).measurable
    rw [h1, ← Measure.map_prod_map _ _ measurable_front measurable_id, tape_front, Measure.map_id]
    rfl
  conv_lhs => rw [h]
  rw [Measure.map_apply hf hB, Measure.prod_apply (hf hB)]
  rfl

theorem fresh_py {B : Set (Gens D)} (hB : MeasurableSet B) :
    fresh ν B = ∫⁻ d, fresh ν {g | (g.1, front d g.2) ∈ B} ∂ν := by
  have hsw : (fresh ν).map Prod.swap = fresh ν := Measure.prod_swap
  have hS : MeasurableSet (Prod.swap ⁻¹' B : Set (Gens D)) := measurable_swap hB
  have h1 : fresh ν B = fresh ν (Prod.swap ⁻¹' B) := by
    conv_lhs => rw [← hsw]
    rw [Measure.map_apply measurable_swap hB]
  rw [h1, fresh_np ν hS]
  refine lintegral_congr fun d => ?_
  have hm : MeasurableSet {g : Gens D | (g.1, front d g.2) ∈ B} := by
    refine (measurable_fst.prodMk ?_) hB
    exact measurable_front.comp (measurable_const.prodMk measurable_snd)
  conv_rhs => rw [← hsw]
  rw [Measure.map_apply measurable_swap hm]
  rfl

variable [Countable D] [MeasurableSingletonClass D]

theorem measurable_of_first_np {E : D → Set (Gens D)} (h : ∀ d, MeasurableSet (E d)) :
    MeasurableSet {g : Gens D | (rest g.1, g.2) ∈ E (g.1 0)} := by
  have : {g : Gens D | (rest g.1, g.2) ∈ E (g.1 0)} =
      ⋃ d, {g : Gens D | g.1 0 = d} ∩ {g | (rest g.1, g.2) ∈ E d} := by
    ext g; simp
  rw [this]
  refine MeasurableSet.iUnion fun d => MeasurableSet.inter ?_ ?_
  · exact (show Measurable fun g : Gens D => g.1 0 from (measurable_pi_apply 0).comp measurable_fst)
      (measurableSet_singleton d)
  · exact ((measurable_rest.comp measurable_fst).prodMk measurable_snd) (h d)

theorem measurable_of_first_py {E : D → Set (Gens D)} (h : ∀ d, MeasurableSet (E d)) :
    MeasurableSet {g : Gens D | (g.1, rest g.2) ∈ E (g.2 0)} := by
  have : {g : Gens D | (g.1, rest g.2) ∈ E (g.2 0)} =
      ⋃ d, {g : Gens D | g.2 0 = d} ∩ {g | (g.1, rest g.2) ∈ E d} := by
    ext g; simp
  rw [this]
  refine MeasurableSet.iUnion fun d => MeasurableSet.inter ?_ ?_
  · exact (show Measurable fun g : Gens D => g.2 0 from (measurable_pi_apply 0).comp measurable_snd)
      (measurableSet_singleton d)
  · exact (measurable_fst.prodMk (measurable_rest.comp measurable_snd)) (h d)

omit [IsProbabilityMeasure ν] in
theorem measurable_exec (p : Use D ρ) (A : Set ρ) {B : Set (Gens D)} (hB : MeasurableSet B) :
    MeasurableSet {g | (exec p g).1 ∈ A ∧ (exec p g).2 ∈ B} := by
  induction p with
  | ret r =>
    by_cases hr : r ∈ A
    · simpa [exec, hr] using hB
    · simp [exec, hr]
  | np k ih => exact measurable_of_first_np (E := fun d => {g | (exec (k d) g).1 ∈ A ∧ (exec (k d) g).2 ∈ B}) ih
  | py k ih => exact measurable_of_first_py (E := fun d => {g | (exec (k d) g).1 ∈ A ∧ (exec (k d) g).2 ∈ B}) ih

theorem measurable_result (p : Use D ρ) (A : Set ρ) : MeasurableSet {g : Gens D | (exec p g).1 ∈ A} := by
  simpa using measurable_exec p A MeasurableSet.univ

/-- After a program, the generators are as new, and independent of its result. -/
theorem exec_fresh (p : Use D ρ) (A : Set ρ) {B : Set (Gens D)} (hB : MeasurableSet B) :
    fresh ν {g | (exec p g).1 ∈ A ∧ (exec p g).2 ∈ B} = alone ν p A * fresh ν B := by
  induction p with
  | ret r =>
    by_cases hr : r ∈ A
    · simp [exec, hr, alone]
    · simp [exec, hr, alone]
  | np k ih =>
    have h1 := fresh_np ν (measurable_exec (.np k) A hB)
    have h2 := fresh_np ν (measurable_result (.np k) A)
    rw [h1, alone, h2, ← lintegral_mul_const _ (measurable_of_countable _)]
    refine lintegral_congr fun d => ?_
    exact ih d
  | py k ih =>
    have h1 := fresh_py ν (measurable_exec (.py k) A hB)
    have h2 := fresh_py ν (measurable_result (.py k) A)
    rw [h1, alone, h2, ← lintegral_mul_const _ (measurable_of_countable _)]
    refine lintegral_congr fun d => ?_
    exact ih d

theorem measurable_results : ∀ (ps : List (Use D ρ)) (As : List (Set ρ)),
    MeasurableSet {g : Gens D | List.Forall₂ (· ∈ ·) (oneAfterTheOther ps g) As}
  | [], As => by
    have : {g : Gens D | List.Forall₂ (· ∈ ·) (oneAfterTheOther ([] : List (Use D ρ)) g) As} =
        {_g | ([] : List (Set ρ)) = As} := by
      ext g; cases As <;> simp [oneAfterTheOther]
    rw [this]; exact MeasurableSet.const _
  | p :: ps, [] => by simp [oneAfterTheOther]
  | p :: ps, A :: As => by
    simp only [oneAfterTheOther, List.forall₂_cons]
    exact measurable_exec p A (measurable_results ps As)

theorem results_law : ∀ (ps : List (Use D ρ)) (As : List (Set ρ)), ps.length = As.length →
    fresh ν {g | List.Forall₂ (· ∈ ·) (oneAfterTheOther ps g) As} = (List.zipWith (alone ν) ps As).prod
  | [], [], _ => by simp [oneAfterTheOther]
  | [], _ :: _, h => by simp at h
  | _ :: _, [], h => by simp at h
  | p :: ps, A :: As, h => by
    have h' : ps.length = As.length := by simpa using h
    simp only [oneAfterTheOther, List.forall₂_cons, List.zipWith_cons_cons, List.prod_cons]
    rw [← results_law ps As h']
    exact exec_fresh ν p A (measurable_results ps As)

/-! ### Forked processes -/

omit [MeasurableSpace D] [Countable D] [MeasurableSingletonClass D] in
theorem exec_bind (p : Use D ρ) (f : ρ → Use D τ) (g : Gens D) :
    exec (p.bind f) g = exec (f (exec p g).1) (exec p g).2 := by
  induction p generalizing g with
  | ret r => rfl
  | np k ih => exact ih _ _
  | py k ih => exact ih _ _

omit [MeasurableSpace D] [Countable D] [MeasurableSingletonClass D] in
theorem exec_numpyOnly {p : Use D ρ} (h : NumpyOnly p) (s e e' : ℕ → D) :
    (exec p (s, e)).1 = (exec p (s, e')).1 := by
  induction h generalizing s with
  | ret r => rfl
  | np k _ ih => exact ih _ _

omit [MeasurableSpace D] [Countable D] [MeasurableSingletonClass D] in
theorem exec_noNumpy {p : Use D ρ} (h : NoNumpy p) (g : Gens D) : (exec p g).2.1 = g.1 := by
  induction h generalizing g with
  | ret r => rfl
  | py k _ ih => exact ih _ _

omit [MeasurableSpace D] [Countable D] [MeasurableSingletonClass D] in
/-- After `n` numbers. -/
theorem exec_numbers (n : ℕ) (g : Gens D) :
    exec (numbers n) g = ((List.range n).map g.1, (fun i => g.1 (i + n), g.2)) := by
  induction n generalizing g with
  | zero => rfl
  | succ n ih =>
    show exec ((numbers n).bind _) (rest g.1, g.2) = _
    rw [exec_bind, ih]
    simp only [exec, List.range_succ_eq_map, List.map_cons, List.map_map, Prod.mk.injEq, List.cons.injEq]
    refine ⟨⟨trivial, ?_⟩, ?_, trivial⟩
    · rfl
    · funext i; show g.1 (i + n + 1) = _; rfl

omit [MeasurableSpace D] [Countable D] [MeasurableSingletonClass D] in
/-- The numbers of numpy that the initial samples use. -/
theorem exec_initialSamples {clusters : ℕ → Use D (Option ρ)} (hc : ∀ c, NoNumpy (clusters c)) (n : ℕ) :
    ∀ (chains : ℕ) (g : Gens D) (xs : List (ρ × List D)), (exec (initialSamples clusters n chains) g).1 = some xs →
      (exec (initialSamples clusters n chains) g).2.1 = (fun i => g.1 (i + chains * n))
  | 0, g, xs, _ => by simp [initialSamples, exec]
  | c + 1, g, xs, h => by
    simp only [initialSamples, exec_bind] at h ⊢
    cases h1 : (exec (initialSamples clusters n c) g).1 with
    | none => simp [h1, exec] at h
    | some ys =>
      have ih := exec_initialSamples hc n c g ys h1
      simp only [h1, exec_bind] at h ⊢
      cases h2 : (exec (clusters c) (exec (initialSamples clusters n c) g).2).1 with
      | none => simp [h2, exec] at h
      | some z =>
        simp only [exec_bind, exec_numbers, exec]
        rw [exec_noNumpy (hc c), ih]
        funext i
        exact congrArg g.1 (by ring)

omit [MeasurableSpace D] [Countable D] [MeasurableSingletonClass D] in
/-- The first operator of a run. -/
theorem exec_firstOperator {Op : Type} {clusters : ℕ → Use D (Option ρ)} (hc : ∀ c, NoNumpy (clusters c)) (n chains : ℕ)
    (choose : D → Op) (restOfRun : List (ρ × List D) → Op → Use D τ) (g : Gens D) (x : Op × τ)
    (h : (exec (untilFirstOperator clusters n chains choose restOfRun) g).1 = some x) : x.1 = choose (g.1 (chains * n)) := by
  unfold untilFirstOperator at h
  rw [exec_bind] at h
  cases h1 : (exec (initialSamples clusters n chains) g).1 with
  | none => simp [h1, exec] at h
  | some xs =>
    have h2 := exec_initialSamples hc n chains g xs h1
    simp only [h1, exec, exec_bind, h2] at h
    have h3 := congrArg Prod.fst (Option.some.inj h)
    simp only [zero_add] at h3
    exact h3.symm

end SBayes.Gen
