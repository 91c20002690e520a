import Verif.Lemmas.Polygon
import Mathlib.LinearAlgebra.Dimension.Constructions
import Mathlib.LinearAlgebra.FiniteDimensional.Lemmas
/-
C96: the plots of weights and preferences in a polygon.
-/
namespace SBayes.Simplex
open Real

/-- A sample: weights of the components, or probabilities of the states. -/
def IsProb {n : ℕ} (w : Fin n → ℝ) : Prop := (∀ i, 0 ≤ w i) ∧ ∑ i, w i = 1

/-! ### The corners in the cache -/

/-- The number of components or states in a call. -/
def Call.size : Call → ℕ
  | .weight n _ _ _ => n
  | .preference n _ _ _ => n

/-- The call is a plot of preferences in a polygon with labels. -/
def Call.labelled : Call → Bool
  | .weight _ _ _ _ => false
  | .preference n _ _ l => l && decide (2 < n)

/-- Plots of preferences have a label for each state, as those of `plot_preferences` have (plot.py:1405-1408). -/
def Call.Complete : Call → Prop
  | .weight _ _ _ _ => True
  | .preference n _ names _ => names.length = n

/-- How many labelled plots of preferences with `n` states were made. -/
def earlier (n : ℕ) (calls : List Call) : ℕ := calls.countP fun x => x.labelled && decide (x.size = n)

theorem plot_corners (cache : Cache) (x : Call) (hx : x.Complete) (n : ℕ) {j : ℕ} (hj : j < n) :
    getCorners (plot cache x).1 n j =
      (if x.labelled ∧ x.size = n then (6 / 5 : ℝ) else 1) • getCorners cache n j := by
  cases x with
  | weight m samples names l =>
    by_cases h : m = n
    · subst h
      simp [plot, plotWeight, getCorners, Call.labelled]
    · simp [plot, plotWeight, getCorners, Call.labelled, Function.update_of_ne (Ne.symm h)]
  | preference m samples names l =>
    have hx' : names.length = m := hx
    by_cases hm : m ≤ 2
    · simp [plot, plotPreference, hm, Call.labelled, show ¬ 2 < m by omega]
    · by_cases h : m = n
      · subst h
        cases l <;> simp [plot, plotPreference, hm, Call.labelled, Call.size, getCorners, hx', hj, show 2 < m by omega]
      · simp [plot, plotPreference, hm, Call.labelled, Call.size, getCorners, h, Function.update_of_ne (Ne.symm h)]

theorem after_corners (calls : List Call) (hc : ∀ x ∈ calls, x.Complete) (n : ℕ) {j : ℕ} (hj : j < n) :
    ∀ cache : Cache, getCorners (after cache calls) n j = (6 / 5 : ℝ) ^ earlier n calls • getCorners cache n j := by
  induction calls with
  | nil => intro cache; simp [after, earlier]
  | cons x calls ih =>
    intro cache
    have h1 := ih (fun y hy => hc y (List.mem_cons_of_mem _ hy)) (plot cache x).1
    have h2 : after cache (x :: calls) = after (plot cache x).1 calls := rfl
    rw [h2, h1, plot_corners cache x (hc x (by simp)) n hj, smul_smul]
    congr 1
    unfold earlier
    rw [List.countP_cons]
    by_cases h : x.labelled ∧ x.size = n
    · rw [if_pos h, if_pos (by simpa using h), pow_succ]
    · rw [if_neg h, if_neg (by simpa using h)]
      simp

/-- **C96** Whatever was plotted before in the same process, a plot uses the corners of the regular polygon, enlarged by 1.2 for each
earlier plot of preferences with the same number of states and with labels. -/
theorem C96_corners_after_other_plots (calls : List Call) (hc : ∀ x ∈ calls, x.Complete) (n j : ℕ) (hj : j < n) :
    getCorners (after (fun _ => none) calls) n j = (6 / 5 : ℝ) ^ earlier n calls • unitCorner n j :=
  after_corners calls hc n hj _

theorem project_congr {n : ℕ} {c c' : ℕ → Pt} {s : ℝ} (h : ∀ j < n, c j = s • c' j) (w : Fin n → ℝ) :
    project c w = s • project c' w := by
  unfold project
  rw [Finset.smul_sum]
  refine Finset.sum_congr rfl fun i _ => ?_
  rw [h i i.2, smul_comm]

/-- **C96** So a plot is similar to the same plot in a new process: outline, samples and mean are enlarged by the same factor. -/
theorem C96_similar_to_a_new_plot (calls : List Call) (hc : ∀ x ∈ calls, x.Complete) (x : Call) (p p0 : Picture)
    (hp : (plot (after (fun _ => none) calls) x).2 = some p) (hp0 : (plot (fun _ => none) x).2 = some p0) :
    p.corners = p0.corners.map (((6 / 5 : ℝ) ^ earlier x.size calls) • ·) ∧
    p.points = p0.points.map (((6 / 5 : ℝ) ^ earlier x.size calls) • ·) ∧
    p.mean = p0.mean.map (((6 / 5 : ℝ) ^ earlier x.size calls) • ·) := by
  have h : ∀ j < x.size, getCorners (after (fun _ => none) calls) x.size j =
      (6 / 5 : ℝ) ^ earlier x.size calls • getCorners (fun _ => none) x.size j := fun j hj => after_corners calls hc _ hj _
  cases x with
  | weight n samples names l =>
    simp only [plot, plotWeight] at hp hp0
    by_cases hn : n ≤ 2
    · simp [hn] at hp
    · rw [if_neg hn, Option.some.injEq] at hp hp0
      subst hp hp0
      refine ⟨?_, ?_, ?_⟩
      · rw [List.map_map]
        exact List.map_congr_left fun j hj => h j (List.mem_range.1 hj)
      · rw [List.map_map]
        exact List.map_congr_left fun w _ => project_congr h w
      · rw [Option.map_some]
        exact congrArg some (project_congr h _)
  | preference n samples names l =>
    simp only [plot, plotPreference] at hp hp0
    by_cases hn : n ≤ 2
    · simp [hn] at hp
    · rw [if_neg hn, Option.some.injEq] at hp hp0
      subst hp hp0
      refine ⟨?_, ?_, rfl⟩
      · rw [List.map_map]
        exact List.map_congr_left fun j hj => h j (List.mem_range.1 hj)
      · rw [List.map_map]
        exact List.map_congr_left fun w _ => project_congr h w

/-- The hypotheses are met: the same plot of preferences twice. -/
example : ∃ p p0, (plot (after (fun _ => none) [.preference 3 [fun _ => 1 / 3] [['a'], ['b'], ['c']] true])
    (.preference 3 [fun _ => 1 / 3] [['a'], ['b'], ['c']] true)).2 = some p ∧
    (plot (fun _ => none) (.preference 3 [fun _ => 1 / 3] [['a'], ['b'], ['c']] true)).2 = some p0 ∧
    earlier 3 [.preference 3 [fun _ => 1 / 3] [['a'], ['b'], ['c']] true] = 1 := by
  refine ⟨_, _, rfl, rfl, ?_⟩
  simp [earlier, Call.labelled, Call.size]

/-- **C96** Finding: the same call does not give the same figure: when it is repeated, the outline is larger. -/
theorem C96_same_call_same_figure_false : ∃ (x : Call) (p p0 : Picture), x.Complete ∧ (plot (fun _ => none) x).2 = some p0 ∧
    (plot (after (fun _ => none) [x]) x).2 = some p ∧ p.corners ≠ p0.corners := by
  refine ⟨.preference 3 [fun _ => 1 / 3] [['a'], ['b'], ['c']] true, _, _, rfl, rfl, rfl, ?_⟩
  intro h
  have h1 := congrArg (fun l => l[0]?) h
  simp only [List.getElem?_map, List.getElem?_range (show 0 < 3 by omega), Option.map_some, Option.some.injEq] at h1
  rw [after_corners _ (by intro x hx; simp only [List.mem_singleton] at hx; subst hx; rfl) 3 (by omega)] at h1
  have h2 := congrArg Prod.snd h1
  simp [earlier, Call.labelled, Call.size, getCorners, unitCorner_eq] at h2
  norm_num at h2

/-! ### What the figure shows -/

theorem within_limits {n : ℕ} (f : ℕ → ℝ) {j : ℕ} (hj : j < n) : (limits n f).1 + 1 / 10 ≤ f j ∧ f j ≤ (limits n f).2 - 1 / 10 := by
  have h1 : (⨅ i : Fin n, f i) ≤ f j := ciInf_le (Set.finite_range _).bddBelow (⟨j, hj⟩ : Fin n)
  have h2 : f j ≤ ⨆ i : Fin n, f i := le_ciSup (f := fun i : Fin n => f i) (Set.finite_range _).bddAbove (⟨j, hj⟩ : Fin n)
  unfold limits
  constructor <;> simp only <;> linarith

theorem combination_bounds {n : ℕ} (w : Fin n → ℝ) (hw : IsProb w) (f : Fin n → ℝ) (a b : ℝ) (h : ∀ i, a ≤ f i ∧ f i ≤ b) :
    a ≤ ∑ i, w i * f i ∧ ∑ i, w i * f i ≤ b := by
  have ha : ∑ i, w i * a = a := by rw [← Finset.sum_mul, hw.2, one_mul]
  have hb : ∑ i, w i * b = b := by rw [← Finset.sum_mul, hw.2, one_mul]
  constructor
  · rw [← ha]; exact Finset.sum_le_sum fun i _ => mul_le_mul_of_nonneg_left (h i).1 (hw.1 i)
  · conv_rhs => rw [← hb]
    exact Finset.sum_le_sum fun i _ => mul_le_mul_of_nonneg_left (h i).2 (hw.1 i)

/-- The samples of a call. -/
def Call.AllProb : Call → Prop
  | .weight _ samples _ _ => ∀ w ∈ samples, IsProb w
  | .preference _ samples _ _ => ∀ w ∈ samples, IsProb w

/-- A point is shown in the figure, at least a tenth of a unit from its edges. -/
def Picture.Shows (p : Picture) (z : Pt) : Prop :=
  p.xlim.1 + 1 / 10 ≤ z.1 ∧ z.1 ≤ p.xlim.2 - 1 / 10 ∧ p.ylim.1 + 1 / 10 ≤ z.2 ∧ z.2 ≤ p.ylim.2 - 1 / 10

/-- **C96** Every corner and every sample is within the limits of the axes, with a margin of 0.1, whatever was plotted before. -/
theorem C96_nothing_is_cut_off (cache : Cache) (x : Call) (hx : x.AllProb) (p : Picture) (hp : (plot cache x).2 = some p) :
    ∀ z ∈ p.corners ++ p.points, p.Shows z := by
  have key : ∀ (n : ℕ) (c : ℕ → Pt) (samples : List (Fin n → ℝ)), (∀ w ∈ samples, IsProb w) →
      ∀ z ∈ (List.range n).map c ++ samples.map (project c),
        (limits n fun j => (c j).1).1 + 1 / 10 ≤ z.1 ∧ z.1 ≤ (limits n fun j => (c j).1).2 - 1 / 10 ∧
        (limits n fun j => (c j).2).1 + 1 / 10 ≤ z.2 ∧ z.2 ≤ (limits n fun j => (c j).2).2 - 1 / 10 := by
    intro n c samples hs z hz
    rcases List.mem_append.1 hz with hz | hz
    · obtain ⟨j, hj, rfl⟩ := List.mem_map.1 hz
      have h1 := within_limits (fun j => (c j).1) (List.mem_range.1 hj)
      have h2 := within_limits (fun j => (c j).2) (List.mem_range.1 hj)
      exact ⟨h1.1, h1.2, h2.1, h2.2⟩
    · obtain ⟨w, hw, rfl⟩ := List.mem_map.1 hz
      have e1 : (project c w).1 = ∑ i, w i * (c i).1 := by
        unfold project; rw [Prod.fst_sum]; rfl
      have e2 : (project c w).2 = ∑ i, w i * (c i).2 := by
        unfold project; rw [Prod.snd_sum]; rfl
      have h1 := combination_bounds w (hs w hw) (fun i => (c i).1) _ _ fun i => within_limits (fun j => (c j).1) i.2
      have h2 := combination_bounds w (hs w hw) (fun i => (c i).2) _ _ fun i => within_limits (fun j => (c j).2) i.2
      rw [e1, e2]
      exact ⟨h1.1, h1.2, h2.1, h2.2⟩
  cases x with
  | weight n samples names l =>
    simp only [plot, plotWeight] at hp
    by_cases hn : n ≤ 2
    · simp [hn] at hp
    · rw [if_neg hn, Option.some.injEq] at hp
      subst hp
      exact key n _ samples hx
  | preference n samples names l =>
    simp only [plot, plotPreference] at hp
    by_cases hn : n ≤ 2
    · simp [hn] at hp
    · rw [if_neg hn, Option.some.injEq] at hp
      subst hp
      exact key n _ samples hx

/-- The hypotheses are met. -/
example : (Call.preference 3 [fun _ => 1 / 3] [['a'], ['b'], ['c']] true).AllProb ∧
    ∃ p, (plot (fun _ => none) (.preference 3 [fun _ => 1 / 3] [['a'], ['b'], ['c']] true)).2 = some p := by
  refine ⟨?_, _, rfl⟩
  intro w hw
  rw [List.mem_singleton] at hw
  subst hw
  exact ⟨fun i => by norm_num, by norm_num [Fin.sum_univ_succ]⟩

/-! ### Where the samples are -/

/-- The corners of a plot, after any earlier plots. -/
noncomputable def scaled (n : ℕ) (s : ℝ) : ℕ → Pt := fun j => s • unitCorner n j

/-- **C96** Every sample is in the polygon. -/
theorem C96_samples_in_the_polygon {n : ℕ} (c : ℕ → Pt) (w : Fin n → ℝ) (hw : IsProb w) : project c w ∈ polygon c n := by
  refine (convex_convexHull ℝ _).sum_mem (fun i _ => hw.1 i) hw.2 fun i _ => ?_
  exact subset_convexHull ℝ _ ⟨i, rfl⟩

/-- **C96** A sample with all weight on one component is at its corner. -/
theorem C96_corner_is_certainty {n : ℕ} (c : ℕ → Pt) (i : Fin n) : project c (Pi.single i 1 : Fin n → ℝ) = c i := by
  unfold project
  rw [Finset.sum_eq_single i]
  · simp
  · intro j _ hj; simp [Pi.single_eq_of_ne hj]
  · simp

/-- **C96** The label of a component is beside its corner: label `i` is the `i`-th text, at the corner stretched away from the centre. -/
theorem C96_labels (cache : Cache) (n : ℕ) (samples : List (Fin n → ℝ)) (names : List Str) (hn : 2 < n) (i : ℕ)
    (hi : i < n) (hl : i < names.length) :
    (∃ p, (plotWeight cache n samples names true).2 = some p ∧
      p.labels[i]? = some ((23 / 20 : ℝ) • getCorners cache n i - (1 / 20, 1 / 20), names[i])) ∧
    (∃ p, (plotPreference cache n samples names true).2 = some p ∧
      p.labels[i]? = some ((6 / 5 : ℝ) • getCorners cache n i, names[i])) := by
  constructor
  · refine ⟨_, by simp only [plotWeight]; rw [if_neg (by omega)], ?_⟩
    simp [hi, hl]
  · refine ⟨_, by simp only [plotPreference]; rw [if_neg (by omega)], ?_⟩
    simp [hi, hl]

theorem project_add {n : ℕ} (c : ℕ → Pt) (v w : Fin n → ℝ) : project c (v + w) = project c v + project c w := by
  unfold project
  rw [← Finset.sum_add_distrib]
  exact Finset.sum_congr rfl fun i _ => add_smul _ _ _

theorem project_smul {n : ℕ} (c : ℕ → Pt) (s : ℝ) (w : Fin n → ℝ) : project c (s • w) = s • project c w := by
  unfold project
  rw [Finset.smul_sum]
  exact Finset.sum_congr rfl fun i _ => mul_smul s (w i) _

/-- **C96** The marked mean is the mean of the points shown. -/
theorem C96_mean {n : ℕ} (c : ℕ → Pt) (samples : List (Fin n → ℝ)) :
    project c (meanSample samples) = (1 / (samples.length : ℝ)) • (samples.map (project c)).sum := by
  have h1 : meanSample samples = (1 / (samples.length : ℝ)) • samples.sum := by
    funext i
    have : samples.sum i = (samples.map fun w => w i).sum := by
      induction samples with
      | nil => rfl
      | cons w l ih => simp [ih]
    simp only [meanSample, Pi.smul_apply, smul_eq_mul, this]
    ring
  have h2 : project c samples.sum = (samples.map (project c)).sum := by
    induction samples with
    | nil => simp [project]
    | cons w l ih =>
      have h1' : meanSample l = (1 / (l.length : ℝ)) • l.sum := by
        funext i
        have : l.sum i = (l.map fun w => w i).sum := by
          clear ih h1
          induction l with
          | nil => rfl
          | cons w l ih => simp [ih]
        simp only [meanSample, Pi.smul_apply, smul_eq_mul, this]
        ring
      rw [List.sum_cons, project_add, List.map_cons, List.sum_cons, ih h1']
  rw [h1, project_smul, h2]

/-- **C96** With three components (or states), samples at the same point are equal: the position shows the weights. -/
theorem C96_position_determines_three_weights {s : ℝ} (hs : 0 < s) (v w : Fin 3 → ℝ) (hv : IsProb v) (hw : IsProb w)
    (h : project (scaled 3 s) v = project (scaled 3 s) w) : v = w := by
  have e1 : step 3 * ((1 : ℕ) : ℝ) = π - π / 3 := by unfold step; push_cast; ring
  have e2 : step 3 * ((2 : ℕ) : ℝ) = π / 3 + π := by unfold step; push_cast; ring
  have c0 : unitCorner 3 0 = (0, 1) := by rw [unitCorner_eq]; simp
  have c1 : unitCorner 3 1 = (-(√3 / 2), -(1 / 2)) := by
    rw [unitCorner_eq, e1, sin_pi_sub, cos_pi_sub, sin_pi_div_three, cos_pi_div_three]
  have c2 : unitCorner 3 2 = (√3 / 2, -(1 / 2)) := by
    rw [unitCorner_eq, e2, sin_add_pi, cos_add_pi, sin_pi_div_three, cos_pi_div_three]; simp
  have hx := congrArg Prod.fst h
  have hy := congrArg Prod.snd h
  simp only [project, scaled, Fin.sum_univ_three, Fin.val_zero, Fin.val_one, Fin.val_two, c0, c1, c2, Prod.fst_add, Prod.snd_add,
    Prod.smul_fst, Prod.smul_snd, smul_eq_mul, mul_zero, zero_add] at hx hy
  have hsv := hv.2
  have hsw := hw.2
  rw [Fin.sum_univ_three] at hsv hsw
  have h3 : 0 < √3 := Real.sqrt_pos.2 (by norm_num)
  have hx' : (v 2 - v 1) = (w 2 - w 1) := by
    have : s * (√3 / 2) * (v 2 - v 1) = s * (√3 / 2) * (w 2 - w 1) := by linarith
    exact mul_left_cancel₀ (by positivity) this
  have hy' : v 0 - v 1 / 2 - v 2 / 2 = w 0 - w 1 / 2 - w 2 / 2 := by
    have : s * (v 0 - v 1 / 2 - v 2 / 2) = s * (w 0 - w 1 / 2 - w 2 / 2) := by linarith
    exact mul_left_cancel₀ hs.ne' this
  funext i
  fin_cases i <;> simp <;> linarith

/-- **C96** Finding: with four or more components (or states) the position does not determine the weights: there are different
samples, with all weights positive, at the same point. -/
theorem C96_position_determines_weights_false {n : ℕ} (hn : 4 ≤ n) (c : ℕ → Pt) :
    ∃ v w : Fin n → ℝ, IsProb v ∧ IsProb w ∧ (∀ i, 0 < v i ∧ 0 < w i) ∧ v ≠ w ∧ project c v = project c w := by
  let L : (Fin n → ℝ) →ₗ[ℝ] (ℝ × Pt) :=
    { toFun := fun v => (∑ i, v i, project c v)
      map_add' := fun v w => by simp [project_add, Finset.sum_add_distrib]
      map_smul' := fun s v => by simp [project_smul, Finset.mul_sum] }
  have hker : LinearMap.ker L ≠ ⊥ := by
    refine LinearMap.ker_ne_bot_of_finrank_lt ?_
    simp only [Module.finrank_prod, Module.finrank_self, Module.finrank_fintype_fun_eq_card, Fintype.card_fin]
    omega
  obtain ⟨v, hv, hv0⟩ := (Submodule.ne_bot_iff _).1 hker
  have hL : L v = 0 := hv
  have h1 : ∑ i, v i = 0 := congrArg Prod.fst hL
  have h2 : project c v = 0 := congrArg Prod.snd hL
  have hn0 : (0 : ℝ) < n := by exact_mod_cast (by omega : 0 < n)
  -- a factor that keeps the weights positive
  obtain ⟨B, hB⟩ : ∃ B : ℝ, 0 < B ∧ ∀ i, |v i| < B := by
    refine ⟨∑ i, |v i| + 1, ?_, fun i => ?_⟩
    · have : 0 ≤ ∑ i, |v i| := Finset.sum_nonneg fun i _ => abs_nonneg _
      linarith
    · have : |v i| ≤ ∑ j, |v j| := Finset.single_le_sum (f := fun j => |v j|) (fun j _ => abs_nonneg _) (Finset.mem_univ i)
      linarith
  let u : Fin n → ℝ := fun _ => 1 / n
  have hu : ∑ i, u i = 1 := by
    simp only [u, Finset.sum_const, Finset.card_univ, Fintype.card_fin, nsmul_eq_mul]
    field_simp
  let ε : ℝ := 1 / (n * B)
  have hε : 0 < ε := by have := hB.1; positivity
  have hsmall : ∀ i, |ε * v i| < 1 / n := by
    intro i
    rw [abs_mul, abs_of_pos hε]
    have := hB.2 i
    have h4 : ε * |v i| < ε * B := mul_lt_mul_of_pos_left this hε
    have h5 : ε * B = 1 / n := by
      have := hB.1.ne'
      simp only [ε]
      field_simp
    linarith
  have hpos : ∀ i, 0 < u i ∧ 0 < (u + ε • v) i := by
    intro i
    have := abs_lt.1 (hsmall i)
    refine ⟨by simp only [u]; positivity, ?_⟩
    simp only [Pi.add_apply, Pi.smul_apply, smul_eq_mul, u]
    linarith [this.1]
  refine ⟨u, u + ε • v, ⟨fun i => (hpos i).1.le, hu⟩, ⟨fun i => (hpos i).2.le, ?_⟩, hpos, ?_, ?_⟩
  · simp only [Pi.add_apply, Pi.smul_apply, smul_eq_mul, Finset.sum_add_distrib, ← Finset.mul_sum, h1, hu]
    simp
  · intro he
    refine hv0 ?_
    have h3 : ε • v = 0 := by
      have := he.symm
      rwa [add_eq_left] at this
    exact (smul_eq_zero.1 h3).resolve_left hε.ne'
  · rw [project_add, project_smul, h2]
    simp

/-- **C96** Finding: weights of two components (an analysis with one confounder) cannot be plotted: `plot_weight` raises. -/
theorem C96_weights_of_two_components_false (cache : Cache) (samples : List (Fin 2 → ℝ)) (names : List Str) (l : Bool) :
    (plotWeight cache 2 samples names l).2 = none := by
  simp [plotWeight]

/-! ### The white areas -/

theorem wrap_zero_mono {n left right : ℕ} {s : ℝ} (hs : 0 < s) (hn : 3 ≤ n) (hl : Leftmost (scaled n s) n left)
    (hr : Rightmost (scaled n s) n right) (t : ℕ) (ht : t < left + n - right) :
    ∃ j : ℕ, j < n ∧ scaled n s (wrap n (left - t)) = s • unitCorner n (j + 1) ∧
      scaled n s (wrap n (left - (t + 1 : ℕ))) = s • unitCorner n j ∧
      (s • unitCorner n (j + 1)).1 ≤ (s • unitCorner n j).1 := by
  have hl' := leftmost_unit hs hl
  have hr' := rightmost_unit hs hr
  have hlr := left_lt_right hn hl'.1 hr'.1 hl'.2 hr'.2
  have hx : ∀ j : ℕ, sin (step n * j) ≤ sin (step n * ((j + 1 : ℕ) : ℝ)) →
      (s • unitCorner n (j + 1)).1 ≤ (s • unitCorner n j).1 := by
    intro j hj
    simp only [unitCorner_eq, Prod.smul_fst, smul_eq_mul]
    exact mul_le_mul_of_nonneg_left (by linarith) hs.le
  rcases Nat.lt_or_ge t left with h | h
  · refine ⟨left - t - 1, by omega, ?_, ?_, ?_⟩
    · rw [show wrap n ((left : ℤ) - t) = left - t - 1 + 1 by unfold wrap; rw [if_neg (by omega)]; omega]; rfl
    · rw [show wrap n ((left : ℤ) - (t + 1 : ℕ)) = left - t - 1 by unfold wrap; rw [if_neg (by omega)]; omega]; rfl
    · exact hx _ (top_left_mono hn hl'.1 hl'.2 (by omega))
  · rcases Nat.eq_or_lt_of_le h with h | h
    · refine ⟨n - 1, by omega, ?_, ?_, ?_⟩
      · rw [show wrap n ((left : ℤ) - t) = 0 by unfold wrap; rw [if_neg (by omega)]; omega, Nat.sub_add_cancel (by omega),
          unitCorner_wrap (by omega)]
        rfl
      · rw [show wrap n ((left : ℤ) - (t + 1 : ℕ)) = n - 1 by unfold wrap; rw [if_pos (by omega)]; omega]; rfl
      · exact hx _ (top_right_mono hn hr'.1 hr'.2 (by omega) (by omega))
    · refine ⟨n + left - t - 1, by omega, ?_, ?_, ?_⟩
      · rw [show wrap n ((left : ℤ) - t) = n + left - t - 1 + 1 by unfold wrap; rw [if_pos (by omega)]; omega]; rfl
      · rw [show wrap n ((left : ℤ) - (t + 1 : ℕ)) = n + left - t - 1 by unfold wrap; rw [if_pos (by omega)]; omega]; rfl
      · exact hx _ (top_right_mono hn hr'.1 hr'.2 (by omega) (by omega))

theorem segment_mem {c : ℕ → Pt} {n : ℕ} {a b : Pt} (ha : a ∈ polygon c n) (hb : b ∈ polygon c n) {t : ℝ} (h0 : 0 ≤ t) (h1 : t ≤ 1) :
    ((1 - t) * a.1 + t * b.1, (1 - t) * a.2 + t * b.2) ∈ polygon c n := by
  have := (convex_convexHull ℝ (Set.range fun i : Fin n => c i)) ha hb (by linarith : 0 ≤ 1 - t) h0 (by ring)
  exact this

theorem wrap_lt {n : ℕ} {k : ℤ} (h1 : -(n : ℤ) ≤ k) (h2 : k < n) (_hn : 0 < n) : wrap n k < n := by
  unfold wrap
  split <;> omega

/-- **C96** The white areas hide exactly what is outside of the polygon. For the corners of any plot, `fill_outside` ends without an
exception; every point beside the polygon, up to the limits of the axis, is white; and a white point of the polygon is on
the line through two neighbouring corners (that is, on the outline). -/
theorem C96_outside_is_hidden {n : ℕ} (hn : 3 ≤ n) {s : ℝ} (hs : 0 < s) (left right : ℕ) (hl : Leftmost (scaled n s) n left)
    (hr : Rightmost (scaled n s) n right) (lo hi : ℝ) (hlim : ∀ j < n, lo ≤ (scaled n s j).2 ∧ (scaled n s j).2 ≤ hi) :
    ∃ white, fillOutside (scaled n s) n left right (lo, hi) = some white ∧
      (∀ p : Pt, (scaled n s left).1 ≤ p.1 → p.1 ≤ (scaled n s right).1 → lo ≤ p.2 → p.2 ≤ hi → p ∉ polygon (scaled n s) n → p ∈ white) ∧
      (∀ p ∈ white, p ∈ polygon (scaled n s) n → ∃ j : ℕ, j < n ∧ cross (s • unitCorner n j) (s • unitCorner n (j + 1)) p = 0) := by
  have hl' := leftmost_unit hs hl
  have hr' := rightmost_unit hs hr
  have hlr := left_lt_right hn hl'.1 hr'.1 hl'.2 hr'.2
  have hn0 : 0 < n := by omega
  let gb : ℕ → Pt := fun t => scaled n s (left + t)
  let gt : ℕ → Pt := fun t => scaled n s (wrap n ((left : ℤ) - (t : ℕ)))
  have hbot := botLoop_eq hr'.1 (n + 1) left hlr.le (by omega)
  have htop := topLoop_eq (n := n) (right := right) hr'.1 (n + 1) left (by omega) (by omega) (by omega)
  have hcb : (left :: (List.range (right - left)).map fun t => left + 1 + t).map (scaled n s) =
      (List.range (right - left + 1)).map gb := by
    rw [List.range_succ_eq_map, List.map_cons, List.map_cons, List.map_map, List.map_map]
    congr 1
    refine List.map_congr_left fun t _ => ?_
    simp only [Function.comp, gb]
    congr 1
    omega
  have hct : (left :: (List.range ((left : ℤ) - (right - n)).toNat).map fun t : ℕ => wrap n ((left : ℤ) - 1 - (t : ℤ))).map (scaled n s) =
      (List.range (left + n - right + 1)).map gt := by
    rw [show ((left : ℤ) - (right - n)).toNat = left + n - right by omega, List.range_succ_eq_map, List.map_cons, List.map_cons,
      List.map_map, List.map_map]
    refine congrArg₂ List.cons ?_ (List.map_congr_left fun t _ => ?_)
    · simp [gt, wrap]
    · simp only [Function.comp, gt]
      congr 2
      push_cast
      ring
  refine ⟨between ((List.range (right - left + 1)).map gb) lo ∪ between ((List.range (left + n - right + 1)).map gt) hi, ?_, ?_, ?_⟩
  · unfold fillOutside
    rw [if_neg (by omega), hbot, htop]
    simp only [hcb, hct]
  · intro p h1 h2 h3 h4 h5
    have hmemb : ∀ t ≤ right - left, gb t ∈ polygon (scaled n s) n := fun t ht => corner_mem _ (by omega)
    have hmemt : ∀ t ≤ left + n - right, gt t ∈ polygon (scaled n s) n := fun t ht =>
      corner_mem _ (wrap_lt (by omega) (by omega) hn0)
    have gbl : gb 0 = scaled n s left := by simp [gb]
    have gbr : gb (right - left) = scaled n s right := by simp only [gb]; congr 1; omega
    have gtl : gt 0 = scaled n s left := by simp [gt, wrap]
    have gtr : gt (left + n - right) = scaled n s right := by
      simp only [gt]; congr 1; unfold wrap; rw [if_pos (by omega)]; omega
    obtain ⟨i, hi1, hi2, hi3⟩ := crossing (fun t => (gb t).1) p.1 (right - left) (by omega) (by rw [gbl]; exact h1)
      (by rw [gbr]; exact h2)
    obtain ⟨k, hk1, hk2, hk3⟩ := crossing (fun t => (gt t).1) p.1 (left + n - right) (by omega) (by rw [gtl]; exact h1)
      (by rw [gtr]; exact h2)
    obtain ⟨t, ht0, ht1, htx⟩ := mix hi2 hi3
    obtain ⟨u, hu0, hu1, hux⟩ := mix hk2 hk3
    have hB := segment_mem (hmemb i (by omega)) (hmemb (i + 1) (by omega)) ht0 ht1
    have hT := segment_mem (hmemt k (by omega)) (hmemt (k + 1) (by omega)) hu0 hu1
    rw [← htx] at hB
    rw [← hux] at hT
    by_cases hb : p.2 ≤ (1 - t) * (gb i).2 + t * (gb (i + 1)).2
    · left
      obtain ⟨l, r, he⟩ := consecutive' gb (right - left) i hi1
      exact ⟨l, _, _, r, he, t, ht0, ht1, htx, Set.mem_uIcc.2 (Or.inl ⟨h3, hb⟩)⟩
    · by_cases hu : (1 - u) * (gt k).2 + u * (gt (k + 1)).2 ≤ p.2
      · right
        obtain ⟨l, r, he⟩ := consecutive' gt (left + n - right) k hk1
        exact ⟨l, _, _, r, he, u, hu0, hu1, hux, Set.mem_uIcc.2 (Or.inr ⟨hu, h4⟩)⟩
      · exfalso
        apply h5
        obtain ⟨x, hx0, hx1, hxe⟩ := mix (le_of_not_ge hb) (le_of_not_ge hu)
        have := segment_mem hB hT hx0 hx1
        dsimp only at this
        rw [← hxe, show (1 - x) * p.1 + x * p.1 = p.1 by ring] at this
        exact this
  · rintro p (⟨l, a, b, r, he, t, ht0, ht1, hx, hy⟩ | ⟨l, a, b, r, he, t, ht0, ht1, hx, hy⟩) hp
    · obtain ⟨i, hi1, ha, hb⟩ := consecutive gb (right - left) l r a b he
      have hj : left + i < n := by omega
      have ha' : a = s • unitCorner n (left + i) := ha
      have hb' : b = s • unitCorner n (left + i + 1) := hb
      have hside := polygon_side hn0 s hj hp
      rw [← ha', ← hb'] at hside
      refine ⟨left + i, hj, ?_⟩
      rw [← ha', ← hb']
      have hmono : a.1 ≤ b.1 := by
        rw [ha', hb']
        simp only [unitCorner_eq, Prod.smul_fst, smul_eq_mul]
        have := bottom_mono hn hl'.1 hr'.1 hl'.2 hr'.2 (show left ≤ left + i by omega) (show left + i < right by omega)
        exact mul_le_mul_of_nonneg_left (by linarith) hs.le
      have hale : lo ≤ a.2 := by rw [ha]; exact (hlim (left + i) hj).1
      have hble : lo ≤ b.2 := by rw [hb]; exact (hlim (left + (i + 1)) (by omega)).1
      have hlo : lo ≤ (1 - t) * a.2 + t * b.2 := by nlinarith
      rw [Set.uIcc_of_le hlo] at hy
      refine le_antisymm ?_ hside
      unfold cross
      rw [hx]
      have h6 : (b.1 - a.1) * (p.2 - a.2) ≤ (b.1 - a.1) * (t * (b.2 - a.2)) :=
        mul_le_mul_of_nonneg_left (by linarith [hy.2]) (by linarith)
      nlinarith
    · obtain ⟨i, hi1, ha, hb⟩ := consecutive gt (left + n - right) l r a b he
      obtain ⟨j, hj, ha', hb', hmono⟩ := wrap_zero_mono hs hn hl hr i hi1
      have ha'' : a = s • unitCorner n (j + 1) := ha.trans ha'
      have hb'' : b = s • unitCorner n j := hb.trans hb'
      have hside := polygon_side hn0 s hj hp
      rw [← ha'', ← hb''] at hside hmono
      refine ⟨j, hj, ?_⟩
      rw [← ha'', ← hb'']
      have hale : a.2 ≤ hi := by rw [ha]; exact (hlim _ (wrap_lt (by omega) (by omega) hn0)).2
      have hble : b.2 ≤ hi := by rw [hb]; exact (hlim _ (wrap_lt (by omega) (by omega) hn0)).2
      have hlo : (1 - t) * a.2 + t * b.2 ≤ hi := by nlinarith
      rw [Set.uIcc_of_ge hlo] at hy
      refine le_antisymm ?_ hside
      unfold cross
      rw [hx]
      have h6 : (b.1 - a.1) * ((1 - t) * (a.2 - b.2)) ≤ (b.1 - a.1) * (p.2 - b.2) :=
        mul_le_mul_of_nonneg_left (by linarith [hy.1]) (by linarith)
      nlinarith

/-- The hypotheses are met by the triangle: corner 1 is leftmost and corner 2 rightmost. -/
example : Leftmost (scaled 3 1) 3 1 ∧ Rightmost (scaled 3 1) 3 2 := by
  have e1 : step 3 * ((1 : ℕ) : ℝ) = π - π / 3 := by unfold step; push_cast; ring
  have e2 : step 3 * ((2 : ℕ) : ℝ) = π / 3 + π := by unfold step; push_cast; ring
  have c0 : unitCorner 3 0 = (0, 1) := by rw [unitCorner_eq]; simp
  have c1 : unitCorner 3 1 = (-(√3 / 2), -(1 / 2)) := by
    rw [unitCorner_eq, e1, sin_pi_sub, cos_pi_sub, sin_pi_div_three, cos_pi_div_three]
  have c2 : unitCorner 3 2 = (√3 / 2, -(1 / 2)) := by
    rw [unitCorner_eq, e2, sin_add_pi, cos_add_pi, sin_pi_div_three, cos_pi_div_three]; simp
  have h3 : 0 < √3 := Real.sqrt_pos.2 (by norm_num)
  refine ⟨⟨by omega, fun j hj => ?_⟩, ⟨by omega, fun j hj => ?_⟩⟩ <;>
    interval_cases j <;> simp [scaled, c0, c1, c2] <;> linarith

end SBayes.Simplex
