import Verif.Lemmas.Simplex
import Verif.Spec.Effects
/- Redistributing the mass of two entries of a uniform point of the simplex. -/
namespace SBayes.Meas
open MeasureTheory ProbabilityTheory SBayes.Effects SBayes.Draws
open scoped BigOperators ENNReal

variable {C : ℕ}

theorem measurable_along (i j : Fin C) : Measurable fun p : (Fin C → ℝ) × ℝ => along p.1 i j p.2 := by
  unfold along
  rw [measurable_pi_iff]
  intro k
  by_cases h : k = j
  · subst h; simp only [Function.update_self]; fun_prop
  · simp only [Function.update_of_ne h]
    by_cases h' : k = i
    · subst h'; simp only [Function.update_self]; fun_prop
    · simp only [Function.update_of_ne h']; fun_prop

theorem sum_update2 {i j : Fin C} (hij : i ≠ j) (x : Fin C → ℝ) (a b : ℝ) :
    ∑ k, Function.update (Function.update x i a) j b k = a + b + ∑ k ∈ (Finset.univ.erase i).erase j, x k := by
  rw [← Finset.add_sum_erase _ _ (Finset.mem_univ i), ← Finset.add_sum_erase (Finset.univ.erase i) _
    (Finset.mem_erase.mpr ⟨hij.symm, Finset.mem_univ j⟩), Function.update_self, Function.update_of_ne hij, Function.update_self,
    ← add_assoc]
  congr 1
  refine Finset.sum_congr rfl fun k hk => ?_
  have h1 := Finset.ne_of_mem_erase hk
  have h2 := Finset.ne_of_mem_erase (Finset.mem_of_mem_erase hk)
  rw [Function.update_of_ne h1, Function.update_of_ne h2]

theorem sum_along {i j : Fin C} (hij : i ≠ j) (x : Fin C → ℝ) (b : ℝ) : ∑ k, along x i j b k = ∑ k, x k := by
  have h := sum_update2 hij x (x i) (x j)
  rw [Function.update_eq_self, Function.update_eq_self] at h
  unfold along
  rw [sum_update2 hij, h]
  ring

theorem normalize_along {i j : Fin C} (hij : i ≠ j) (x : Fin C → ℝ) (b : ℝ) :
    normalize (along x i j b) = along (normalize x) i j b := by
  funext k
  unfold Effects.normalize
  rw [sum_along hij]
  unfold along
  by_cases h : k = j
  · subst h; simp only [Function.update_self]; ring
  · simp only [Function.update_of_ne h]
    by_cases h' : k = i
    · subst h'; simp only [Function.update_self]; ring
    · simp only [Function.update_of_ne h']

theorem update2_along {i j : Fin C} (hij : i ≠ j) (x : Fin C → ℝ) (a b t : ℝ) :
    along (Function.update (Function.update x i a) j b) i j t =
      Function.update (Function.update x i (t * (a + b))) j ((1 - t) * (a + b)) := by
  unfold along
  rw [Function.update_self, Function.update_of_ne hij, Function.update_self, Function.update_comm hij.symm,
    Function.update_idem, Function.update_idem]

/-- Replacing the shares of two entries by a uniform share leaves the uniform distribution invariant. -/
theorem uniformSimplex_along {A : Finset (Fin C)} {i j : Fin C} (hi : i ∈ A) (hj : j ∈ A) (hij : i ≠ j)
    {g : (Fin C → ℝ) → ℝ≥0∞} (hg : Measurable g) :
    ∫⁻ u, (∫⁻ t in Set.Ioo (0 : ℝ) 1, g (along u i j t)) ∂uniformSimplex A = ∫⁻ u, g u ∂uniformSimplex A := by
  have hA : A.Nonempty := ⟨i, hi⟩
  have hm : Measurable fun u => ∫⁻ t in Set.Ioo (0 : ℝ) 1, g (along u i j t) :=
    Measurable.lintegral_prod_right' (hg.comp (measurable_along i j))
  have hn := measurable_normalize (ι := Fin C)
  rw [lintegral_uniformSimplex hA hm, lintegral_uniformSimplex hA hg]
  have hs : Measurable fun x : Fin C → ℝ => ENNReal.ofReal (Real.exp (-∑ i, x i)) := by fun_prop
  refine lintegral_eq_of_lmarginal_eq {i, j} ((hm.comp hn).mul hs) ((hg.comp hn).mul hs) ?_
  have hb : ∀ k ∈ A, base1 A k = volume.restrict (Set.Ioi 0) := fun k hk => by unfold base1; rw [if_pos hk]
  have hmarg : ∀ f : (Fin C → ℝ) → ℝ≥0∞, Measurable f → ∀ x, (∫⋯∫⁻_{i, j}, f ∂base1 A) x =
      ∫⁻ a in Set.Ioi (0 : ℝ), ∫⁻ b in Set.Ioi (0 : ℝ), f (Function.update (Function.update x i a) j b) := by
    intro f hf x
    rw [show ({i, j} : Finset (Fin C)) = insert i {j} from rfl, lmarginal_insert f hf (by simpa using hij), hb i hi]
    simp only [lmarginal_singleton]
    rw [hb j hj]
  funext x
  refine (hmarg _ ((hm.comp hn).mul hs) x).trans (Eq.trans ?_ (hmarg _ ((hg.comp hn).mul hs) x).symm)
  set R := ∑ k ∈ (Finset.univ.erase i).erase j, x k
  have hexp : ∀ a b : ℝ, ENNReal.ofReal (Real.exp (-(a + b + R))) =
      ENNReal.ofReal (Real.exp (-(a + b))) * ENNReal.ofReal (Real.exp (-R)) := by
    intro a b
    rw [← ENNReal.ofReal_mul (Real.exp_pos _).le, ← Real.exp_add]
    congr 2; ring
  have h := lintegral_pair (f := fun a b => ENNReal.ofReal (Real.exp (-R)) *
      g (normalize (Function.update (Function.update x i a) j b))) (by
    unfold Function.uncurry
    refine measurable_const.mul ((hg.comp hn).comp ?_)
    rw [measurable_pi_iff]
    intro k
    by_cases h : k = j
    · subst h; simp only [Function.update_self]; fun_prop
    · simp only [Function.update_of_ne h]
      by_cases h' : k = i
      · subst h'; simp only [Function.update_self]; fun_prop
      · simp only [Function.update_of_ne h']; fun_prop)
  have e1 : ∀ a b : ℝ, (∫⁻ t in Set.Ioo (0 : ℝ) 1, g (along (normalize (Function.update (Function.update x i a) j b)) i j t)) *
      ENNReal.ofReal (Real.exp (-∑ k, Function.update (Function.update x i a) j b k)) =
      ENNReal.ofReal (Real.exp (-(a + b))) * ∫⁻ t in Set.Ioo (0 : ℝ) 1, ENNReal.ofReal (Real.exp (-R)) *
        g (normalize (Function.update (Function.update x i (t * (a + b))) j ((1 - t) * (a + b)))) := by
    intro a b
    rw [sum_update2 hij, hexp, lintegral_const_mul' _ _ ENNReal.ofReal_ne_top]
    simp only [← normalize_along hij, update2_along hij]
    ring
  have e2 : ∀ a b : ℝ, g (normalize (Function.update (Function.update x i a) j b)) *
      ENNReal.ofReal (Real.exp (-∑ k, Function.update (Function.update x i a) j b k)) =
      ENNReal.ofReal (Real.exp (-(a + b))) * (ENNReal.ofReal (Real.exp (-R)) *
        g (normalize (Function.update (Function.update x i a) j b))) := by
    intro a b
    rw [sum_update2 hij, hexp]
    ring
  simp only [Pi.mul_apply, Function.comp_apply, e1, e2]
  exact h

/-- The uniform distribution on two entries: a uniform share. -/
theorem uniformSimplex_two {g : (Fin 2 → ℝ) → ℝ≥0∞} (hg : Measurable g) :
    ∫⁻ u, g u ∂uniformSimplex (Finset.univ : Finset (Fin 2)) = ∫⁻ t in Set.Ioo (0 : ℝ) 1, g ![t, 1 - t] := by
  rw [← uniformSimplex_along (i := 0) (j := 1) (Finset.mem_univ _) (Finset.mem_univ _) (by decide) hg]
  have : ∀ᵐ u ∂uniformSimplex (Finset.univ : Finset (Fin 2)),
      (∫⁻ t in Set.Ioo (0 : ℝ) 1, g (along u 0 1 t)) = ∫⁻ t in Set.Ioo (0 : ℝ) 1, g ![t, 1 - t] := by
    filter_upwards [uniformSimplex_ae (A := (Finset.univ : Finset (Fin 2))) ⟨0, Finset.mem_univ _⟩] with u hu
    have h1 : u 0 + u 1 = 1 := by simpa [Fin.sum_univ_two] using hu.2
    refine lintegral_congr fun t => ?_
    congr 1
    unfold along
    funext k
    fin_cases k <;> simp [h1]
  rw [lintegral_congr_ae this]
  have := uniformSimplex_prob (A := (Finset.univ : Finset (Fin 2))) ⟨0, Finset.mem_univ _⟩
  simp

/-- A two-dimensional Dirichlet draw: the share of the first entry has the Dirichlet density on (0, 1). -/
theorem lintegral_dirichlet_two {alpha : Fin 2 → ℝ} (h : ∀ i, 0 < alpha i) {g : (Fin 2 → ℝ) → ℝ≥0∞} (hg : Measurable g) :
    ∫⁻ u, g u ∂dirichletLaw Finset.univ alpha =
      ∫⁻ t in Set.Ioo (0 : ℝ) 1, ENNReal.ofReal (dirichletPdf Finset.univ alpha ![t, 1 - t]) * g ![t, 1 - t] := by
  have hm : Measurable fun u => ENNReal.ofReal (dirichletPdf Finset.univ alpha u / Real.Gamma (Finset.univ : Finset (Fin 2)).card) :=
    ((measurable_dirichletPdf _ alpha).div_const _).ennreal_ofReal
  rw [dirichletLaw_density ⟨0, Finset.mem_univ _⟩ fun i _ => h i, lintegral_withDensity_eq_lintegral_mul _ hm hg,
    uniformSimplex_two (hm.mul hg)]
  refine lintegral_congr fun t => ?_
  simp

end SBayes.Meas
