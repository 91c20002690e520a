import Verif.Lemmas.LawKernel
/- Sets that several iterations respect are respected by one iteration, if a part of the iteration may be repeated without effect. -/
namespace SBayes.Meas
set_option linter.unusedSectionVars false
open SBayes.MH SBayes.Kernel MeasureTheory Filter Topology
open scoped BigOperators ENNReal

variable {X : Type} [MeasurableSpace X] {π : Measure X}

/-- A part of an iteration that is chosen with a fixed probability, and is the same when done twice. -/
structure Lazy (π : Measure X) (T E : X → Law X) (w : ℝ≥0∞) : Prop where
  ne_zero : w ≠ 0
  ne_top : w ≠ ⊤
  part : ∀ x g, w * E x g ≤ T x g
  keeps : Keeps π E
  super : ∀ x, Super (E x)
  mass : ∀ᵐ x ∂π, E x 1 = 1
  idem : ∀ x g, E x (fun y => E y g) = E x g

variable {T E : X → Law X} {w : ℝ≥0∞}

theorem Lazy.run (h : Lazy π T E w) (hT : ∀ x, Super (T x)) (n : ℕ) (x : X) (g : X → ℝ≥0∞) :
    w ^ (n + 1) * E x g ≤ Kernel.run T (n + 1) x g := by
  induction n generalizing x with
  | zero => rw [zero_add, pow_one]; exact h.part x g
  | succ n ih =>
    calc w ^ (n + 1 + 1) * E x g = w ^ (n + 1) * (w * E x fun y => E y g) := by rw [h.idem, pow_succ, mul_assoc]
      _ ≤ w ^ (n + 1) * T x fun y => E y g := mul_le_mul_right (h.part x _) _
      _ = T x fun y => w ^ (n + 1) * E y g := ((hT x).smul _ _ (ENNReal.pow_ne_top h.ne_top)).symm
      _ ≤ T x fun y => Kernel.run T (n + 1) y g := (hT x).mono _ _ fun y => ih y

theorem Splits.compl {A : Set X} (h : Splits π T A) : Splits π T Aᶜ :=
  ⟨h.stay.mono fun x hx hA => hx (not_not.mp hA), h.out.mono fun x hx hA => by rw [compl_compl]; exact hx hA⟩

theorem splits_of_run [IsFiniteMeasure π] {K : ProbabilityTheory.Kernel X X} (hR : Represents π T K) (hT : Keeps π T) (hs : ∀ x, Super (T x))
    (h : Lazy π T E w) {s : ℕ} (hs0 : 0 < s) {A : Set X} (hA : MeasurableSet A) (hsp : Splits π (Kernel.run T s) A) : Splits π T A := by
  obtain ⟨n, rfl⟩ : ∃ n, s = n + 1 := ⟨s - 1, by omega⟩
  have key : ∀ B, MeasurableSet B → (∀ᵐ x ∂π, x ∉ B → Kernel.run T (n + 1) x (B.indicator 1) = 0) →
      ∀ᵐ x ∂π, x ∉ B → T x (B.indicator 1) = 0 := by
    intro B hB hout
    cases n with
    | zero => exact hout
    | succ n =>
      have hw : w ^ (n + 1) ≠ 0 := pow_ne_zero _ h.ne_zero
      have hEB := h.keeps _ (measurable_one.indicator hB)
      have h1 : ∀ᵐ y ∂π, E y (B.indicator 1) = B.indicator 1 y := by
        refine ae_eq_of_ae_le_of_lintegral_le ?_ ?_ (measurable_one.indicator hB).aemeasurable hEB.2.symm.le
        · filter_upwards [hout, h.mass] with y hy hm
          by_cases hyB : y ∈ B
          · rw [Set.indicator_of_mem hyB, Pi.one_apply, ← hm]
            exact (h.super y).mono _ _ fun z => Set.indicator_le_self' (fun _ _ => zero_le_one) z
          · have := (h.run hs (n + 1) y (B.indicator 1)).trans_eq (hy hyB)
            rcases mul_eq_zero.mp (le_antisymm this bot_le) with h0 | h0
            · exact absurd h0 (pow_ne_zero _ h.ne_zero)
            · rw [h0]; exact bot_le
        · rw [hEB.2, lintegral_indicator_one hB]; exact measure_ne_top π B
      filter_upwards [hout, hR, hR.null_ae hT hs h1] with x hx hRx hnull hxB
      have hG : Measurable fun y => w ^ (n + 1) * B.indicator (1 : X → ℝ≥0∞) y := measurable_const.mul (measurable_one.indicator hB)
      have e := hnull (fun y => w ^ (n + 1) * E y (B.indicator 1)) _ hG fun y hy => by rw [hy]
      have hle : T x (fun y => w ^ (n + 1) * E y (B.indicator 1)) ≤ 0 := by
        rw [← hx hxB]
        exact (hs x).mono _ _ fun y => h.run hs n y _
      rw [e, lintegral_const_mul _ (measurable_one.indicator hB), ← hRx _ (measurable_one.indicator hB)] at hle
      exact (mul_eq_zero.mp (le_antisymm hle bot_le)).resolve_left hw
  exact ⟨key A hA hsp.out, (key Aᶜ hA.compl hsp.compl.out).mono fun x hx hxA => hx fun h => h hxA⟩

end SBayes.Meas
