import Verif.Model.Sampler
import Verif.Lemmas.PiInt
/- Laws that leave a measure invariant. -/
namespace SBayes.Meas
open MeasureTheory SBayes.MH SBayes.Kernel
open scoped BigOperators ENNReal

section Refresh
variable {X E Y : Type} [MeasurableSpace X] [MeasurableSpace E] [MeasurableSpace Y]

/-- Moving a `μ`-distributed point with an independent `ρ`-distributed draw leaves `μ` invariant. -/
def Refresh (μ : Measure X) (ρ : Measure E) (ψ : X → E → X) : Prop :=
  Measurable (Function.uncurry ψ) ∧ ∀ g : X → ℝ≥0∞, Measurable g → ∫⁻ x, ∫⁻ e, g (ψ x e) ∂ρ ∂μ = ∫⁻ x, g x ∂μ

theorem Refresh.meas {μ : Measure X} {ρ : Measure E} [SFinite ρ] {ψ : X → E → X} (h : Refresh μ ρ ψ) {g : X → ℝ≥0∞}
    (hg : Measurable g) : Measurable fun x => ∫⁻ e, g (ψ x e) ∂ρ :=
  Measurable.lintegral_prod_right' (f := fun p : X × E => g (ψ p.1 p.2)) (hg.comp h.1)

theorem Refresh.pi {ι : Type} [Fintype ι] [DecidableEq ι] {X : ι → Type} [∀ i, MeasurableSpace (X i)]
    {ν : (i : ι) → Measure (X i)} [∀ i, SigmaFinite (ν i)] (i : ι) {ρ : Measure E} [SFinite ρ] {ψ : X i → E → X i}
    (h : Refresh (ν i) ρ ψ) : Refresh (Measure.pi ν) ρ fun x e => Function.update x i (ψ (x i) e) := by
  have hm : Measurable (Function.uncurry fun (x : ∀ i, X i) (e : E) => Function.update x i (ψ (x i) e)) := by
    have := (measurable_update_pair (X := X) i).comp (Measurable.prodMk (measurable_fst (β := E))
      (h.1.comp (Measurable.prodMk ((measurable_pi_apply i).comp measurable_fst) measurable_snd)))
    exact this
  refine ⟨hm, fun g hg => ?_⟩
  refine lintegral_pi_congr i ?_ hg fun x => ?_
  · exact Measurable.lintegral_prod_right' (f := fun p : (∀ i, X i) × E => g (Function.update p.1 i (ψ (p.1 i) p.2))) (hg.comp hm)
  · simp only [Function.update_self, Function.update_idem]
    exact h.2 (fun a => g (Function.update x i a)) (hg.comp (measurable_update x))

theorem Refresh.fst {μ : Measure X} [SFinite μ] {κ : Measure Y} [SFinite κ] {ρ : Measure E} [SFinite ρ] {ψ : X → E → X}
    (h : Refresh μ ρ ψ) : Refresh (μ.prod κ) ρ fun x e => (ψ x.1 e, x.2) := by
  have hm : Measurable (Function.uncurry fun (x : X × Y) (e : E) => (ψ x.1 e, x.2)) := by
    refine Measurable.prodMk ?_ (measurable_snd.comp measurable_fst)
    exact h.1.comp (Measurable.prodMk (measurable_fst.comp measurable_fst) measurable_snd)
  refine ⟨hm, fun g hg => ?_⟩
  have hG := Measurable.lintegral_prod_right' (ν := ρ) (f := fun p : (X × Y) × E => g (ψ p.1.1 p.2, p.1.2)) (hg.comp hm)
  rw [lintegral_prod_symm _ hG.aemeasurable, lintegral_prod_symm _ hg.aemeasurable]
  refine lintegral_congr fun y => ?_
  exact h.2 (fun x => g (x, y)) (hg.comp (measurable_id.prodMk measurable_const))

theorem Refresh.snd {μ : Measure X} [SFinite μ] {κ : Measure Y} [SFinite κ] {ρ : Measure E} [SFinite ρ] {ψ : Y → E → Y}
    (h : Refresh κ ρ ψ) : Refresh (μ.prod κ) ρ fun x e => (x.1, ψ x.2 e) := by
  have hm : Measurable (Function.uncurry fun (x : X × Y) (e : E) => (x.1, ψ x.2 e)) := by
    refine Measurable.prodMk (measurable_fst.comp measurable_fst) ?_
    exact h.1.comp (Measurable.prodMk (measurable_snd.comp measurable_fst) measurable_snd)
  refine ⟨hm, fun g hg => ?_⟩
  have hG := Measurable.lintegral_prod_right' (ν := ρ) (f := fun p : (X × Y) × E => g (p.1.1, ψ p.1.2 p.2)) (hg.comp hm)
  rw [lintegral_prod _ hG.aemeasurable, lintegral_prod _ hg.aemeasurable]
  refine lintegral_congr fun x => ?_
  exact h.2 (fun y => g (x, y)) (hg.comp (measurable_const.prodMk measurable_id))

/-- A Metropolis-Hastings step that moves along the slices of a refreshing map. -/
theorem slice_mh {μ : Measure X} [SFinite μ] {ρ : Measure E} [SFinite ρ] {ψ : X → E → X} (h : Refresh μ ρ ψ)
    (p : X → ℝ≥0∞) (hp : Measurable p) (q acc rej : X → E → ℝ≥0∞) (hq : Measurable (Function.uncurry q))
    (hacc : Measurable (Function.uncurry acc)) (hrej : Measurable (Function.uncurry rej))
    (hone : ∀ᵐ x ∂μ, ∫⁻ t, q x t * (acc x t + rej x t) ∂ρ = 1)
    (hrev : ∀ᵐ x ∂μ, ∀ᵐ s ∂ρ, ∀ᵐ t ∂ρ, ψ (ψ x s) t = ψ x t ∧
      p (ψ x s) * (q (ψ x s) t * acc (ψ x s) t) = p (ψ x t) * (q (ψ x t) s * acc (ψ x t) s))
    (g : X → ℝ≥0∞) (hg : Measurable g) :
    ∫⁻ x, p x * ∫⁻ t, q x t * (acc x t * g (ψ x t) + rej x t * g x) ∂ρ ∂μ = ∫⁻ x, p x * g x ∂μ := by
  have hqa : Measurable fun z : X × E => q z.1 z.2 * acc z.1 z.2 := hq.mul hacc
  have hqr : Measurable fun z : X × E => q z.1 z.2 * rej z.1 z.2 := hq.mul hrej
  have hψ : Measurable fun z : X × E => ψ z.1 z.2 := h.1
  have hA : Measurable fun x => p x * ∫⁻ t, q x t * acc x t * g (ψ x t) ∂ρ :=
    hp.mul (Measurable.lintegral_prod_right' (f := fun z : X × E => q z.1 z.2 * acc z.1 z.2 * g (ψ z.1 z.2)) (hqa.mul (hg.comp hψ)))
  have hA' : Measurable fun x => g x * (p x * ∫⁻ t, q x t * acc x t ∂ρ) :=
    hg.mul (hp.mul (Measurable.lintegral_prod_right' (f := fun z : X × E => q z.1 z.2 * acc z.1 z.2) hqa))
  have slice : ∀ (f : X × E → ℝ≥0∞), Measurable f → ∀ x, Measurable fun t => f (x, t) := fun f hf x =>
    hf.comp (measurable_const.prodMk measurable_id)
  -- the flow of accepted moves
  have key : ∫⁻ x, p x * ∫⁻ t, q x t * acc x t * g (ψ x t) ∂ρ ∂μ = ∫⁻ x, g x * (p x * ∫⁻ t, q x t * acc x t ∂ρ) ∂μ := by
    rw [← h.2 _ hA, ← h.2 _ hA']
    refine lintegral_congr_ae ?_
    filter_upwards [hrev] with x hx
    have hψx : Measurable fun s => ψ x s := hψ.comp (measurable_const.prodMk measurable_id)
    have e1 : ∫⁻ s, p (ψ x s) * ∫⁻ t, q (ψ x s) t * acc (ψ x s) t * g (ψ (ψ x s) t) ∂ρ ∂ρ =
        ∫⁻ s, ∫⁻ t, p (ψ x t) * (q (ψ x t) s * acc (ψ x t) s) * g (ψ x t) ∂ρ ∂ρ := by
      refine lintegral_congr_ae ?_
      filter_upwards [hx] with s hs
      rw [← lintegral_const_mul]
      · refine lintegral_congr_ae ?_
        filter_upwards [hs] with t ht
        rw [ht.1, ← ht.2]
        ring
      · exact slice (fun z => q z.1 z.2 * acc z.1 z.2 * g (ψ z.1 z.2)) (hqa.mul (hg.comp hψ)) (ψ x s)
    rw [e1, lintegral_lintegral_swap]
    · refine lintegral_congr fun t => ?_
      rw [← lintegral_const_mul, ← lintegral_const_mul]
      · refine lintegral_congr fun s => ?_
        ring
      · exact (slice _ hqa (ψ x t)).const_mul _
      · exact slice _ hqa (ψ x t)
    · refine Measurable.aemeasurable ?_
      have hx2 : Measurable fun z : E × E => ψ x z.2 := hψx.comp measurable_snd
      exact ((hp.comp hx2).mul (hqa.comp (hx2.prodMk measurable_fst))).mul (hg.comp hx2)
  have split : ∀ x, ∫⁻ t, q x t * (acc x t * g (ψ x t) + rej x t * g x) ∂ρ =
      ∫⁻ t, q x t * acc x t * g (ψ x t) ∂ρ + (∫⁻ t, q x t * rej x t ∂ρ) * g x := by
    intro x
    rw [← lintegral_mul_const _ (slice _ hqr x), ← lintegral_add_left]
    · refine lintegral_congr fun t => ?_
      ring
    · exact slice (fun z => q z.1 z.2 * acc z.1 z.2 * g (ψ z.1 z.2)) (hqa.mul (hg.comp hψ)) x
  simp only [split]
  simp only [mul_add (p _)]
  rw [lintegral_add_left hA, key, ← lintegral_add_left hA']
  refine lintegral_congr_ae ?_
  filter_upwards [hone] with x hx
  have : (∫⁻ t, q x t * acc x t ∂ρ) + ∫⁻ t, q x t * rej x t ∂ρ = 1 := by
    rw [← hx, ← lintegral_add_left (slice _ hqa x)]
    refine lintegral_congr fun t => ?_
    ring
  calc g x * (p x * ∫⁻ t, q x t * acc x t ∂ρ) + p x * ((∫⁻ t, q x t * rej x t ∂ρ) * g x)
      = p x * g x * ((∫⁻ t, q x t * acc x t ∂ρ) + ∫⁻ t, q x t * rej x t ∂ρ) := by ring
    _ = p x * g x := by rw [this, mul_one]

end Refresh

/-! ### Invariance -/

section Keeps
variable {X : Type} [MeasurableSpace X]

/-- The law is measurable and leaves `π` invariant. -/
def Keeps (π : Measure X) (T : X → Law X) : Prop :=
  ∀ g : X → ℝ≥0∞, Measurable g → Measurable (fun x => T x g) ∧ ∫⁻ x, T x g ∂π = ∫⁻ x, g x ∂π

theorem sum_map_mul_const {α : Type} (l : List α) (f : α → ℝ≥0∞) (c : ℝ≥0∞) :
    (l.map fun a => f a * c).sum = (l.map f).sum * c := by
  induction l with
  | nil => simp
  | cons a l ih => simp [ih, add_mul]

/-- A random choice, with fixed probabilities, between laws that keep `π`. -/
theorem Keeps.mix {π : Measure X} {α : Type} (l : Rand α) (hone : (l.map fun a => ENNReal.ofReal a.2).sum = 1)
    (T : α → X → Law X) (hT : ∀ a ∈ l, Keeps π (T a.1)) : Keeps π fun x => Law.bind (Law.ofRand l) fun a => T a x := by
  intro g hg
  have hm : Measurable (fun x => (Law.bind (Law.ofRand l) fun a => T a x) g) := by
    unfold Law.bind Law.ofRand
    clear hone
    induction l with
    | nil => simp
    | cons a l ih =>
      simp only [List.map_cons, List.sum_cons]
      exact ((hT a List.mem_cons_self g hg).1.const_mul _).add (ih fun b hb => hT b (List.mem_cons_of_mem _ hb))
  refine ⟨hm, ?_⟩
  have : ∀ l : Rand α, (∀ a ∈ l, Keeps π (T a.1)) → ∫⁻ x, (l.map fun a => ENNReal.ofReal a.2 * T a.1 x g).sum ∂π =
      (l.map fun a => ENNReal.ofReal a.2 * ∫⁻ x, g x ∂π).sum := by
    intro l hl
    induction l with
    | nil => simp
    | cons a l ih =>
      simp only [List.map_cons, List.sum_cons]
      have ha := hl a List.mem_cons_self g hg
      rw [lintegral_add_left (ha.1.const_mul _), lintegral_const_mul _ ha.1, ha.2,
        ih fun b hb => hl b (List.mem_cons_of_mem _ hb)]
  unfold Law.bind Law.ofRand
  rw [this l hT, sum_map_mul_const, hone, one_mul]

theorem Keeps.run {π : Measure X} {T : X → Law X} (h : Keeps π T) (n : ℕ) : Keeps π (Kernel.run T n) := by
  induction n with
  | zero => intro g hg; exact ⟨hg, rfl⟩
  | succ n ih =>
    intro g hg
    obtain ⟨h1, h2⟩ := ih g hg
    obtain ⟨h3, h4⟩ := h (fun x => Kernel.run T n x g) h1
    exact ⟨h3, h4.trans h2⟩

theorem Keeps.prob {π : Measure X} {T : X → Law X} (h : Keeps π T) {B : Set X} (hB : MeasurableSet B) :
    ∫⁻ x, (T x).prob B ∂π = π B := by
  unfold Law.prob
  rw [(h _ (measurable_one.indicator hB)).2, lintegral_indicator_one hB]

end Keeps

end SBayes.Meas
