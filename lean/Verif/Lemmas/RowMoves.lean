import Verif.Lemmas.ContMoves
import Verif.Lemmas.Contract
/- Moves of the rows of a structure: sharing out the mass of some entries of a row. -/
namespace SBayes.Meas
set_option linter.unusedSectionVars false
open SBayes.Effects SBayes.Draws SBayes.Kernel MeasureTheory
open scoped BigOperators ENNReal

section Lens
variable {X : Type} [MeasurableSpace X] {C : ℕ} (L : Lens X (Fin C → ℝ)) {A B : Finset (Fin C)} {i j : Fin C}

/-- The mass of the entries `B` of a row is shared out anew. -/
noncomputable def Lens.share (B : Finset (Fin C)) : Move X := L.move (uniformSimplex B) (spread B) (meas_spread B)

/-- Two entries of a row share their mass as drawn. -/
noncomputable def Lens.resplit (i j : Fin C) : Move X :=
  L.move (volume.restrict (Set.Ioo (0 : ℝ) 1)) (fun v t => along v i j t) (measurable_along i j)

theorem Lens.share_op (B : Finset (Fin C)) (g : X → ℝ≥0∞) (x : X) :
    (L.share B).op g x = ∫⁻ u, g (L.set x (spread B (L.get x) u)) ∂uniformSimplex B := rfl

theorem Lens.resplit_op (i j : Fin C) (g : X → ℝ≥0∞) (x : X) :
    (L.resplit i j).op g x = ∫⁻ t in Set.Ioo (0 : ℝ) 1, g (L.set x (along (L.get x) i j t)) := rfl

theorem Lens.share_only (B : Finset (Fin C)) : MovesOnly L (L.share B) := move_only L _ _ _

theorem Lens.resplit_only (i j : Fin C) : MovesOnly L (L.resplit i j) := move_only L _ _ _

/-- Sharing out the mass of the entries `B` once more within `B`. -/
theorem Lens.resplit_absorb (hi : i ∈ B) (hj : j ∈ B) (hij : i ≠ j) (G : Set X) : Absorbs G (L.share B) (L.resplit i j) := by
  intro g hg h x hx
  have h0 := h x hx
  rw [L.share_op] at h0 ⊢
  have hm : Measurable fun u => g (L.set x (spread B (L.get x) u)) :=
    hg.comp (L.mset.comp (measurable_const.prodMk ((meas_spread B).comp (measurable_const.prodMk measurable_id))))
  rw [← uniformSimplex_along hi hj hij hm] at h0
  have hm2 : Measurable fun u => ∫⁻ t in Set.Ioo (0 : ℝ) 1, g (L.set x (spread B (L.get x) (along u i j t))) :=
    Measurable.lintegral_prod_right' (hm.comp (measurable_along i j))
  rw [lintegral_eq_zero_iff hm2] at h0
  refine (lintegral_congr_ae (h0.mono fun u hu => ?_)).trans lintegral_zero
  have hu' : ∫⁻ t in Set.Ioo (0 : ℝ) 1, g (L.set x (spread B (L.get x) (along u i j t))) = 0 := hu
  rw [L.resplit_op]
  simp only [L.get_set, L.set_set, along_spread_in hi hj]
  exact hu'

/-- Sharing out the mass of the entries `B` does not interfere with sharing out mass outside `B`. -/
theorem Lens.resplit_comm (hi : i ∉ B) (hj : j ∉ B) : Comm (L.resplit i j) (L.share B) := by
  have key : ∀ (x : X) (t : ℝ) (u : Fin C → ℝ),
      L.set (L.set x (along (L.get x) i j t)) (spread B (L.get (L.set x (along (L.get x) i j t))) u) =
        L.set (L.set x (spread B (L.get x) u)) (along (L.get (L.set x (spread B (L.get x) u))) i j t) := by
    intro x t u
    rw [L.get_set, L.get_set, L.set_set, L.set_set, along_spread_out hi hj]
  exact fun x t u => key x t u

/-- What vanishes when the mass of `B` and one more entry is shared out, vanishes when that of `B` is shared out, and then
that of one entry in `B` and one outside `B`. -/
theorem Lens.resplit_cross (h : (i ∈ B ∧ j ∉ B) ∨ (i ∉ B ∧ j ∈ B)) (hiA : i ∈ A) (hjA : j ∈ A) (hBA : B ⊆ A) {g : X → ℝ≥0∞} (hg : Measurable g)
    {x : X} (hx : Row A (L.get x)) (h0 : ∀ k ∈ A, k ∉ B → (L.share (insert k B)).op g x = 0) : (L.share B).op ((L.resplit i j).op g) x = 0 := by
  have key : ∀ a b, a ∈ B → b ∉ B → b ∈ A → ∀ᵐ u ∂uniformSimplex B, ∀ᵐ t ∂volume.restrict (Set.Ioo (0 : ℝ) 1),
      g (L.set x (along (spread B (L.get x) u) a b t)) = 0 := by
    intro a b ha hb hbA
    have hk := h0 b hbA hb
    rw [L.share_op] at hk
    have hm : Measurable fun u => g (L.set x (spread (insert b B) (L.get x) u)) :=
      hg.comp (L.mset.comp (measurable_const.prodMk ((meas_spread _).comp (measurable_const.prodMk measurable_id))))
    rw [lintegral_eq_zero_iff hm] at hk
    have hZ : MeasurableSet {v : Fin C → ℝ | g (L.set x v) = 0} := by
      have : Measurable fun v => g (L.set x v) := hg.comp (L.mset.comp (measurable_const.prodMk measurable_id))
      exact this (measurableSet_singleton 0)
    exact spread_merge' ha hb (hx.sum_pos' ⟨a, ha⟩ hBA) (hx.pos hbA) hZ hk
  rw [L.share_op]
  have hall : ∀ᵐ u ∂uniformSimplex B, ∀ᵐ t ∂volume.restrict (Set.Ioo (0 : ℝ) 1), g (L.set x (along (spread B (L.get x) u) i j t)) = 0 := by
    rcases h with ⟨hi, hj⟩ | ⟨hi, hj⟩
    · exact key i j hi hj hjA
    · refine (key j i hj hi hiA).mono fun u hu => ?_
      have hij : i ≠ j := fun e => hi (e ▸ hj)
      have hflip : ∀ᵐ t ∂volume.restrict (Set.Ioo (0 : ℝ) 1), g (L.set x (along (spread B (L.get x) u) j i (1 - t))) = 0 := by
        have hq : MeasurePreserving (fun t : ℝ => 1 - t) volume volume := Measure.measurePreserving_sub_left volume 1
        rw [ae_restrict_iff' measurableSet_Ioo] at hu ⊢
        filter_upwards [hq.quasiMeasurePreserving.ae hu] with t ht ht01
        exact ht ⟨by linarith [ht01.2], by linarith [ht01.1]⟩
      refine hflip.mono fun t ht => ?_
      have e : ∀ v : Fin C → ℝ, along v i j t = along v j i (1 - t) := by
        intro v
        unfold along
        rw [Function.update_comm hij, sub_sub_cancel, add_comm (v j)]
      rw [e]
      exact ht
  refine (lintegral_congr_ae (hall.mono fun u hu => ?_)).trans lintegral_zero
  rw [L.resplit_op]
  simp only [L.get_set, L.set_set]
  exact (lintegral_congr_ae hu).trans lintegral_zero

/-- Sharing out the mass of one entry changes nothing. -/
theorem Lens.share_single {k : Fin C} (g : X → ℝ≥0∞) (x : X) : (L.share {k}).op g x = g x := by
  have : IsProbabilityMeasure (uniformSimplex ({k} : Finset (Fin C))) := uniformSimplex_prob (Finset.singleton_nonempty k)
  have hr : ∀ᵐ u ∂uniformSimplex ({k} : Finset (Fin C)), Row {k} u := uniformSimplex_ae (Finset.singleton_nonempty k)
  rw [L.share_op, lintegral_congr_ae (hr.mono fun u hu => by rw [spread_single hu, L.set_get]) (g := fun _ => g x)]
  simp

end Lens

/-! ### Structures made of rows -/

/-- A structure made of rows, each of them a probability vector with given support. -/
structure Rows (X ι : Type) [MeasurableSpace X] where
  C : ι → ℕ
  len : (b : ι) → Lens X (Fin (C b) → ℝ)
  sup : (b : ι) → Finset (Fin (C b))
  ne : ∀ b, (sup b).Nonempty
  indep : ∀ b b', b ≠ b' → Indep (len b) (len b')
  ext : ∀ x y, (∀ b, (len b).get x = (len b).get y) → x = y

namespace Rows
variable {X ι : Type} [MeasurableSpace X] [DecidableEq ι] (R : Rows X ι)

/-- All rows are in the interior of their simplices. -/
def Int : Set X := {x | ∀ b, Row (R.sup b) ((R.len b).get x)}

/-- Only the row `b` is moved. -/
def On (b : ι) (P : Move X) : Prop := MovesOnly (R.len b) P

/-- Drawing a row anew. -/
noncomputable def renew (b : ι) : Move X := (R.len b).share (R.sup b)

variable {R} {G : Set X}

theorem On.comm {b b' : ι} {P Q : Move X} (hP : R.On b P) (hQ : R.On b' Q) (h : b ≠ b') : Comm P Q := MovesOnly.comm (R.indep b b' h) hP hQ

theorem set_int {x : X} (hx : x ∈ R.Int) (b : ι) {v : Fin (R.C b) → ℝ} (hv : Row (R.sup b) v) : (R.len b).set x v ∈ R.Int := by
  intro b'
  by_cases h : b' = b
  · subst h
    rw [(R.len b').get_set]
    exact hv
  · rw [(R.indep b' b h).get]
    exact hx b'

theorem share_stays (b : ι) {B : Finset (Fin (R.C b))} (hB : B.Nonempty) (hBA : B ⊆ R.sup b) : ((R.len b).share B).Stays R.Int := fun x hx => by
  have : ∀ᵐ u ∂uniformSimplex B, Row B u := uniformSimplex_ae hB
  exact this.mono fun u hu => set_int hx b ((hx b).spread' hB hBA hu)

theorem renew_stays (b : ι) : (R.renew b).Stays R.Int := share_stays b (R.ne b) (Finset.Subset.refl _)

theorem resplit_stays (b : ι) {i j : Fin (R.C b)} (hi : i ∈ R.sup b) (hj : j ∈ R.sup b) (hij : i ≠ j) :
    ((R.len b).resplit i j).Stays R.Int := fun x hx => by
  have : ∀ᵐ t ∂volume.restrict (Set.Ioo (0 : ℝ) 1), t ∈ Set.Ioo (0 : ℝ) 1 := ae_restrict_mem measurableSet_Ioo
  exact this.mono fun t ht => set_int hx b ((hx b).along hi hj hij ht)

theorem pres_rows {Q : ι → Move X} (hQ : ∀ b, R.On b (Q b)) {js : List ι} (hjs : js.Nodup) {b : ι} {P : Move X} (hP : R.On b P)
    (hst : P.Stays G) (hab : b ∈ js → Absorbs G (Q b) P) : Pres G (js.map Q) P := by
  intro h hh hn
  by_cases hb : b ∈ js
  · obtain ⟨l1, l2, rfl⟩ := List.append_of_mem hb
    rw [List.map_append, List.map_cons] at hn ⊢
    rw [List.nodup_append] at hjs
    have h1 : ∀ b' ∈ l1, b ≠ b' := fun b' hb' e => hjs.2.2 b' hb' b List.mem_cons_self e.symm
    have h2 : ∀ b' ∈ l2, b ≠ b' := fun b' hb' e => (List.nodup_cons.mp hjs.2.1).1 (e ▸ hb')
    refine Null.absorb hh hn (fun m hm => ?_) (fun m hm => ?_) (hab hb)
    · obtain ⟨b', hb', rfl⟩ := List.mem_map.mp hm
      exact ⟨hP.comm (hQ b') (h1 b' hb'), (hQ b).comm (hQ b') (h1 b' hb')⟩
    · obtain ⟨b', hb', rfl⟩ := List.mem_map.mp hm
      exact hP.comm (hQ b') (h2 b' hb')
  · refine Null.comm hh hn (fun m hm => ?_) hst
    obtain ⟨b', hb', rfl⟩ := List.mem_map.mp hm
    exact hP.comm (hQ b') fun e => hb (e ▸ hb')

/-- Interior points at which the entries `B` of a row have a given mass. -/
def Slab (R : Rows X ι) (b : ι) (B : Finset (Fin (R.C b))) (s0 : ℝ) : Set X := {x | x ∈ R.Int ∧ ∑ k ∈ B, (R.len b).get x k = s0}

theorem on_other {b b' : ι} {P : Move X} (hP : R.On b' P) (hb : b' ≠ b) (x : X) (e : P.E) : (R.len b).get (P.φ x e) = (R.len b).get x := by
  obtain ⟨st, hst⟩ := hP
  rw [hst]
  exact (R.indep b b' (Ne.symm hb)).get _ _

theorem stays_slab {b b' : ι} {B : Finset (Fin (R.C b))} {s0 : ℝ} {P : Move X} (hP : R.On b' P) (hb : b' ≠ b) (hst : P.Stays R.Int) :
    P.Stays (R.Slab b B s0) := fun x hx => (hst x hx.1).mono fun e he => ⟨he, by rw [on_other hP hb]; exact hx.2⟩

theorem share_slab {b : ι} {B : Finset (Fin (R.C b))} {s0 : ℝ} (hB : B.Nonempty) (hBA : B ⊆ R.sup b) :
    ((R.len b).share B).Stays (R.Slab b B s0) := fun x hx => by
  have : ∀ᵐ u ∂uniformSimplex B, Row B u := uniformSimplex_ae hB
  refine this.mono fun u hu => ⟨set_int hx.1 b ((hx.1 b).spread' hB hBA hu), ?_⟩
  show ∑ k ∈ B, (R.len b).get ((R.len b).set x (spread B ((R.len b).get x) u)) k = s0
  rw [(R.len b).get_set, sum_spread hu]
  exact hx.2

theorem resplit_slab {b : ι} {B : Finset (Fin (R.C b))} {s0 : ℝ} {i j : Fin (R.C b)} (hi : i ∈ R.sup b) (hj : j ∈ R.sup b) (hij : i ≠ j)
    (hB : i ∈ B ↔ j ∈ B) : ((R.len b).resplit i j).Stays (R.Slab b B s0) := fun x hx => by
  have key : ∀ t : ℝ, ∑ k ∈ B, (R.len b).get ((R.len b).set x (along ((R.len b).get x) i j t)) k = s0 := by
    intro t
    rw [(R.len b).get_set]
    by_cases hi' : i ∈ B
    · rw [sum_along_in hi' (hB.mp hi') hij]; exact hx.2
    · rw [sum_along_out hi' fun hj' => hi' (hB.mpr hj')]; exact hx.2
  exact (resplit_stays b hi hj hij x hx.1).mono fun t ht => ⟨ht, key t⟩

end Rows

theorem Null.of_zero {X : Type} [MeasurableSpace X] {G : Set X} {l : List (Move X)} {h k : X → ℝ≥0∞} (hl : ∀ P ∈ l, P.Stays G) (hk : Measurable k)
    (hn : Null G l k) (h0 : ∀ x ∈ G, k x = 0 → h x = 0) : Null G l h := by
  refine (hn.const_mul hk ⊤).mono hl fun x hx => ?_
  by_cases hz : k x = 0
  · rw [h0 x hx hz, hz, mul_zero]
  · rw [ENNReal.top_mul hz]; exact le_top

end SBayes.Meas
